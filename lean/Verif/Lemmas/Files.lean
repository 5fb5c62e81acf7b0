import Verif.Model.Files
import Verif.Lemmas.Random

/-! # Encodings and lists of writes -/

set_option autoImplicit false

namespace Verif.Files

open Verif.Random Verif.Measurement

/-! ## Encodings -/

theorem encNat_length (n v : ℕ) : (encNat n v).length = n := by simp [encNat]

theorem encNat_succ (n v : ℕ) :
    encNat (n + 1) v = .raw (BitVec.ofNat 8 v) :: encNat n (v / 256) := by
  unfold encNat
  rw [List.range_succ_eq_map, List.map_cons, List.map_map]
  congr 1
  · simp
  · refine List.map_congr_left fun k _ => ?_
    simp only [Function.comp_apply, Nat.succ_eq_add_one]
    rw [pow_succ', Nat.div_div_eq_div_mul]

theorem decNat_encNat (F : Float64) (n v : ℕ) : decNat F (encNat n v) = v % 256 ^ n := by
  induction n generalizing v with
  | zero => simp [encNat, decNat, Nat.mod_one]
  | succ n ih =>
    rw [encNat_succ]
    have h : decNat F (.raw (BitVec.ofNat 8 v) :: encNat n (v / 256))
        = (BitVec.ofNat 8 v).toNat + 256 * decNat F (encNat n (v / 256)) := rfl
    rw [h, ih, BitVec.toNat_ofNat, pow_succ' 256 n, Nat.mod_mul]

/-- an `int` in range is stored exactly -/
theorem decInt_encInt (F : Float64) (v : ℤ) (h1 : -2 ^ 31 ≤ v) (h2 : v < 2 ^ 31) :
    decInt F (encInt v) = v := by
  unfold decInt encInt
  rw [decNat_encNat]
  have h : (BitVec.ofInt 32 v).toNat % 256 ^ 4 = (BitVec.ofInt 32 v).toNat :=
    Nat.mod_eq_of_lt (lt_of_lt_of_le (BitVec.isLt _) (by norm_num))
  rw [h, BitVec.ofNat_toNat, BitVec.setWidth_eq, BitVec.toInt_ofInt]
  unfold Int.bmod
  norm_num at *
  split <;> omega

theorem decWord_encWord (F : Float64) (w : BitVec 64) : decWord F (encWord w) = w := by
  unfold decWord encWord
  rw [decNat_encNat, Nat.mod_eq_of_lt (lt_of_lt_of_le w.isLt (by norm_num)), BitVec.ofNat_toNat,
    BitVec.setWidth_eq]

theorem decSpin_encSpin (F : Float64) (b : BitVec 8) : decSpin F (encSpin b) = b := by
  unfold decSpin encSpin decNat
  simp only [List.foldr_cons, List.foldr_nil, Float64.val, mul_zero, add_zero, BitVec.ofNat_toNat,
    BitVec.setWidth_eq]

theorem encDouble_inj {x y : ℝ} (h : encDouble x = encDouble y) : x = y := by
  unfold encDouble at h
  have := congrArg List.head? h
  simpa [List.finRange_succ] using this

theorem decDouble_encDouble (F : Float64) (x : ℝ) : decDouble F (encDouble x) = x := by
  unfold decDouble
  have h : ∃ y, encDouble x = encDouble y := ⟨x, rfl⟩
  rw [dif_pos h]
  exact (encDouble_inj h.choose_spec).symm

theorem encDouble_length (x : ℝ) : (encDouble x).length = 8 := by simp [encDouble]

theorem encInt_length (v : ℤ) : (encInt v).length = 4 := encNat_length _ _

theorem encWord_length (w : BitVec 64) : (encWord w).length = 8 := encNat_length _ _

theorem encSpin_length (b : BitVec 8) : (encSpin b).length = 1 := rfl

theorem encArray_length {α : Type} (enc : α → List Byte) (size n : ℕ) (a : ℕ → α)
    (h : ∀ x, (enc x).length = size) : (encArray enc n a).length = n * size := by
  unfold encArray
  induction n with
  | zero => simp
  | succ n ih => rw [List.range_succ, List.flatMap_append, List.length_append, ih]; simp [h]; ring

/-- an array is stored exactly -/
theorem entry_encArray {α : Type} (enc : α → List Byte) (dec : List Byte → α) (size n : ℕ) (a : ℕ → α)
    (h : ∀ x, (enc x).length = size) (hd : ∀ x, dec (enc x) = x) (i : ℕ) (hi : i < n) :
    entry dec size (encArray enc n a) i = a i := by
  unfold entry
  have key : ((encArray enc n a).drop (size * i)).take size = enc (a i) := by
    have hs : List.range n = List.range i ++ i :: (List.range' (i + 1) (n - (i + 1))) := by
      rw [List.range_eq_range', List.range_eq_range']
      have e : n = i + (1 + (n - (i + 1))) := by omega
      conv_lhs => rw [e]
      rw [← List.range'_append_1, ← List.range'_append_1]
      simp [List.range'_one]
    have hl : ((List.range i).flatMap fun j => enc (a j)).length = size * i := by
      rw [mul_comm]
      exact encArray_length enc size i a h
    unfold encArray
    rw [hs, List.flatMap_append, List.flatMap_cons, List.drop_append_of_le_length hl.ge, ← hl,
      List.drop_length, List.nil_append, List.take_append_of_le_length (h _).ge, ← h (a i),
      List.take_length]
  rw [key, hd]

/-! ## Lists of writes -/

theorem put_same (fs : FS) (p : String) (c : List Byte) : fs.put p c p = some c :=
  Function.update_self _ _ _

theorem put_other (fs : FS) (p q : String) (c : List Byte) (h : q ≠ p) : fs.put p c q = fs q :=
  Function.update_of_ne h _ _

/-- the files after some writes without faults -/
def putAll (fs : FS) (ws : List Write) : FS := ws.foldl (fun fs w => fs.put w.1 w.2) fs

theorem putAll_cons (fs : FS) (w : Write) (ws : List Write) :
    putAll fs (w :: ws) = putAll (fs.put w.1 w.2) ws := rfl

theorem putAll_append (fs : FS) (ws ws' : List Write) :
    putAll fs (ws ++ ws') = putAll (putAll fs ws) ws' := List.foldl_append ..

theorem putAll_other (fs : FS) (ws : List Write) (p : String) (h : ∀ w ∈ ws, p ≠ w.1) :
    putAll fs ws p = fs p := by
  induction ws generalizing fs with
  | nil => rfl
  | cons w ws ih =>
    rw [putAll_cons, ih _ fun v hv => h v (List.mem_cons_of_mem _ hv)]
    exact put_other _ _ _ _ (h w List.mem_cons_self)

theorem putAll_mem (fs : FS) (ws : List Write) (hn : (ws.map Prod.fst).Nodup) (w : Write)
    (hw : w ∈ ws) : putAll fs ws w.1 = some w.2 := by
  induction ws generalizing fs with
  | nil => cases hw
  | cons v ws ih =>
    rw [List.map_cons, List.nodup_cons] at hn
    rw [putAll_cons]
    rcases List.mem_cons.1 hw with rfl | hw
    · rw [putAll_other _ _ _ fun u hu h => hn.1 (List.mem_map.2 ⟨u, hu, h.symm⟩), put_same]
    · exact ih _ hn.2 hw

theorem writeAll_none (fs : FS) (ws : List Write) :
    writeAll (fun _ => .none) fs ws = putAll fs ws := by
  induction ws generalizing fs with
  | nil => rfl
  | cons w ws ih => exact ih _

theorem writeUntilError_none (fs : FS) (ws : List Write) :
    writeUntilError (fun _ => .none) fs ws = (putAll fs ws, 0) := by
  induction ws generalizing fs with
  | nil => rfl
  | cons w ws ih =>
    unfold writeUntilError
    have h : ¬ (writeData .none fs w.1 w.2 false).2 < 0 := by
      show ¬ (0 : ℤ) < 0
      decide
    simp only [h, if_false]
    exact ih _

/-- a crash leaves some complete writes and at most one incomplete one -/
theorem crash_iff (fs fs' : FS) (ws : List Write) : Crash fs ws fs' ↔
    (∃ pre post, ws = pre ++ post ∧ fs' = putAll fs pre) ∨
    ∃ pre w post k, ws = pre ++ w :: post ∧ fs' = (putAll fs pre).put w.1 (w.2.take k) := by
  constructor
  · intro h
    induction h with
    | before fs ws => exact Or.inl ⟨[], ws, rfl, rfl⟩
    | inside fs w ws k => exact Or.inr ⟨[], w, ws, k, rfl, rfl⟩
    | later fs fs' w ws _ ih =>
      rcases ih with ⟨pre, post, rfl, rfl⟩ | ⟨pre, v, post, k, rfl, rfl⟩
      · exact Or.inl ⟨w :: pre, post, rfl, rfl⟩
      · exact Or.inr ⟨w :: pre, v, post, k, rfl, rfl⟩
  · rintro (⟨pre, post, rfl, rfl⟩ | ⟨pre, w, post, k, rfl, rfl⟩)
    · induction pre generalizing fs with
      | nil => exact Crash.before _ _
      | cons w pre ih => exact Crash.later _ _ _ _ (ih _)
    · induction pre generalizing fs with
      | nil => exact Crash.inside _ _ _ _
      | cons w pre ih => exact Crash.later _ _ _ _ (ih _)

/-! ## Loading arrays -/

theorem loadArrays_mem {A : Type} [DecidableEq A] (F : Float64) (fs : FS) (pre : String)
    (files : List (A × String)) (size : A → ℤ) (old : Arrays A) (hn : (files.map Prod.fst).Nodup)
    (f : A × String) (hf : f ∈ files) :
    loadArrays F fs pre files size old f.1 = loadArray F fs (pre ++ f.2) (size f.1) (old f.1) := by
  unfold loadArrays
  induction files generalizing old with
  | nil => cases hf
  | cons g files ih =>
    rw [List.map_cons, List.nodup_cons] at hn
    rw [List.foldl_cons]
    rcases List.mem_cons.1 hf with rfl | hf
    · have key : ∀ (l : List (A × String)) (m : Arrays A), f.1 ∉ l.map Prod.fst →
          l.foldl (fun m f => Function.update m f.1
            (loadArray F fs (pre ++ f.2) (size f.1) (m f.1))) m f.1 = m f.1 := by
        intro l
        induction l with
        | nil => intros; rfl
        | cons h l ihl =>
          intro m hm
          rw [List.map_cons, List.mem_cons, not_or] at hm
          rw [List.foldl_cons, ihl _ hm.2, Function.update_of_ne hm.1]
      rw [key _ _ hn.1, Function.update_self]
    · rw [ih _ hn.2 hf, Function.update_of_ne]
      intro h
      exact hn.1 (h ▸ List.mem_map.2 ⟨f, hf, rfl⟩)

/-- an array is restored -/
theorem loadArray_saved (F : Float64) (fs : FS) (path : String) (size : ℤ) (a old : ℤ → ℝ)
    (h : fs path = some (encArray encDouble size.toNat fun i => a i)) :
    loadArray F fs path size old = fun z => if 0 ≤ z ∧ z < size then a z else old z := by
  unfold loadArray readData
  have hl := encArray_length encDouble 8 size.toNat (fun i => a i) encDouble_length
  simp only [h, hl, ne_eq, not_true_eq_false, if_false]
  funext z
  by_cases hz : 0 ≤ z ∧ z < size
  · rw [if_pos hz, if_pos hz, entry_encArray encDouble (decDouble F) 8 size.toNat _ encDouble_length
      (decDouble_encDouble F) _ (by omega)]
    simp [hz.1]
  · rw [if_neg hz, if_neg hz]

theorem loadDouble_saved (F : Float64) (fs : FS) (path : String) (x old : ℝ)
    (h : fs path = some (encDouble x)) : loadDouble F fs path old = x := by
  unfold loadDouble readData
  simp only [h, encDouble_length, ne_eq, not_true_eq_false, if_false, one_mul, decDouble_encDouble]

theorem loadCount_saved (F : Float64) (fs : FS) (path : String) (n old : ℕ) (hn : n < 2 ^ 31)
    (h : fs path = some (encInt n)) : loadCount F fs path old = n := by
  unfold loadCount readData
  simp only [h, encInt_length, ne_eq, not_true_eq_false, if_false, one_mul]
  rw [decInt_encInt F n (by omega) (by exact_mod_cast hn)]
  simp

end Verif.Files
