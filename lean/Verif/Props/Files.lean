import Verif.Lemmas.Files

/-! # Files: C05, C49, C51, C52, C53, C67 -/

set_option autoImplicit false

namespace Verif.Files

open Verif.Random Verif.Measurement

/-! ## C51: binary files -/

/-- C51: what was written is read back, whatever was there before -/
theorem readData_writeData (fs : FS) (path : String) (data : List Byte) (size n : ℕ)
    (h : data.length = n * size) :
    readData (writeData .none fs path data false).1 path size n = (0, some data) := by
  unfold readData writeData
  simp only [Bool.false_eq_true, if_false, List.nil_append, put_same]
  rw [if_neg (by simpa using h)]

/-- C51: appended data are read back after the old ones -/
theorem readData_append (fs : FS) (path : String) (old data : List Byte) (size n : ℕ)
    (ho : fs path = some old) (h : old.length + data.length = n * size) :
    readData (writeData .none fs path data true).1 path size n = (0, some (old ++ data)) := by
  unfold readData writeData
  simp only [if_true, put_same, ho, Option.getD_some, List.length_append]
  rw [if_neg (by simpa using h)]

/-- C51: `ReadData` succeeds exactly for an existing file of the expected size, and otherwise leaves the
destination alone -/
theorem readData_cases (fs : FS) (path : String) (size n : ℕ) :
    (fs path = none → readData fs path size n = (-1, none)) ∧
    (∀ c, fs path = some c → c.length ≠ n * size → readData fs path size n = (-2, none)) ∧
    (∀ c, fs path = some c → c.length = n * size → readData fs path size n = (0, some c)) := by
  refine ⟨fun h => ?_, fun c h hl => ?_, fun c h hl => ?_⟩
  · simp only [readData, h]
  · simp only [readData, h]; rw [if_pos hl]
  · simp only [readData, h]; rw [if_neg (by simpa using hl)]

/-- C51: other files are not changed by a write, faulty or not -/
theorem writeData_other (f : Fault) (fs : FS) (path q : String) (data : List Byte) (append : Bool)
    (h : q ≠ path) : (writeData f fs path data append).1 q = fs q := by
  cases f <;> first | rfl | exact put_other _ _ _ _ h

/-- C51 on values: numbers, words and arrays of them survive -/
theorem roundtrip_values (F : Float64) :
    (∀ v : ℤ, -2 ^ 31 ≤ v → v < 2 ^ 31 → decInt F (encInt v) = v) ∧
    (∀ w, decWord F (encWord w) = w) ∧ (∀ x, decDouble F (encDouble x) = x) ∧
    (∀ n (a : ℕ → ℝ) i, i < n → entry (decDouble F) 8 (encArray encDouble n a) i = a i) ∧
    (∀ n (a : ℕ → BitVec 64) i, i < n → entry (decWord F) 8 (encArray encWord n a) i = a i) :=
  ⟨decInt_encInt F, decWord_encWord F, decDouble_encDouble F,
    fun n a i hi => entry_encArray encDouble _ 8 n a encDouble_length (decDouble_encDouble F) i hi,
    fun n a i hi => entry_encArray encWord _ 8 n a encWord_length (decWord_encWord F) i hi⟩

/-- a file with a number, replaced -/
example (F : Float64) (fs : FS) :
    readData (writeData .none (fs.put "a" []) "a" (encInt (-5)) false).1 "a" 4 1
      = (0, some (encInt (-5))) ∧ decInt F (encInt (-5)) = -5 :=
  ⟨readData_writeData _ _ _ 4 1 (encInt_length _), decInt_encInt F _ (by norm_num) (by norm_num)⟩

/-! ## C67: reported success -/

/-- C67 fails: if the buffered data cannot be flushed, `fclose` reports it, but its result is ignored -/
theorem not_writeData_success : ¬ ∀ (f : Fault) (fs : FS) (path : String) (data : List Byte),
    (writeData f fs path data false).2 = 0 → (writeData f fs path data false).1 path = some data := by
  intro h
  have := h (.closeFails 0) (fun _ => none) "a" (encInt 7) rfl
  have h2 := congrArg (Option.map List.length) this
  simp only [writeData, put_same, Bool.false_eq_true, if_false, List.take_zero, List.nil_append,
    Option.map_some, List.length_nil, encInt_length] at h2
  cases h2

/-- C67 if `fclose` does not fail -/
theorem writeData_success_partial (f : Fault) (hf : ∀ k, f ≠ .closeFails k) (fs : FS) (path : String)
    (data : List Byte) (h : (writeData f fs path data false).2 = 0) :
    (writeData f fs path data false).1 path = some data := by
  cases f with
  | none => simp [writeData, put_same]
  | openFails => simp [writeData] at h
  | writeFails k => simp [writeData] at h
  | closeFails k => exact absurd rfl (hf k)

example : (writeData (.writeFails 2) (fun _ => none) "a" (encInt 7) false).2 = -3 := rfl

/-! ## C05: the random stream -/

/-- the words of the generator in the order in which they are used -/
def view (sd : Seed) : Fin 16 → BitVec 64 := fun i => sd.s (sd.p + i)

/-- next word -/
def nextWord (s0 s1 : BitVec 64) : BitVec 64 :=
  let s1 := s1 ^^^ (s1 <<< 31)
  let s1 := s1 ^^^ (s1 >>> 11)
  let s0 := s0 ^^^ (s0 >>> 30)
  s0 ^^^ s1

theorem getUint_out (sd : Seed) :
    (getUint sd).1 = nextWord (view sd 0) (view sd 1) * 1181783497276652981#64 := by
  unfold getUint view nextWord
  simp only [add_zero]

theorem view_getUint (sd : Seed) (i : Fin 16) :
    view (getUint sd).2 i = if i = 0 then nextWord (view sd 0) (view sd 1) else view sd (i + 1) := by
  unfold getUint view nextWord
  simp only [add_zero]
  by_cases h : i = 0
  · subst h
    simp
  · rw [if_neg h, Function.update_of_ne]
    · rw [add_assoc, add_comm 1 i]
    · intro h'
      exact h (by simpa using h')

/-- generators with the same view produce the same numbers -/
theorem view_stateAt (a b : Seed) (h : view a = view b) (n : ℕ) :
    view (stateAt a n) = view (stateAt b n) := by
  induction n with
  | zero => exact h
  | succ n ih =>
    funext i
    show view (getUint (stateAt a n)).2 i = view (getUint (stateAt b n)).2 i
    rw [view_getUint, view_getUint, ih]

theorem outputAt_of_view (a b : Seed) (h : view a = view b) (n : ℕ) : outputAt a n = outputAt b n := by
  unfold outputAt
  rw [getUint_out, getUint_out, view_stateAt a b h n]

theorem view_step_inj (a b : Seed) (h : view (getUint a).2 = view (getUint b).2) :
    view a = view b := by
  have e : ∀ c : Seed, (getUint ⟨view c, 0⟩).2 = ⟨fun i => view (getUint c).2 (i - 1), 1⟩ := by
    intro c
    have hv : view (⟨view c, 0⟩ : Seed) = view c := by
      funext i
      show view c (0 + i) = view c i
      rw [zero_add]
    have h1 : ∀ i, (getUint ⟨view c, 0⟩).2.s i = view (getUint ⟨view c, 0⟩).2 (i - 1) := by
      intro i
      show _ = (getUint ⟨view c, 0⟩).2.s ((0 + 1) + (i - 1))
      rw [zero_add, add_sub_cancel]
    have h2 : view (getUint ⟨view c, 0⟩).2 = view (getUint c).2 := by
      funext i
      rw [view_getUint, view_getUint, hv]
    show (⟨(getUint ⟨view c, 0⟩).2.s, 0 + 1⟩ : Seed) = _
    congr 1
    funext i
    rw [h1, h2]
  have := getUint_inj ⟨view a, 0⟩ ⟨view b, 0⟩ (by rw [e, e, h])
  exact congrArg Seed.s this

theorem view_shift (sd : Seed) (n m : ℕ) : ∀ i : ℕ, 1 ≤ i → i + m ≤ 16 →
    view (stateAt sd (n + m)) (Fin.ofNat 16 i) = view (stateAt sd n) (Fin.ofNat 16 (i + m)) := by
  induction m with
  | zero => intros; rfl
  | succ m ih =>
    intro i h1 h2
    show view (getUint (stateAt sd (n + m))).2 (Fin.ofNat 16 i) = _
    have hi : Fin.ofNat 16 i ≠ 0 := by
      intro h
      have := congrArg Fin.val h
      simp only [Fin.ofNat, Fin.val_zero] at this
      omega
    have hs : Fin.ofNat 16 i + 1 = Fin.ofNat 16 (i + 1) := by
      apply Fin.ext
      simp [Fin.ofNat, Fin.val_add]
    rw [view_getUint, if_neg hi, hs, ih (i + 1) (by omega) (by omega)]
    congr 2
    omega

/-- the numbers determine the view -/
theorem view_of_outputAt (a b : Seed) (h : ∀ n < 16, outputAt a n = outputAt b n) :
    view a = view b := by
  have hw : ∀ n < 16, view (stateAt a (n + 1)) 0 = view (stateAt b (n + 1)) 0 := by
    intro n hn
    have h1 := h n hn
    unfold outputAt at h1
    rw [getUint_out, getUint_out] at h1
    show view (getUint (stateAt a n)).2 0 = view (getUint (stateAt b n)).2 0
    rw [view_getUint, view_getUint, if_pos rfl, if_pos rfl]
    exact mul_inj_of_inv 1181783497276652981#64 (13515856136758413469#64) (by decide) h1
  have h16 : view (stateAt a 16) = view (stateAt b 16) := by
    funext i
    obtain ⟨j, hj⟩ := i
    rcases Nat.eq_zero_or_pos j with rfl | hp
    · exact hw 15 (by norm_num)
    · have e : ∀ c : Seed, view (stateAt c 16) ⟨j, hj⟩ = view (stateAt c (j - 1 + 1)) 0 := by
        intro c
        have := view_shift c j (16 - j) j hp (by omega)
        rw [show j + (16 - j) = 16 by omega] at this
        rw [show j - 1 + 1 = j by omega]
        rw [show (⟨j, hj⟩ : Fin 16) = Fin.ofNat 16 j from Fin.ext (Nat.mod_eq_of_lt hj).symm, this]
        rfl
      rw [e, e]
      exact hw _ (by omega)
  have down : ∀ n, view (stateAt a n) = view (stateAt b n) → view a = view b := by
    intro n
    induction n with
    | zero => exact id
    | succ n ih => exact fun h => ih (view_step_inj _ _ h)
  exact down 16 h16

/-- the generator as restored from a checkpoint -/
def restored (sd : Seed) : Seed := ⟨savedWords sd, 0⟩

/-- C05, exactly: the restored generator continues the stream if and only if the words are the same
under the wrong rotation -/
theorem restored_stream_iff (sd : Seed) :
    (∀ n, outputAt (restored sd) n = outputAt sd n) ↔ ∀ i, sd.s (i - sd.p) = sd.s (i + sd.p) := by
  have hv : view (restored sd) = fun i => sd.s (i - sd.p) := by
    funext i
    show savedWords sd (0 + i) = _
    rw [zero_add]
    rfl
  constructor
  · intro h i
    have := congrFun (view_of_outputAt _ _ fun n _ => h n) i
    rw [hv] at this
    rw [add_comm i]
    exact this
  · intro h n
    refine outputAt_of_view _ _ ?_ n
    rw [hv]
    funext i
    rw [h i, add_comm]
    rfl

/-- C05 holds at positions 0 and 8 -/
theorem restored_stream_partial (sd : Seed) (hp : sd.p = 0 ∨ sd.p = 8) (n : ℕ) :
    outputAt (restored sd) n = outputAt sd n := by
  refine (restored_stream_iff sd).2 (fun i => ?_) n
  congr 1
  have : ∀ (i p : Fin 16), p = 0 ∨ p = 8 → i - p = i + p := by decide
  exact this i sd.p hp

/-- C05 fails at every other position -/
theorem not_restored_stream (p : Fin 16) (h0 : p ≠ 0) (h8 : p ≠ 8) :
    ∃ s, ¬ ∀ n, outputAt (restored ⟨s, p⟩) n = outputAt ⟨s, p⟩ n := by
  refine ⟨fun i => if i = p then 1#64 else 0#64, fun h => ?_⟩
  have h' := (restored_stream_iff _).1 h 0
  simp only [zero_sub, zero_add, if_true] at h'
  by_cases e : -p = p
  · have : ∀ p : Fin 16, -p = p → p = 0 ∨ p = 8 := by decide
    rcases this p e with h | h
    · exact h0 h
    · exact h8 h
  · rw [if_neg e] at h'
    exact absurd h' (by decide)

/-- C05 as stated is false: seed 1 after one draw -/
theorem not_restored : ¬ ∀ (sd : Seed) (n : ℕ), outputAt (restored sd) n = outputAt sd n := by
  intro h
  obtain ⟨s, hs⟩ := not_restored_stream 1 (by decide) (by decide)
  exact hs (h _)

/-- also for a generator as used by the program: one number after `Random_SeedInit` -/
theorem not_restored_reachable :
    outputAt (restored (stateAt (seedInit 1#64) 1)) 0 ≠ outputAt (stateAt (seedInit 1#64) 1) 0 := by
  decide

/-- seed 1 after eight draws -/
example : (stateAt (seedInit 1#64) 8).p = 8 := by decide

/-! ## Checkpoints -/

section
variable (F : Float64) (fnbase : String) (LxN : ℕ)

theorem names_ne : fnbase ++ "_iteration.dat" ≠ fnbase ++ "_randseed.dat" ∧
    fnbase ++ "_iteration.dat" ≠ fnbase ++ "_hsfield.dat" ∧
    fnbase ++ "_randseed.dat" ≠ fnbase ++ "_hsfield.dat" := by
  refine ⟨?_, ?_, ?_⟩ <;> rw [Ne, String.append_right_inj] <;> decide

/-- the three files of a checkpoint -/
def files (fs : FS) : Option (List Byte) × Option (List Byte) × Option (List Byte) :=
  (fs (fnbase ++ "_iteration.dat"), fs (fnbase ++ "_randseed.dat"), fs (fnbase ++ "_hsfield.dat"))

/-- what is loaded from three files of the right sizes -/
def decode (a b c : List Byte) (old : Ckpt) : Ckpt where
  iteration := decInt F a
  seed := ⟨fun i => entry (decWord F) 8 b i, 0⟩
  s := fun i => if i < LxN then entry (decSpin F) 1 c i else old.s i

/-- `LoadCheckpoint` succeeds exactly if the three files exist and have the right sizes -/
theorem loadCheckpoint_iff (fs : FS) (old new : Ckpt) :
    loadCheckpoint F fs fnbase LxN old = (0, new) ↔
    ∃ a b c, files fnbase fs = (some a, some b, some c) ∧ a.length = 4 ∧ b.length = 128 ∧
      c.length = LxN ∧ new = decode F LxN a b c old := by
  unfold loadCheckpoint loadIteration loadSeed loadField files readData decode
  constructor
  · intro h
    cases ha : fs (fnbase ++ "_iteration.dat") with
    | none => simp [ha] at h
    | some a =>
      simp only [ha] at h
      by_cases la : a.length ≠ 1 * 4
      · simp [la] at h
      · simp only [if_neg la, lt_irrefl, if_false] at h
        cases hb : fs (fnbase ++ "_randseed.dat") with
        | none => simp [hb] at h
        | some b =>
          simp only [hb] at h
          by_cases lb : b.length ≠ 16 * 8
          · simp [lb] at h
          · simp only [if_neg lb, lt_irrefl, if_false] at h
            cases hc : fs (fnbase ++ "_hsfield.dat") with
            | none => simp [hc] at h
            | some c =>
              simp only [hc] at h
              by_cases lc : c.length ≠ LxN * 1
              · rw [if_pos lc] at h
                simp at h
              · simp only [if_neg lc] at h
                refine ⟨a, b, c, rfl, by omega, by omega, by omega, ?_⟩
                exact (congrArg Prod.snd h).symm
  · rintro ⟨a, b, c, h, la, lb, lc, rfl⟩
    simp only [Prod.mk.injEq] at h
    obtain ⟨ha, hb, hc⟩ := h
    simp only [ha, hb, hc, la, lb, lc, ne_eq, one_mul, mul_one, not_true_eq_false, if_false, lt_irrefl,
      show (16 : ℕ) * 8 = 128 from rfl]

/-- the status is 0 or negative -/
theorem loadCheckpoint_status (fs : FS) (old : Ckpt) :
    (loadCheckpoint F fs fnbase LxN old).1 = 0 ∨ (loadCheckpoint F fs fnbase LxN old).1 < 0 := by
  have h3 : ∀ o, (loadField F fs fnbase LxN o).1 = 0 ∨ (loadField F fs fnbase LxN o).1 < 0 := by
    intro o
    unfold loadField readData
    cases fs (fnbase ++ "_hsfield.dat") with
    | none => right; norm_num
    | some c =>
      by_cases lc : c.length ≠ LxN * 1
      · right; simp only [if_pos lc]; norm_num
      · left; simp only [if_neg lc]
  unfold loadCheckpoint
  simp only
  split
  · exact Or.inr ‹_›
  · split
    · exact Or.inr ‹_›
    · exact h3 _

/-- entries beyond the lattice do not count -/
def Ckpt.Same (a b : Ckpt) : Prop := a.iteration = b.iteration ∧ a.seed = b.seed ∧
  ∀ i < LxN, a.s i = b.s i

/-- the new checkpoint, as the next process loads it -/
def newCkpt (c old : Ckpt) : Ckpt :=
  decode F LxN (encInt c.iteration)
    (encArray encWord 16 fun i => savedWords c.seed (Fin.ofNat 16 i)) (encArray encSpin LxN c.s) old

theorem checkpointWrites_nodup (c : Ckpt) :
    ((checkpointWrites fnbase LxN c).map Prod.fst).Nodup := by
  obtain ⟨h1, h2, h3⟩ := names_ne fnbase
  simp [checkpointWrites, h1, h2, h3]

/-- it is the old one, up to the rotation of the generator -/
theorem newCkpt_same (c old : Ckpt) (h1 : -2 ^ 31 ≤ c.iteration) (h2 : c.iteration < 2 ^ 31) :
    (newCkpt F LxN c old).Same LxN { c with seed := restored c.seed } := by
  refine ⟨decInt_encInt F _ h1 h2, ?_, fun i hi => ?_⟩
  · unfold newCkpt decode restored
    simp only [Seed.mk.injEq, and_true]
    funext i
    rw [entry_encArray encWord (decWord F) 8 16 _ encWord_length (decWord_encWord F) i i.isLt]
    congr 1
    exact Fin.ext (Nat.mod_eq_of_lt i.isLt)
  · unfold newCkpt decode
    simp only [if_pos hi]
    exact entry_encArray encSpin (decSpin F) 1 LxN _ encSpin_length (decSpin_encSpin F) i hi

/-- a checkpoint is restored, up to the rotation of the generator -/
theorem load_save (fs : FS) (c old : Ckpt) :
    (saveCheckpoint (fun _ => .none) fs fnbase LxN c).2 = 0 ∧
    searchCheckpoint (saveCheckpoint (fun _ => .none) fs fnbase LxN c).1 fnbase = 0 ∧
    loadCheckpoint F (saveCheckpoint (fun _ => .none) fs fnbase LxN c).1 fnbase LxN old
      = (0, newCkpt F LxN c old) := by
  unfold saveCheckpoint
  rw [writeUntilError_none]
  have hm := putAll_mem fs _ (checkpointWrites_nodup fnbase LxN c)
  have e1 := hm (fnbase ++ "_iteration.dat", encInt c.iteration) (by simp [checkpointWrites])
  have e2 := hm (fnbase ++ "_randseed.dat",
    encArray encWord 16 fun i => savedWords c.seed (Fin.ofNat 16 i)) (by simp [checkpointWrites])
  have e3 := hm (fnbase ++ "_hsfield.dat", encArray encSpin LxN c.s) (by simp [checkpointWrites])
  simp only at e1 e2 e3
  refine ⟨rfl, ?_, (loadCheckpoint_iff F fnbase LxN _ old _).2 ⟨encInt c.iteration, _, _, ?_,
    encInt_length _, ?_, ?_, rfl⟩⟩
  · simp [searchCheckpoint, e1, e2, e3]
  · unfold files
    simp only [e1, e2, e3]
  · rw [encArray_length encWord 8 _ _ encWord_length]
  · rw [encArray_length encSpin 1 _ _ encSpin_length, mul_one]

/-! ## C52: damaged checkpoints -/

/-- C52, the part on sizes: a field file with a different number of entries is rejected -/
theorem load_size_partial (fs : FS) (old : Ckpt) (c : List Byte)
    (hc : fs (fnbase ++ "_hsfield.dat") = some c) (hl : c.length ≠ LxN) :
    (loadCheckpoint F fs fnbase LxN old).1 < 0 := by
  rcases loadCheckpoint_status F fnbase LxN fs old with h | h
  · obtain ⟨a, b, c', hf, -, -, l3, -⟩ := (loadCheckpoint_iff F fnbase LxN fs old
      (loadCheckpoint F fs fnbase LxN old).2).1 (Prod.ext h rfl)
    unfold files at hf
    simp only [Prod.mk.injEq, hc, Option.some.injEq] at hf
    obtain ⟨-, -, rfl⟩ := hf
    exact absurd l3 hl
  · exact h

/-- C52 for files written by the program: the entries are those of the field saved -/
theorem load_entries_partial (fs : FS) (c old new : Ckpt)
    (hs : ∀ i < LxN, c.s i = 0#8 ∨ c.s i = 1#8)
    (h1 : -2 ^ 31 ≤ c.iteration) (h2 : c.iteration < 2 ^ 31)
    (h : loadCheckpoint F (saveCheckpoint (fun _ => .none) fs fnbase LxN c).1 fnbase LxN old
      = (0, new)) : ∀ i < LxN, new.s i = 0#8 ∨ new.s i = 1#8 := by
  have hsame := newCkpt_same F LxN c old h1 h2
  rw [(load_save F fnbase LxN fs c old).2.2] at h
  obtain rfl : newCkpt F LxN c old = new := congrArg Prod.snd h
  intro i hi
  rw [hsame.2.2 i hi]
  exact hs i hi

/-- C52 fails: entries other than 0 and 1 are accepted -/
theorem not_load_valid : ¬ ∀ (fs : FS) (old new : Ckpt),
    loadCheckpoint F fs fnbase 1 old = (0, new) → ∀ i < 1, new.s i = 0#8 ∨ new.s i = 1#8 := by
  intro h
  have e := (load_save F fnbase 1 (fun _ => none)
    ⟨0, ⟨fun _ => 0, 0⟩, fun _ => 2#8⟩ ⟨0, ⟨fun _ => 0, 0⟩, fun _ => 0#8⟩).2.2
  have hsame := newCkpt_same F 1
    ⟨0, ⟨fun _ => 0, 0⟩, fun _ => 2#8⟩ ⟨0, ⟨fun _ => 0, 0⟩, fun _ => 0#8⟩ (by norm_num) (by norm_num)
  have h2 := h _ _ _ e 0 (by norm_num)
  rw [hsame.2.2 0 (by norm_num)] at h2
  revert h2
  decide

/-! ## C49: crashes while a checkpoint is written -/

/-- what the next process sees -/
inductive Seen
  | scratch
  | refused
  | resumed (c : Ckpt)

/-- the next start (main.c:145-175) -/
def nextStart (fs : FS) (old : Ckpt) : Seen :=
  if searchCheckpoint fs fnbase ≠ 0 then .scratch
  else
    let r := loadCheckpoint F fs fnbase LxN old
    if r.1 < 0 then .refused else .resumed r.2

theorem nextStart_cases (fs : FS) (old : Ckpt) : nextStart F fnbase LxN fs old = .scratch ∨
    nextStart F fnbase LxN fs old = .refused ∨
    ∃ a b c, files fnbase fs = (some a, some b, some c) ∧ a.length = 4 ∧ b.length = 128 ∧
      c.length = LxN ∧ nextStart F fnbase LxN fs old = .resumed (decode F LxN a b c old) := by
  unfold nextStart
  simp only
  split
  · exact Or.inl rfl
  · split
    · exact Or.inr (Or.inl rfl)
    · rename_i h
      have hz := (loadCheckpoint_status F fnbase LxN fs old).resolve_right h
      obtain ⟨a, b, c, hf, h1, h2, h3, e⟩ := (loadCheckpoint_iff F fnbase LxN fs old _).1
        (Prod.ext hz rfl)
      exact Or.inr (Or.inr ⟨a, b, c, hf, h1, h2, h3, congrArg Seen.resumed e⟩)

theorem nextStart_of_files (fs fs' : FS) (old : Ckpt) (h : files fnbase fs = files fnbase fs') :
    nextStart F fnbase LxN fs old = nextStart F fnbase LxN fs' old := by
  unfold files at h
  simp only [Prod.mk.injEq] at h
  obtain ⟨h1, h2, h3⟩ := h
  unfold nextStart searchCheckpoint loadCheckpoint loadIteration loadSeed loadField readData
  rw [h1, h2, h3]

theorem take_full {α : Type} (l : List α) (k n : ℕ) (h : (l.take k).length = n) (hl : l.length = n) :
    l.take k = l := by
  apply List.take_of_length_le
  rw [List.length_take] at h
  omega

/-- C49, exactly: a crash during `SaveCheckpoint` leads to a start from scratch, an error, the state of
before, the new state, or one of two mixtures: the new iteration counter with the old generator and
field, or with the new generator and the old field -/
theorem crash_outcomes_partial (fs fs' : FS) (c old : Ckpt)
    (h : Crash fs (checkpointWrites fnbase LxN c) fs') :
    nextStart F fnbase LxN fs' old = .scratch ∨ nextStart F fnbase LxN fs' old = .refused ∨
    nextStart F fnbase LxN fs' old = nextStart F fnbase LxN fs old ∨
    nextStart F fnbase LxN fs' old = .resumed (newCkpt F LxN c old) ∨
    (∃ b f, fs (fnbase ++ "_randseed.dat") = some b ∧ fs (fnbase ++ "_hsfield.dat") = some f ∧
      f.length = LxN ∧
      nextStart F fnbase LxN fs' old = .resumed (decode F LxN (encInt c.iteration) b f old)) ∨
    (∃ f, fs (fnbase ++ "_hsfield.dat") = some f ∧ f.length = LxN ∧
      nextStart F fnbase LxN fs' old = .resumed (decode F LxN (encInt c.iteration)
        (encArray encWord 16 fun i => savedWords c.seed (Fin.ofNat 16 i)) f old)) := by
  rcases nextStart_cases F fnbase LxN fs' old with hn | hn | ⟨x, y, z, hf, lx, ly, lz, hn⟩
  · exact Or.inl hn
  · exact Or.inr (Or.inl hn)
  obtain ⟨n1, n2, n3⟩ := names_ne fnbase
  have hl1 := encInt_length c.iteration
  have hl2 := encArray_length encWord 8 16 (fun i => savedWords c.seed (Fin.ofNat 16 i)) encWord_length
  have hl3 := encArray_length encSpin 1 LxN c.s encSpin_length
  rw [mul_one] at hl3
  rw [hn]
  have hf' := hf
  unfold files at hf
  simp only [Prod.mk.injEq] at hf
  obtain ⟨fx, fy, fz⟩ := hf
  unfold checkpointWrites at h
  -- the crash points
  cases h with
  | before =>
    exact Or.inr (Or.inr (Or.inl hn.symm))
  | inside _ _ _ k =>
    rw [put_same] at fx
    rw [put_other _ _ _ _ n1.symm] at fy
    rw [put_other _ _ _ _ n2.symm] at fz
    have hx := Option.some.inj fx
    have hx' := take_full _ k 4 (by rw [hx, lx]) hl1
    refine Or.inr (Or.inr (Or.inr (Or.inr (Or.inl ⟨y, z, fy, fz, lz, ?_⟩))))
    rw [← hx, hx']
  | later _ _ _ _ h =>
    cases h with
    | before =>
      rw [put_same] at fx
      rw [put_other _ _ _ _ n1.symm] at fy
      rw [put_other _ _ _ _ n2.symm] at fz
      refine Or.inr (Or.inr (Or.inr (Or.inr (Or.inl ⟨y, z, fy, fz, lz, ?_⟩))))
      rw [← Option.some.inj fx]
    | inside _ _ _ k =>
      rw [put_other _ _ _ _ n1, put_same] at fx
      rw [put_same] at fy
      rw [put_other _ _ _ _ n3.symm, put_other _ _ _ _ n2.symm] at fz
      have hy := Option.some.inj fy
      have hy' := take_full _ k 128 (by rw [hy, ly]) hl2
      refine Or.inr (Or.inr (Or.inr (Or.inr (Or.inr ⟨z, fz, lz, ?_⟩))))
      rw [← Option.some.inj fx, ← hy, hy']
    | later _ _ _ _ h =>
      cases h with
      | before =>
        rw [put_other _ _ _ _ n1, put_same] at fx
        rw [put_same] at fy
        rw [put_other _ _ _ _ n3.symm, put_other _ _ _ _ n2.symm] at fz
        refine Or.inr (Or.inr (Or.inr (Or.inr (Or.inr ⟨z, fz, lz, ?_⟩))))
        rw [← Option.some.inj fx, ← Option.some.inj fy]
      | inside _ _ _ k =>
        rw [put_other _ _ _ _ n2, put_other _ _ _ _ n1, put_same] at fx
        rw [put_other _ _ _ _ n3, put_same] at fy
        rw [put_same] at fz
        have hz := Option.some.inj fz
        have hz' := take_full _ k LxN (by rw [hz, lz]) hl3
        refine Or.inr (Or.inr (Or.inr (Or.inl ?_)))
        rw [newCkpt, ← Option.some.inj fx, ← Option.some.inj fy, ← hz, hz']
      | later _ _ _ _ h =>
        cases h with
        | before =>
          rw [put_other _ _ _ _ n2, put_other _ _ _ _ n1, put_same] at fx
          rw [put_other _ _ _ _ n3, put_same] at fy
          rw [put_same] at fz
          refine Or.inr (Or.inr (Or.inr (Or.inl ?_)))
          rw [newCkpt, ← Option.some.inj fx, ← Option.some.inj fy, ← Option.some.inj fz]

/-- C49 if there was no usable field file before: no mixture -/
theorem crash_no_old_partial (fs fs' : FS) (c old : Ckpt)
    (h : Crash fs (checkpointWrites fnbase LxN c) fs')
    (hno : ∀ f, fs (fnbase ++ "_hsfield.dat") = some f → f.length ≠ LxN) :
    nextStart F fnbase LxN fs' old = .scratch ∨ nextStart F fnbase LxN fs' old = .refused ∨
    nextStart F fnbase LxN fs' old = .resumed (newCkpt F LxN c old) := by
  rcases crash_outcomes_partial F fnbase LxN fs fs' c old h with
    h1 | h1 | h1 | h1 | ⟨b, f, -, h2, h3, -⟩ | ⟨f, h2, h3, -⟩
  · exact Or.inl h1
  · exact Or.inr (Or.inl h1)
  · rcases nextStart_cases F fnbase LxN fs old with g | g | ⟨x, y, z, hf, -, -, lz, -⟩
    · exact Or.inl (h1.trans g)
    · exact Or.inr (Or.inl (h1.trans g))
    · unfold files at hf
      simp only [Prod.mk.injEq] at hf
      exact absurd lz (hno _ hf.2.2)
  · exact Or.inr (Or.inr h1)
  · exact absurd h3 (hno _ h2)
  · exact absurd h3 (hno _ h2)

/-- the file system of a fresh directory -/
example (c : Ckpt) (k : ℕ) : ∃ fs', Crash (fun _ => none) (checkpointWrites fnbase LxN c) fs' ∧
    (fs' (fnbase ++ "_iteration.dat")) = some ((encInt c.iteration).take k) :=
  ⟨_, Crash.inside _ _ _ k, put_same _ _ _⟩

/-- C49 fails: the new iteration counter with the old generator and field -/
theorem not_crash_safe : ¬ ∀ (fs fs' : FS) (c old : Ckpt),
    Crash fs (checkpointWrites fnbase LxN c) fs' →
    nextStart F fnbase LxN fs' old = .scratch ∨ nextStart F fnbase LxN fs' old = .refused ∨
    nextStart F fnbase LxN fs' old = nextStart F fnbase LxN fs old ∨
    nextStart F fnbase LxN fs' old = .resumed (newCkpt F LxN c old) := by
  intro h
  obtain ⟨n1, n2, n3⟩ := names_ne fnbase
  -- an old checkpoint of iteration 1 with all words 0, a new one of iteration 2 with all words 1
  let c1 : Ckpt := ⟨1, ⟨fun _ => 0#64, 0⟩, fun _ => 0#8⟩
  let c2 : Ckpt := ⟨2, ⟨fun _ => 1#64, 0⟩, fun _ => 0#8⟩
  have hm := putAll_mem (fun _ => none) _ (checkpointWrites_nodup fnbase LxN c1)
  have e1 := hm (fnbase ++ "_iteration.dat", encInt 1) (by simp [checkpointWrites, c1])
  have e2 := hm (fnbase ++ "_randseed.dat",
    encArray encWord 16 fun i => savedWords c1.seed (Fin.ofNat 16 i)) (by simp [checkpointWrites])
  have e3 := hm (fnbase ++ "_hsfield.dat", encArray encSpin LxN c1.s) (by simp [checkpointWrites])
  simp only at e1 e2 e3
  have l2 := encArray_length encWord 8 16 (fun i => savedWords c1.seed (Fin.ofNat 16 i)) encWord_length
  have l3 := encArray_length encSpin 1 LxN c1.s encSpin_length
  rw [mul_one] at l3
  generalize hfs : putAll (fun _ => none) (checkpointWrites fnbase LxN c1) = fs at e1 e2 e3
  have hc : Crash fs (checkpointWrites fnbase LxN c2) (fs.put (fnbase ++ "_iteration.dat") (encInt 2)) :=
    Crash.later _ _ _ _ (Crash.before _ _)
  have res : ∀ (fs : FS) (a b d : List Byte), files fnbase fs = (some a, some b, some d) →
      a.length = 4 → b.length = 128 → d.length = LxN →
      nextStart F fnbase LxN fs c1 = .resumed (decode F LxN a b d c1) := by
    intro fs a b d hf la lb ld
    have hl := (loadCheckpoint_iff F fnbase LxN fs c1 _).2 ⟨a, b, d, hf, la, lb, ld, rfl⟩
    unfold files at hf
    simp only [Prod.mk.injEq] at hf
    unfold nextStart
    have hs : searchCheckpoint fs fnbase = 0 := by
      simp [searchCheckpoint, hf.1, hf.2.1, hf.2.2]
    simp only [hs, ne_eq, not_true_eq_false, if_false, hl, lt_irrefl]
  have g0 := res fs _ _ _ (by unfold files; rw [e1, e2, e3]) (encInt_length _) l2 l3
  have g1 := res (fs.put (fnbase ++ "_iteration.dat") (encInt 2)) (encInt 2) _ _
    (by unfold files; rw [put_same, put_other _ _ _ _ n1.symm, put_other _ _ _ _ n2.symm, e2, e3])
    (encInt_length _) l2 l3
  have d1 : decInt F (encInt 1) = 1 := decInt_encInt F 1 (by norm_num) (by norm_num)
  have d2 : decInt F (encInt 2) = 2 := decInt_encInt F 2 (by norm_num) (by norm_num)
  rcases h _ _ c2 c1 hc with k | k | k | k
  · rw [g1] at k; cases k
  · rw [g1] at k; cases k
  · rw [g1, g0] at k
    have := congrArg Ckpt.iteration (Seen.resumed.inj k)
    simp only [decode, d1, d2] at this
    omega
  · rw [g1] at k
    have := congrArg (fun c : Ckpt => c.seed.s 0) (Seen.resumed.inj k)
    simp only [decode, newCkpt] at this
    rw [entry_encArray encWord (decWord F) 8 16 _ encWord_length (decWord_encWord F) _ (by norm_num),
      entry_encArray encWord (decWord F) 8 16 _ encWord_length (decWord_encWord F) _ (by norm_num)]
      at this
    exact absurd this (by decide)

end

/-! ## C53: measurement data -/

section
variable (F : Float64) (fnbase : String)

theorem names_nodup (l : List String) (h : l.Nodup) : (l.map (fnbase ++ ·)).Nodup :=
  h.map fun _ _ hab => (String.append_right_inj fnbase).1 hab

theorem arrayWrites_names {A : Type} (files : List (A × String)) (size : A → ℤ) (m : Arrays A) :
    (arrayWrites fnbase files size m).map Prod.fst = (files.map Prod.snd).map (fnbase ++ ·) := by
  unfold arrayWrites
  rw [List.map_map, List.map_map]
  rfl

theorem eqWrites_nodup (Norb Ncell : ℕ) (m : EqData) :
    ((eqWrites Norb Ncell fnbase m).map Prod.fst).Nodup := by
  have h : (eqWrites Norb Ncell fnbase m).map Prod.fst
      = (["_eqlt_sign.dat", "_eqlt_nsampl.dat"] ++ eqSaveFiles.map Prod.snd).map (fnbase ++ ·) := by
    unfold eqWrites
    rw [List.map_append, arrayWrites_names, List.map_append]
    rfl
  rw [h]
  exact names_nodup fnbase _ (by decide)

theorem uneqWrites_nodup (Norb Ncell L : ℕ) (m : UneqData) :
    ((uneqWrites Norb Ncell L fnbase m).map Prod.fst).Nodup := by
  have h : (uneqWrites Norb Ncell L fnbase m).map Prod.fst
      = (["_uneqlt_sign.dat", "_uneqlt_nsampl.dat"] ++ uneqSaveFiles.map Prod.snd).map
        (fnbase ++ ·) := by
    unfold uneqWrites
    rw [List.map_append, arrayWrites_names, List.map_append]
    rfl
  rw [h]
  exact names_nodup fnbase _ (by decide)

/-- arrays are restored from files written before -/
theorem loadArrays_saved {A : Type} [DecidableEq A] (fs : FS) (files : List (A × String))
    (size : A → ℤ) (m old : Arrays A) (hn : (files.map Prod.fst).Nodup) (hall : ∀ a, ∃ n, (a, n) ∈ files)
    (h : ∀ f ∈ files, fs (fnbase ++ f.2)
      = some (encArray encDouble (size f.1).toNat fun i => m f.1 i)) :
    loadArrays F fs fnbase files size old
      = fun a z => if 0 ≤ z ∧ z < size a then m a z else old a z := by
  funext a
  obtain ⟨n, hf⟩ := hall a
  rw [loadArrays_mem F fs fnbase files size old hn (a, n) hf]
  exact loadArray_saved F fs _ _ _ _ (h (a, n) hf)

theorem eqLoad_all (a : EqF) : ∃ n, (a, n) ∈ eqLoadFiles := by
  have h : a ∈ eqLoadFiles.map Prod.fst := by cases a <;> decide
  obtain ⟨⟨b, n⟩, hf, rfl⟩ := List.mem_map.1 h
  exact ⟨n, hf⟩

theorem uneqLoad_all (a : UneqF) : ∃ n, (a, n) ∈ uneqLoadFiles := by
  have h : a ∈ uneqLoadFiles.map Prod.fst := by cases a <;> decide
  obtain ⟨⟨b, n⟩, hf, rfl⟩ := List.mem_map.1 h
  exact ⟨n, hf⟩

/-- C53, the round trip of equal time data -/
theorem loadEq_saveEq_partial (Norb Ncell : ℕ) (fs : FS) (m old : EqData) (hn : m.nsampl < 2 ^ 31) :
    loadEq Norb Ncell F (saveEq Norb Ncell (fun _ => .none) fs fnbase m) fnbase old =
      { sign := m.sign, nsampl := m.nsampl
        arr := fun a z => if 0 ≤ z ∧ z < EqF.size Norb Ncell a then m.arr a z else old.arr a z } := by
  unfold loadEq saveEq
  rw [writeAll_none]
  have hm := putAll_mem fs _ (eqWrites_nodup fnbase Norb Ncell m)
  have e1 := hm (fnbase ++ "_eqlt_sign.dat", encDouble m.sign) (by simp [eqWrites])
  have e2 := hm (fnbase ++ "_eqlt_nsampl.dat", encInt m.nsampl) (by simp [eqWrites])
  have e3 : ∀ f ∈ eqLoadFiles, putAll fs (eqWrites Norb Ncell fnbase m) (fnbase ++ f.2)
      = some (encArray encDouble (EqF.size Norb Ncell f.1).toNat fun i => m.arr f.1 i) := by
    intro f hf
    have hf' : f ∈ eqSaveFiles := (by decide : eqLoadFiles ⊆ eqSaveFiles) hf
    exact hm (fnbase ++ f.2, _) (List.mem_append_right _ (List.mem_map.2 ⟨f, hf', rfl⟩))
  rw [loadDouble_saved F _ _ _ _ e1, loadCount_saved F _ _ _ _ hn e2,
    loadArrays_saved F fnbase _ _ _ _ _ (by decide) eqLoad_all e3]

/-- C53, the round trip of unequal time data -/
theorem loadUneq_saveUneq_partial (Norb Ncell L : ℕ) (fs : FS) (m old : UneqData)
    (hn : m.nsampl < 2 ^ 31) :
    loadUneq Norb Ncell L F (saveUneq Norb Ncell L (fun _ => .none) fs fnbase m) fnbase old =
      { sign := m.sign, nsampl := m.nsampl
        arr := fun a z =>
          if 0 ≤ z ∧ z < UneqF.size Norb Ncell L a then m.arr a z else old.arr a z } := by
  unfold loadUneq saveUneq
  rw [writeAll_none]
  have hm := putAll_mem fs _ (uneqWrites_nodup fnbase Norb Ncell L m)
  have e1 := hm (fnbase ++ "_uneqlt_sign.dat", encDouble m.sign) (by simp [uneqWrites])
  have e2 := hm (fnbase ++ "_uneqlt_nsampl.dat", encInt m.nsampl) (by simp [uneqWrites])
  have e3 : ∀ f ∈ uneqLoadFiles, putAll fs (uneqWrites Norb Ncell L fnbase m) (fnbase ++ f.2)
      = some (encArray encDouble (UneqF.size Norb Ncell L f.1).toNat fun i => m.arr f.1 i) := by
    intro f hf
    have hf' : f ∈ uneqSaveFiles := (by decide : uneqLoadFiles ⊆ uneqSaveFiles) hf
    exact hm (fnbase ++ f.2, _) (List.mem_append_right _ (List.mem_map.2 ⟨f, hf', rfl⟩))
  rw [loadDouble_saved F _ _ _ _ e1, loadCount_saved F _ _ _ _ hn e2,
    loadArrays_saved F fnbase _ _ _ _ _ (by decide)
      uneqLoad_all e3]

/-- C53 fails: if the files are missing, the data stay as they were allocated, without any report -/
theorem not_missing_noticed (Norb Ncell : ℕ) (old : EqData) :
    loadEq Norb Ncell F (fun _ => none) fnbase old = old := by
  have h : ∀ (l : List (EqF × String)), l.foldl (fun m f => Function.update m f.1
      (loadArray F (fun _ => none) (fnbase ++ f.2) (EqF.size Norb Ncell f.1) (m f.1))) old.arr
      = old.arr := by
    intro l
    induction l with
    | nil => rfl
    | cons f l ih =>
      rw [List.foldl_cons]
      have : loadArray F (fun _ => none) (fnbase ++ f.2) (EqF.size Norb Ncell f.1) (old.arr f.1)
          = old.arr f.1 := rfl
      rw [this, Function.update_eq_self]
      exact ih
  unfold loadEq loadArrays
  rw [h]
  rfl

/-- C53 fails: if one file is truncated, the others are loaded and this array stays as it was
allocated, without any report -/
theorem not_truncation_noticed (Norb Ncell : ℕ) (fs : FS) (m old : EqData) (hn : m.nsampl < 2 ^ 31)
    (h0 : 0 < Norb) :
    loadEq Norb Ncell F ((saveEq Norb Ncell (fun _ => .none) fs fnbase m).put
        (fnbase ++ "_eqlt_density_u.dat") []) fnbase old =
      { sign := m.sign, nsampl := m.nsampl
        arr := fun a z => if a ≠ .densityU ∧ 0 ≤ z ∧ z < EqF.size Norb Ncell a then m.arr a z
          else old.arr a z } := by
  unfold loadEq saveEq
  rw [writeAll_none]
  have hm := putAll_mem fs _ (eqWrites_nodup fnbase Norb Ncell m)
  have e1 := hm (fnbase ++ "_eqlt_sign.dat", encDouble m.sign) (by simp [eqWrites])
  have e2 := hm (fnbase ++ "_eqlt_nsampl.dat", encInt m.nsampl) (by simp [eqWrites])
  have e3 : ∀ f ∈ eqLoadFiles, putAll fs (eqWrites Norb Ncell fnbase m) (fnbase ++ f.2)
      = some (encArray encDouble (EqF.size Norb Ncell f.1).toNat fun i => m.arr f.1 i) := by
    intro f hf
    have hf' : f ∈ eqSaveFiles := (by decide : eqLoadFiles ⊆ eqSaveFiles) hf
    exact hm (fnbase ++ f.2, _) (List.mem_append_right _ (List.mem_map.2 ⟨f, hf', rfl⟩))
  rw [loadDouble_saved F _ _ m.sign _ (by
      rw [put_other _ _ _ _ (by rw [Ne, String.append_right_inj]; decide)]; exact e1),
    loadCount_saved F _ _ m.nsampl _ hn (by
      rw [put_other _ _ _ _ (by rw [Ne, String.append_right_inj]; decide)]; exact e2)]
  congr 1
  funext a
  obtain ⟨n, hf⟩ := eqLoad_all a
  rw [loadArrays_mem F _ fnbase eqLoadFiles _ _ (by decide) (a, n) hf]
  by_cases ha : a = .densityU
  · subst ha
    have hname : n = "_eqlt_density_u.dat" := by
      have : ∀ f ∈ eqLoadFiles, f.1 = .densityU → f.2 = "_eqlt_density_u.dat" := by decide
      exact this _ hf rfl
    subst hname
    simp only [ne_eq, not_true_eq_false, false_and, if_false]
    have hr := (readData_cases ((putAll fs (eqWrites Norb Ncell fnbase m)).put
      (fnbase ++ "_eqlt_density_u.dat") []) (fnbase ++ "_eqlt_density_u.dat") 8
      (EqF.size Norb Ncell .densityU).toNat).2.1 [] (put_same _ _ _) (by
        show 0 ≠ (Norb : ℤ).toNat * 8
        rw [Int.toNat_natCast]
        omega)
    unfold loadArray
    rw [hr]
  · have hname : fnbase ++ n ≠ fnbase ++ "_eqlt_density_u.dat" := by
      rw [Ne, String.append_right_inj]
      have : ∀ f ∈ eqLoadFiles, f.2 = "_eqlt_density_u.dat" → f.1 = .densityU := by decide
      exact fun h => ha (this _ hf h)
    simp only [ne_eq, ha, not_false_eq_true, true_and]
    exact loadArray_saved F _ _ _ _ _ (by rw [put_other _ _ _ _ hname]; exact e3 (a, n) hf)

end

end Verif.Files
