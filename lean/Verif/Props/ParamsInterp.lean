import Verif.Props.Params
import Mathlib.Tactic.Ring
import Mathlib.Tactic.Linarith
import Mathlib.Algebra.Order.Ring.Int

/-!
# Interpreting and validating the parameters: C09, C10, C11
-/

set_option autoImplicit false

namespace Verif.Params

open Verif.HashTable

variable {F : Type}

/-! ## C10: hopping lists -/

/-- specification: the (index, index, value) triples of a value list -/
def triples (cv : Conv F) : List Token → List (ℤ × ℤ × F)
  | a :: b :: v :: rest => (cv.atoi a, cv.atoi b, cv.atof v) :: triples cv rest
  | _ => []

/-- both indices are orbital indices -/
def InRange (Norb : ℤ) (x : ℤ × ℤ × F) : Prop :=
  0 ≤ x.1 ∧ x.1 < Norb ∧ 0 ≤ x.2.1 ∧ x.2.1 < Norb

/-- value of the last triple for the bond (a, b) -/
def lastFor (a b : ℤ) : List (ℤ × ℤ × F) → Option F
  | [] => none
  | x :: xs => (lastFor a b xs).or (if x.1 = a ∧ x.2.1 = b then some x.2.2 else none)

theorem hop_index_range {Norb a b : ℤ} (ha : 0 ≤ a) (ha' : a < Norb) (hb : 0 ≤ b) (hb' : b < Norb) :
    0 ≤ a + Norb * b ∧ a + Norb * b < Norb * Norb := by
  constructor
  · nlinarith
  · nlinarith

theorem hop_index_inj {Norb a b c d : ℤ} (ha : 0 ≤ a) (ha' : a < Norb) (hc : 0 ≤ c) (hc' : c < Norb)
    (h : a + Norb * b = c + Norb * d) : a = c ∧ b = d := by
  have h1 : a = c := by
    have e1 : (a + Norb * b) % Norb = a := by rw [Int.add_mul_emod_self_left]; exact Int.emod_eq_of_lt ha ha'
    have e2 : (c + Norb * d) % Norb = c := by rw [Int.add_mul_emod_self_left]; exact Int.emod_eq_of_lt hc hc'
    rw [← e1, h, e2]
  subst h1
  have hN : Norb ≠ 0 := by omega
  exact ⟨rfl, mul_left_cancel₀ hN (by linarith)⟩

theorem readHopLoop_status (cv : Conv F) (Norb : ℤ) (list : List Token) (t : ℤ → F) :
    (readHopLoop cv Norb list t).1 = 0 ↔ ∀ x ∈ triples cv list, InRange Norb x := by
  fun_induction triples cv list generalizing t with
  | case1 a b v rest ih =>
    simp only [readHopLoop, List.mem_cons, forall_eq_or_imp]
    split
    · rename_i h
      constructor
      · intro h0; exact absurd h0 (by simp)
      · rintro ⟨⟨h1, h2, h3, h4⟩, _⟩; simp only at h1 h2 h3 h4; omega
    · rename_i h
      rw [ih]
      constructor
      · intro h0; refine ⟨⟨?_, ?_, ?_, ?_⟩, h0⟩ <;> simp only <;> omega
      · exact fun h0 => h0.2
  | case2 l h =>
    unfold readHopLoop
    split
    · exact absurd rfl (h _ _ _ _)
    · simp

theorem readHopLoop_frame (cv : Conv F) (Norb : ℤ) (list : List Token) (t : ℤ → F) (k : ℤ)
    (hk : ¬ (0 ≤ k ∧ k < Norb * Norb)) : (readHopLoop cv Norb list t).2 k = t k := by
  fun_induction triples cv list generalizing t with
  | case1 a b v rest ih =>
    simp only [readHopLoop]
    split
    · rfl
    · rename_i h
      rw [ih, Function.update_of_ne]
      rintro rfl
      exact hk (hop_index_range (by omega) (by omega) (by omega) (by omega))
  | case2 l h =>
    unfold readHopLoop
    split
    · exact absurd rfl (h _ _ _ _)
    · rfl

theorem readHopLoop_value (cv : Conv F) (Norb : ℤ) (list : List Token) (t : ℤ → F)
    (h0 : (readHopLoop cv Norb list t).1 = 0) (a b : ℤ) (ha : 0 ≤ a) (ha' : a < Norb) :
    (readHopLoop cv Norb list t).2 (a + Norb * b)
      = (lastFor a b (triples cv list)).getD (t (a + Norb * b)) := by
  fun_induction triples cv list generalizing t with
  | case1 a' b' v rest ih =>
    simp only [readHopLoop] at h0 ⊢
    split at h0
    · exact absurd h0 (by simp)
    · rename_i h
      rw [if_neg h, ih _ h0]
      simp only [lastFor]
      cases lastFor a b (triples cv rest) with
      | some y => simp
      | none =>
        simp only [Option.getD_none, Option.none_or]
        by_cases hab : cv.atoi a' = a ∧ cv.atoi b' = b
        · rw [if_pos hab, ← hab.1, ← hab.2, Function.update_self]; rfl
        · rw [if_neg hab, Function.update_of_ne]; · rfl
          intro he
          have := hop_index_inj ha ha' (by omega) (by omega) he
          exact hab ⟨this.1.symm, this.2.symm⟩
  | case2 l h =>
    unfold readHopLoop
    split
    · exact absurd rfl (h _ _ _ _)
    · rfl

/-- C10: a hopping list is accepted exactly if its length is a multiple of 3 and all indices are
orbital indices. -/
theorem readHoppings_accepts (cv : Conv F) (Norb : ℤ) (list : List Token) (t : ℤ → F) :
    (readHoppings cv Norb list t).1 = 0 ↔
      3 ∣ list.length ∧ ∀ x ∈ triples cv list, InRange Norb x := by
  unfold readHoppings
  split
  · rename_i h
    constructor
    · intro h0; exact absurd h0 (by simp)
    · rintro ⟨h1, _⟩; omega
  · rename_i h
    rw [readHopLoop_status]
    constructor
    · intro h0; exact ⟨by omega, h0⟩
    · exact fun h0 => h0.2

/-- C10: after acceptance `t[a + Norb*b]` is the value of the last triple for (a, b), or the old
value if there is none. -/
theorem readHoppings_last_wins (cv : Conv F) (Norb : ℤ) (list : List Token) (t : ℤ → F)
    (h0 : (readHoppings cv Norb list t).1 = 0) (a b : ℤ) (ha : 0 ≤ a ∧ a < Norb)
    (_hb : 0 ≤ b ∧ b < Norb) :
    (readHoppings cv Norb list t).2 (a + Norb * b)
      = (lastFor a b (triples cv list)).getD (t (a + Norb * b)) := by
  unfold readHoppings at h0 ⊢
  split at h0
  · exact absurd h0 (by simp)
  · rename_i h
    rw [if_neg h]
    exact readHopLoop_value cv Norb list t h0 a b ha.1 ha.2

/-- C10: nothing outside the `Norb*Norb` array is written, accepted or not. -/
theorem readHoppings_in_bounds (cv : Conv F) (Norb : ℤ) (list : List Token) (t : ℤ → F) (k : ℤ)
    (hk : ¬ (0 ≤ k ∧ k < Norb * Norb)) : (readHoppings cv Norb list t).2 k = t k := by
  unfold readHoppings
  split
  · rfl
  · exact readHopLoop_frame cv Norb list t k hk

/-- a converter for the examples: decimal digits -/
def digits (s : Token) : ℤ := s.foldl (fun n c => 10 * n + ((c.toNat : ℤ) - 48)) 0

def exConv : Conv ℤ := ⟨digits, digits, digits⟩

/-- non-vacuity: two definitions of the bond (0, 1), the last one wins -/
example :
    let l := [ascii "0", ascii "1", ascii "7", ascii "1", ascii "0", ascii "3",
      ascii "0", ascii "1", ascii "5"]
    (readHoppings exConv 2 l (fun _ => 0)).1 = 0 ∧
    (readHoppings exConv 2 l (fun _ => 0)).2 (0 + 2 * 1) = 5 ∧
    (readHoppings exConv 2 l (fun _ => 0)).2 (1 + 2 * 0) = 3 ∧
    (readHoppings exConv 1 l (fun _ => 0)).1 = -2 := by
  decide +kernel

/-! ## C09: defaults and errors -/

theorem readList_status (cv : Conv F) (Norb : ℤ) (list : List Token) (a : ℤ → F) :
    (readList cv Norb list a).1 = 0 ↔ (list.length : ℤ) = Norb := by
  unfold readList
  split
  · rename_i h; exact ⟨fun h0 => absurd h0 (by simp), fun h0 => absurd h0 h⟩
  · rename_i h; exact ⟨fun _ => by simpa using h, fun _ => rfl⟩

theorem readList_value (cv : Conv F) (Norb : ℤ) (list : List Token) (a : ℤ → F)
    (h0 : (list.length : ℤ) = Norb) (k : ℕ) (hk : k < list.length) :
    (readList cv Norb list a).2 k = cv.atof list[k] := by
  unfold readList
  rw [if_neg (by simpa using h0)]
  simp [hk]

/-- the list parameters (hoppings) of a name: nothing given, or an acceptable list -/
def HopOk (cv : Conv F) (Norb : ℤ) (v : List Token) : Prop :=
  3 ∣ v.length ∧ ∀ x ∈ triples cv v, InRange Norb x

/-- nothing given or one value per orbital -/
def ListOk (Norb : ℤ) (v : List Token) : Prop := v = [] ∨ (v.length : ℤ) = Norb

/-- all list parameters of the file are well-formed for `Norb` orbitals; `v` are the values of a
name -/
def ListsOk (cv : Conv F) (Norb : ℤ) (v : String → List Token) : Prop :=
  (∀ n ∈ ["t_aa", "t_ab", "t_ac", "t_ad", "t_bc"], HopOk cv Norb (v n)) ∧
  (∀ n ∈ ["U", "eps", "phonon_omega", "phonon_g"], ListOk Norb (v n))

/-- first value or the previous one -/
def orOld {β : Type} (v : List Token) (conv : Token → β) (old : β) : β :=
  (v.head?.map conv).getD old

/-- matrix entry given by a hopping list -/
def hopVal [Zero F] (cv : Conv F) (v : List Token) (a b : ℤ) : F :=
  (lastFor a b (triples cv v)).getD 0

/-- entry given by an orbital list -/
def listVal [Zero F] (cv : Conv F) (v : List Token) (k : ℕ) : F := (v[k]?.map cv.atof).getD 0

/-- specification of a successful reading: what the parameters are, `v` being the values given for a
name and `p` the previous parameters -/
structure Expected [Zero F] (cv : Conv F) (Norb : ℤ) (v : String → List Token) (p q : SimParams F) :
    Prop where
  norb : q.Norb = Norb
  nx : q.Nx = orOld (v "Nx") cv.atoi p.Nx
  ny : q.Ny = orOld (v "Ny") cv.atoi p.Ny
  shift : q.pbcShift = orOld (v "pbc_shift") cv.atoi p.pbcShift
  taa : ∀ a b, 0 ≤ a → a < Norb → q.t.aa (a + Norb * b) = hopVal cv (v "t_aa") a b
  tab : ∀ a b, 0 ≤ a → a < Norb → q.t.ab (a + Norb * b) = hopVal cv (v "t_ab") a b
  tac : ∀ a b, 0 ≤ a → a < Norb → q.t.ac (a + Norb * b) = hopVal cv (v "t_ac") a b
  tad : ∀ a b, 0 ≤ a → a < Norb → q.t.ad (a + Norb * b) = hopVal cv (v "t_ad") a b
  tbc : ∀ a b, 0 ≤ a → a < Norb → q.t.bc (a + Norb * b) = hopVal cv (v "t_bc") a b
  u : ∀ k : ℕ, (k : ℤ) < Norb → q.U k = listVal cv (v "U") k
  eps : ∀ k : ℕ, (k : ℤ) < Norb → q.eps k = listVal cv (v "eps") k
  mu : q.mu = orOld (v "mu") cv.atof p.mu
  phonons : q.usePhonons = (match (v "use_phonons").head? with
    | some s => if s = ascii "true" ∨ s = ascii "1" then true
        else if s = ascii "false" ∨ s = ascii "0" then false else p.usePhonons
    | none => p.usePhonons)
  omega : ∀ k : ℕ, (k : ℤ) < Norb → q.phonon.omega k = listVal cv (v "phonon_omega") k
  g : ∀ k : ℕ, (k : ℤ) < Norb → q.phonon.g k = listVal cv (v "phonon_g") k
  lbw : q.phonon.localBoxWidth = orOld (v "phonon_local_box_width") cv.atof p.phonon.localBoxWidth
  nlu : q.phonon.nLocalUpdates = orOld (v "phonon_n_local_updates") cv.atoi p.phonon.nLocalUpdates
  bbw : q.phonon.blockBoxWidth = orOld (v "phonon_block_box_width") cv.atof p.phonon.blockBoxWidth
  nbu : q.phonon.nBlockUpdates = orOld (v "phonon_n_block_updates") cv.atoi p.phonon.nBlockUpdates
  dt : q.dt = orOld (v "dt") cv.atof p.dt
  l : q.L = orOld (v "L") cv.atoi p.L
  prodBlen : q.prodBlen = orOld (v "prodBlen") cv.atoi p.prodBlen
  nwraps : q.nwraps = orOld (v "nwraps") cv.atoi p.nwraps
  nequil : q.nequil = orOld (v "nequil") cv.atoi p.nequil
  nsampl : q.nsampl = orOld (v "nsampl") cv.atoi p.nsampl
  neqlt : q.neqlt = orOld (v "neqlt") cv.atoi q.L
  nuneqlt : q.nuneqlt = orOld (v "nuneqlt") cv.atoi p.nuneqlt
  itime : q.itime = orOld (v "itime") (fun s => BitVec.ofInt 64 (cv.atoll s)) p.itime
  maxTime : q.maxTime = orOld (v "max_time") cv.atoi p.maxTime

theorem scalar_rep {β : Type} (v : List Token) (conv : Token → β) (old : β) :
    scalar (rep v) conv old = orOld v conv old := by
  cases v <;> rfl

theorem optHop_status (cv : Conv F) (Norb : ℤ) (v : List Token) (t : ℤ → F) :
    (optList (rep v) (readHoppings cv Norb) t).1 = 0 ↔ HopOk cv Norb v := by
  cases v with
  | nil => simp [rep, optList, HopOk, triples]
  | cons a l => simp only [rep, optList]; exact readHoppings_accepts cv Norb (a :: l) t

theorem optHop_value [Zero F] (cv : Conv F) (Norb : ℤ) (v : List Token)
    (h : HopOk cv Norb v) (a b : ℤ) (ha : 0 ≤ a) (ha' : a < Norb) :
    (optList (rep v) (readHoppings cv Norb) (fun _ => 0)).2 (a + Norb * b) = hopVal cv v a b := by
  cases v with
  | nil => rfl
  | cons c l =>
    have h0 := (readHoppings_accepts cv Norb (c :: l) (fun _ => 0)).2 h
    have : ¬ (c :: l).length % 3 ≠ 0 := by obtain ⟨h1, _⟩ := h; omega
    simp only [rep, optList, reduceCtorEq, if_false]
    unfold readHoppings at h0 ⊢
    rw [if_neg this] at h0 ⊢
    exact readHopLoop_value cv Norb _ _ h0 a b ha ha'

theorem optList_status (cv : Conv F) (Norb : ℤ) (v : List Token) (t : ℤ → F) :
    (optList (rep v) (readList cv Norb) t).1 = 0 ↔ ListOk Norb v := by
  cases v with
  | nil => simp [rep, optList, ListOk]
  | cons a l =>
    simp only [rep, optList, reduceCtorEq, if_false, ListOk, false_or]
    exact readList_status cv Norb (a :: l) t

theorem optList_value [Zero F] (cv : Conv F) (Norb : ℤ) (v : List Token)
    (h : ListOk Norb v) (k : ℕ) (hk : (k : ℤ) < Norb) :
    (optList (rep v) (readList cv Norb) (fun _ => 0)).2 k = listVal cv v k := by
  cases v with
  | nil => rfl
  | cons a l =>
    simp only [rep, optList, reduceCtorEq, if_false]
    have h' : ((a :: l).length : ℤ) = Norb := by
      rcases h with h | h
      · cases h
      · exact h
    have hk' : k < (a :: l).length := by omega
    rw [readList_value cv Norb (a :: l) _ h' k hk', listVal, List.getElem?_eq_getElem hk']; rfl

open Classical in
/-- C09: result of the second half of the parser.  `get` is the table of the first half. -/
theorem interpret_spec [Zero F] (cv : Conv F) (get : Key → Option (List Token)) (p : SimParams F)
    (v : String → List Token) (hv : ∀ n, get (nm n) = rep (v n)) :
    (interpret cv get p).1 =
      (if v "Norb" = [] ∨ cv.atoi (first (v "Norb")) ≤ 0 then -2
       else if ListsOk cv (cv.atoi (first (v "Norb"))) v then 0 else -3) ∧
    ((interpret cv get p).1 = 0 →
      Expected cv (cv.atoi (first (v "Norb"))) v p (interpret cv get p).2) := by
  unfold interpret
  simp only [hv]
  by_cases hn : v "Norb" = []
  · rw [hn]; simp [rep]
  · have hrep : rep (v "Norb") = some (v "Norb") := by simp [rep, hn]
    simp only [hrep]
    generalize hN : cv.atoi (first (v "Norb")) = Norb
    by_cases hpos : Norb ≤ 0
    · simp [hpos]
    · simp only [hn, hpos, or_self, if_false, allocateParams, ne_eq, optHop_status, optList_status]
      by_cases h1 : HopOk cv Norb (v "t_aa")
      swap
      · have : ¬ ListsOk cv Norb v := fun h => h1 (h.1 _ (by simp))
        simp [h1, this]
      by_cases h2 : HopOk cv Norb (v "t_ab")
      swap
      · have : ¬ ListsOk cv Norb v := fun h => h2 (h.1 _ (by simp))
        simp [h1, h2, this]
      by_cases h3 : HopOk cv Norb (v "t_ac")
      swap
      · have : ¬ ListsOk cv Norb v := fun h => h3 (h.1 _ (by simp))
        simp [h1, h2, h3, this]
      by_cases h4 : HopOk cv Norb (v "t_ad")
      swap
      · have : ¬ ListsOk cv Norb v := fun h => h4 (h.1 _ (by simp))
        simp [h1, h2, h3, h4, this]
      by_cases h5 : HopOk cv Norb (v "t_bc")
      swap
      · have : ¬ ListsOk cv Norb v := fun h => h5 (h.1 _ (by simp))
        simp [h1, h2, h3, h4, h5, this]
      by_cases h6 : ListOk Norb (v "U")
      swap
      · have : ¬ ListsOk cv Norb v := fun h => h6 (h.2 _ (by simp))
        simp [h1, h2, h3, h4, h5, h6, this]
      by_cases h7 : ListOk Norb (v "eps")
      swap
      · have : ¬ ListsOk cv Norb v := fun h => h7 (h.2 _ (by simp))
        simp [h1, h2, h3, h4, h5, h6, h7, this]
      by_cases h8 : ListOk Norb (v "phonon_omega")
      swap
      · have : ¬ ListsOk cv Norb v := fun h => h8 (h.2 _ (by simp))
        simp [h1, h2, h3, h4, h5, h6, h7, h8, this]
      by_cases h9 : ListOk Norb (v "phonon_g")
      swap
      · have : ¬ ListsOk cv Norb v := fun h => h9 (h.2 _ (by simp))
        simp [h1, h2, h3, h4, h5, h6, h7, h8, h9, this]
      have hall : ListsOk cv Norb v := by
        constructor
        · intro n hn
          simp only [List.mem_cons, List.not_mem_nil, or_false] at hn
          rcases hn with rfl | rfl | rfl | rfl | rfl <;> assumption
        · intro n hn
          simp only [List.mem_cons, List.not_mem_nil, or_false] at hn
          rcases hn with rfl | rfl | rfl | rfl <;> assumption
      simp only [h1, h2, h3, h4, h5, h6, h7, h8, h9, hall, not_true_eq_false, if_false, if_true,
        scalar_rep]
      refine ⟨trivial, fun _ => ?_⟩
      constructor
      case taa => exact fun a b ha ha' => optHop_value cv Norb _ h1 a b ha ha'
      case tab => exact fun a b ha ha' => optHop_value cv Norb _ h2 a b ha ha'
      case tac => exact fun a b ha ha' => optHop_value cv Norb _ h3 a b ha ha'
      case tad => exact fun a b ha ha' => optHop_value cv Norb _ h4 a b ha ha'
      case tbc => exact fun a b ha ha' => optHop_value cv Norb _ h5 a b ha ha'
      case u => exact fun k hk => optList_value cv Norb _ h6 k hk
      case eps => exact fun k hk => optList_value cv Norb _ h7 k hk
      case omega => exact fun k hk => optList_value cv Norb _ h8 k hk
      case g => exact fun k hk => optList_value cv Norb _ h9 k hk
      case phonons =>
        simp only [readBool, rep, ascii, first]
        cases v "use_phonons" <;> rfl
      all_goals rfl

open Classical in
/-- C09: the whole parser.  For a file with short lines and at most 1024 values per name, the status
is -2 if `Norb` is missing or not positive, -3 if a list parameter is malformed and 0 otherwise; on
success the parameters are the given values, the previous values where none is given, `neqlt = L` by
default and zero for the list entries that are not given.  A file that cannot be opened gives -1 and
changes nothing. -/
theorem parse_spec [Zero F] (cv : Conv F) (file : List UInt8) (p : SimParams F)
    (hs : ShortLines file) (hc : ∀ name, (valuesIn name file).length ≤ 1024) :
    parse cv none p = some (-1, p) ∧
    ∃ st q, parse cv (some file) p = some (st, q) ∧
      st = (if valuesIn (ascii "Norb") file = [] ∨
              cv.atoi (first (valuesIn (ascii "Norb") file)) ≤ 0 then -2
            else if ListsOk cv (cv.atoi (first (valuesIn (ascii "Norb") file)))
              (fun n => valuesIn (ascii n) file) then 0 else -3) ∧
      (st = 0 → Expected cv (cv.atoi (first (valuesIn (ascii "Norb") file)))
        (fun n => valuesIn (ascii n) file) p q) := by
  refine ⟨rfl, ?_⟩
  obtain ⟨t, h1, h2⟩ := readTable_spec_partial file hs hc
  have h := interpret_spec cv (HashTable.get t) p (fun n => valuesIn (ascii n) file)
    (fun n => h2 (nm n))
  refine ⟨_, _, ?_, h⟩
  simp only [parse, h1, Option.map_some]

/-- non-vacuity: a small parameter file is accepted -/
example : ∃ file : List UInt8, ShortLines file ∧
    (∀ name, (valuesIn name file).length ≤ 1024) ∧
    valuesIn (ascii "Norb") file = [ascii "2"] ∧
    ListsOk exConv 2 (fun n => valuesIn (ascii n) file) ∧
    valuesIn (ascii "L") file = [ascii "8"] := by
  refine ⟨ascii "Norb 2\nU = 4, 5\nt_ab 0 1 3\nL: 8\n", ?_, ?_, ?_, ?_, ?_⟩
  · unfold ShortLines; decide +kernel
  · intro name
    have : (ascii "Norb 2\nU = 4, 5\nt_ab 0 1 3\nL: 8\n").splitOnP (fun c => c == 10)
      = [ascii "Norb 2", ascii "U = 4, 5", ascii "t_ab 0 1 3", ascii "L: 8", []] := by
      decide +kernel
    unfold valuesIn
    rw [this]
    simp only [List.flatMap_cons, List.flatMap_nil, valuesOn]
    have w1 : words (content (ascii "Norb 2")) = [ascii "Norb", ascii "2"] := by decide +kernel
    have w2 : words (content (ascii "U = 4, 5")) = [ascii "U", ascii "4", ascii "5"] := by
      decide +kernel
    have w3 : words (content (ascii "t_ab 0 1 3"))
      = [ascii "t_ab", ascii "0", ascii "1", ascii "3"] := by decide +kernel
    have w4 : words (content (ascii "L: 8")) = [ascii "L", ascii "8"] := by decide +kernel
    have w5 : words (content []) = [] := by decide +kernel
    rw [w1, w2, w3, w4, w5]
    simp only [List.length_append]
    have hb : ∀ (w : Token) (l : List Token), l.length ≤ 3 →
        (if w = name then l else []).length ≤ 3 := by
      intro w l hl; split
      · exact hl
      · simp
    have := hb (ascii "Norb") [ascii "2"] (by simp)
    have := hb (ascii "U") [ascii "4", ascii "5"] (by simp)
    have := hb (ascii "t_ab") [ascii "0", ascii "1", ascii "3"] (by simp)
    have := hb (ascii "L") [ascii "8"] (by simp)
    simp only [List.length_nil]
    omega
  · decide +kernel
  · simp only [ListsOk, HopOk, ListOk, InRange]; decide +kernel
  · decide +kernel

/-! ## C11: validation -/

/-- specification of an admissible parameter set -/
structure Admissible [Zero F] (p : SimParams F) : Prop where
  norb : 0 < p.Norb
  nx : 0 < p.Nx
  ny : 0 < p.Ny
  noSelf : ∀ i, 0 ≤ i → i < p.Norb → p.t.aa (i + p.Norb * i) = 0
  noDouble : ∀ i j, 0 ≤ i → i < p.Norb → 0 ≤ j → j < p.Norb → i ≠ j →
    p.t.aa (i + p.Norb * j) = 0 ∨ p.t.aa (j + p.Norb * i) = 0
  l : 0 < p.L
  prodBlen : 0 < p.prodBlen
  dvdL : p.prodBlen ∣ p.L
  dvdNwraps : p.prodBlen ∣ p.nwraps
  nwraps : 0 < p.nwraps
  itime : p.itime ≠ 0

theorem tmod_tdiv_iff {a b : ℤ} (hb : 0 < b) :
    ¬ (a.tmod b ≠ 0 ∨ a.tdiv b ≤ 0) ↔ b ∣ a ∧ 0 < a := by
  rw [not_or, not_not, not_le]
  constructor
  · rintro ⟨h1, h2⟩
    have hd : b ∣ a := Int.dvd_of_tmod_eq_zero h1
    refine ⟨hd, ?_⟩
    obtain ⟨c, rfl⟩ := hd
    rw [Int.mul_tdiv_cancel_left _ (by omega)] at h2
    positivity
  · rintro ⟨⟨c, rfl⟩, h2⟩
    refine ⟨Int.mul_tmod_right .., ?_⟩
    rw [Int.mul_tdiv_cancel_left _ (by omega)]
    exact pos_of_mul_pos_right h2 (by omega)

/-- C11: validation returns 0 for the admissible parameter sets and -1 for all others. -/
theorem validate_iff [Zero F] [DecidableEq F] (p : SimParams F) :
    (validate p = 0 ↔ Admissible p) ∧ (¬ Admissible p → validate p = -1) := by
  have hbond : (List.range p.Norb.toNat).any (fun i =>
      p.t.aa (i + i * p.Norb) ≠ 0 ||
      (List.range (p.Norb.toNat - (i + 1))).any fun k =>
        let j : ℤ := (i : ℤ) + 1 + k
        (p.t.aa (i + j * p.Norb) ≠ 0 && p.t.aa (j + i * p.Norb) ≠ 0)) = false ↔
      (∀ i, 0 ≤ i → i < p.Norb → p.t.aa (i + p.Norb * i) = 0) ∧
      (∀ i j, 0 ≤ i → i < p.Norb → 0 ≤ j → j < p.Norb → i ≠ j →
        p.t.aa (i + p.Norb * j) = 0 ∨ p.t.aa (j + p.Norb * i) = 0) := by
    simp only [List.any_eq_false, List.mem_range, Bool.or_eq_true, decide_eq_true_eq, not_or,
      not_not, List.any_eq_true, not_exists, not_and, Bool.and_eq_true, ne_eq]
    constructor
    · intro h
      have h2 : ∀ i j, 0 ≤ i → i < j → j < p.Norb →
          p.t.aa (i + p.Norb * j) = 0 ∨ p.t.aa (j + p.Norb * i) = 0 := by
        intro i j hi hij hj
        have := (h i.toNat (by omega)).2 (j - i - 1).toNat (by omega)
        have e1 : ((i.toNat : ℕ) : ℤ) = i := by omega
        have e2 : ((j - i - 1).toNat : ℤ) = j - i - 1 := by omega
        rw [e1, e2, show i + 1 + (j - i - 1) = j by ring, mul_comm j, mul_comm i] at this
        by_cases h0 : p.t.aa (i + p.Norb * j) = 0
        · exact Or.inl h0
        · exact Or.inr (this h0)
      constructor
      · intro i hi hi'
        have := (h i.toNat (by omega)).1
        rwa [show ((i.toNat : ℕ) : ℤ) = i by omega, mul_comm i] at this
      · intro i j hi hi' hj hj' hij
        rcases lt_or_gt_of_ne hij with h' | h'
        · exact h2 i j hi h' hj'
        · exact (h2 j i hj h' hi').symm
    · rintro ⟨h1, h2⟩ i hi
      constructor
      · rw [mul_comm]; exact h1 i (by omega) (by omega)
      · intro k hk h0
        rw [mul_comm] at h0
        have := h2 i (i + 1 + k) (by omega) (by omega) (by omega) (by omega) (by omega)
        rcases this with h' | h'
        · exact absurd h' h0
        · rwa [mul_comm]
  have key : (Admissible p ∧ validate p = 0) ∨ (¬ Admissible p ∧ validate p = -1) := by
    unfold validate
    split_ifs with h1 h2 h3 h4 h5 h6 h7 h8
    · exact Or.inr ⟨fun h => by have := h.norb; omega, rfl⟩
    · exact Or.inr ⟨fun h => by have := h.nx; have := h.ny; omega, rfl⟩
    · exact Or.inr ⟨fun h => (by rw [hbond.2 ⟨h.noSelf, h.noDouble⟩] at h3; cases h3), rfl⟩
    · exact Or.inr ⟨fun h => by have := h.l; omega, rfl⟩
    · exact Or.inr ⟨fun h => by have := h.prodBlen; omega, rfl⟩
    · exact Or.inr ⟨fun h => (tmod_tdiv_iff h.prodBlen).2 ⟨h.dvdL, h.l⟩ h6, rfl⟩
    · exact Or.inr ⟨fun h => (tmod_tdiv_iff h.prodBlen).2 ⟨h.dvdNwraps, h.nwraps⟩ h7, rfl⟩
    · exact Or.inr ⟨fun h => h.itime h8, rfl⟩
    · have hb := hbond.1 (Bool.eq_false_iff.2 h3)
      have hL := (tmod_tdiv_iff (by omega)).1 h6
      have hW := (tmod_tdiv_iff (by omega)).1 h7
      exact Or.inl ⟨⟨by omega, by omega, by omega, hb.1, hb.2, by omega, by omega, hL.1, hW.1,
        hW.2, h8⟩, rfl⟩
  rcases key with ⟨h, hv⟩ | ⟨h, hv⟩
  · exact ⟨⟨fun _ => h, fun _ => hv⟩, fun h' => absurd h h'⟩
  · exact ⟨⟨fun h' => by rw [hv] at h'; exact absurd h' (by decide), fun h' => absurd h' h⟩,
      fun _ => hv⟩

/-- a two-orbital test system -/
def exParams : SimParams ℤ where
  Norb := 2
  Nx := 4
  Ny := 6
  pbcShift := 0
  t := ⟨fun k => if k = 2 then 1 else 0, fun _ => 1, fun _ => 1, fun _ => 0, fun _ => 0⟩
  U := fun _ => 4
  eps := fun _ => 0
  mu := 0
  usePhonons := false
  phonon := ⟨fun _ => 0, fun _ => 0, 0, 0, 0, 0⟩
  dt := 1
  L := 16
  prodBlen := 4
  nwraps := 8
  nequil := 10
  nsampl := 20
  neqlt := 4
  nuneqlt := 2
  itime := 5
  maxTime := 0

/-- non-vacuity: an accepted set, and rejected ones (doubled bond; 3 does not divide L) -/
example : validate exParams = 0 ∧ validate { exParams with prodBlen := 3 } = -1 ∧
    validate { exParams with t := { exParams.t with aa := fun k => if k = 0 ∨ k = 3 then 0 else 1 } }
      = -1 := by
  decide +kernel

end Verif.Params
