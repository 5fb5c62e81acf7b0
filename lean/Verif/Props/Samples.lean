import Verif.Props.ParamsComplete
import Verif.Model.Main
import Mathlib.Data.List.GetD

set_option autoImplicit false

/-!
# C103: the sample inputs of the repository

What the program does with the four files `bin/sample_input_*.txt`.
-/

namespace Verif.Params

open Verif.HashTable (Key Table)
open Verif.Decimal

/-! ## The parameters described by a file -/

/-- contents of a parameter file: integers and decimal fractions; hoppings are triples, the last one counts -/
structure Sheet where
  Norb : ℤ
  Nx : ℤ
  Ny : ℤ
  shift : ℤ := 0
  taa : List (ℤ × ℤ × ℚ) := []
  tab : List (ℤ × ℤ × ℚ) := []
  tac : List (ℤ × ℤ × ℚ) := []
  tad : List (ℤ × ℤ × ℚ) := []
  tbc : List (ℤ × ℤ × ℚ) := []
  U : List ℚ := []
  eps : List ℚ := []
  mu : ℚ := 0
  phonons : Bool := false
  omega : List ℚ := []
  g : List ℚ := []
  lbw : ℚ := 0
  nlu : ℤ := 0
  bbw : ℚ := 0
  nbu : ℤ := 0
  dt : ℚ
  L : ℤ
  prodBlen : ℤ
  nwraps : ℤ
  nequil : ℤ
  nsampl : ℤ
  neqlt : ℤ
  nuneqlt : ℤ := 0

/-- value of the last triple for the bond with index `k` -/
def hopOf (n : ℤ) (l : List (ℤ × ℤ × ℚ)) (k : ℤ) : ℚ :=
  ((l.reverse.find? fun x => k = x.1 + n * x.2.1).map fun x => x.2.2).getD 0

/-- entry of a list -/
def orbOf (l : List ℚ) (k : ℤ) : ℚ := if 0 ≤ k then l.getD k.toNat 0 else 0

/-- the parameters: every number is rounded to a double -/
noncomputable def Sheet.params (s : Sheet) (rnd : ℝ → ℝ) (seed : BitVec 64) : SimParams ℝ where
  Norb := s.Norb
  Nx := s.Nx
  Ny := s.Ny
  pbcShift := s.shift
  t := ⟨fun k => rnd (hopOf s.Norb s.taa k), fun k => rnd (hopOf s.Norb s.tab k), fun k => rnd (hopOf s.Norb s.tac k),
    fun k => rnd (hopOf s.Norb s.tad k), fun k => rnd (hopOf s.Norb s.tbc k)⟩
  U := fun k => rnd (orbOf s.U k)
  eps := fun k => rnd (orbOf s.eps k)
  mu := rnd s.mu
  usePhonons := s.phonons
  phonon := ⟨fun k => rnd (orbOf s.omega k), fun k => rnd (orbOf s.g k), rnd s.lbw, s.nlu, rnd s.bbw, s.nbu⟩
  dt := rnd s.dt
  L := s.L
  prodBlen := s.prodBlen
  nwraps := s.nwraps
  nequil := s.nequil
  nsampl := s.nsampl
  neqlt := s.neqlt
  nuneqlt := s.nuneqlt
  itime := seed
  maxTime := 0

/-- the words are the triples -/
def hopsIn : List Token → Option (List (ℤ × ℤ × ℚ))
  | [] => some []
  | a :: b :: v :: r =>
    match atoi a, atoi b, strtod v, hopsIn r with
    | some a, some b, some v, some l => some ((a, b, v) :: l)
    | _, _, _, _ => none
  | _ => none

/-- the words are the numbers -/
def listIn : List Token → Option (List ℚ)
  | [] => some []
  | v :: r =>
    match strtod v, listIn r with
    | some v, some l => some (v :: l)
    | _, _ => none

/-- not absurdly large -/
def Mod (q : ℚ) : Prop := |q| ≤ 1000000000000

instance (q : ℚ) : Decidable (Mod q) := by unfold Mod; infer_instance

/-- the words describe a number, or there are none and it is the default -/
def Scalar {α : Type} (conv : Token → Option α) (ts : List Token) (dflt x : α) : Prop :=
  match ts with
  | [] => x = dflt
  | a :: _ => conv a = some x

instance {α : Type} [DecidableEq α] (conv : Token → Option α) (ts : List Token) (dflt x : α) :
    Decidable (Scalar conv ts dflt x) := by unfold Scalar; cases ts <;> infer_instance

/-- hoppings between orbitals of the cell -/
def HopsOk (n : ℤ) (ts : List Token) (l : List (ℤ × ℤ × ℚ)) : Prop :=
  hopsIn ts = some l ∧ ∀ x ∈ l, 0 ≤ x.1 ∧ x.1 < n ∧ 0 ≤ x.2.1 ∧ x.2.1 < n ∧ Mod x.2.2

instance (n : ℤ) (ts : List Token) (l : List (ℤ × ℤ × ℚ)) : Decidable (HopsOk n ts l) := by unfold HopsOk; infer_instance

/-- one number for each orbital, or none at all -/
def OrbsOk (n : ℤ) (ts : List Token) (l : List ℚ) : Prop :=
  listIn ts = some l ∧ (ts = [] ∨ (ts.length : ℤ) = n) ∧ ∀ x ∈ l, Mod x

instance (n : ℤ) (ts : List Token) (l : List ℚ) : Decidable (OrbsOk n ts l) := by unfold OrbsOk; infer_instance

def boolIn (t : Token) : Option Bool :=
  if t = nm "true" ∨ t = nm "1" then some true else if t = nm "false" ∨ t = nm "0" then some false else none

/-- the numbers of a sheet are those of the words -/
structure Sheet.Matches (s : Sheet) (v : String → List Token) : Prop where
  norb : (v "Norb").head?.bind atoi = some s.Norb
  pos : 0 < s.Norb
  ints : ∀ x ∈ [("Nx", s.Nx), ("Ny", s.Ny), ("pbc_shift", s.shift), ("phonon_n_local_updates", s.nlu),
    ("phonon_n_block_updates", s.nbu), ("L", s.L), ("prodBlen", s.prodBlen), ("nwraps", s.nwraps), ("nequil", s.nequil),
    ("nsampl", s.nsampl), ("nuneqlt", s.nuneqlt), ("max_time", 0)], Scalar atoi (v x.1) 0 x.2
  neqlt : Scalar atoi (v "neqlt") s.L s.neqlt
  hops : ∀ x ∈ [("t_aa", s.taa), ("t_ab", s.tab), ("t_ac", s.tac), ("t_ad", s.tad), ("t_bc", s.tbc)], HopsOk s.Norb (v x.1) x.2
  orbs : ∀ x ∈ [("U", s.U), ("eps", s.eps), ("phonon_omega", s.omega), ("phonon_g", s.g)], OrbsOk s.Norb (v x.1) x.2
  reals : ∀ x ∈ [("mu", s.mu), ("phonon_local_box_width", s.lbw), ("phonon_block_box_width", s.bbw), ("dt", s.dt)],
    Scalar strtod (v x.1) 0 x.2 ∧ Mod x.2
  phonons : Scalar boolIn (v "use_phonons") false s.phonons
  itime : v "itime" = []

/-! ## A file with these words gives these parameters -/

section numbers

variable {rnd : ℝ → ℝ} {cv : Conv ℝ}

theorem rnd_exact (hr : Random.RoundsToNearest rnd) {x : ℝ} (hx : x ∈ Random.Binary64) : rnd x = x := by
  have := (hr x).2 x hx
  rw [sub_self, abs_zero, abs_nonpos_iff, sub_eq_zero] at this
  exact this

theorem rnd_nonneg (hr : Random.RoundsToNearest rnd) {x : ℝ} (hx : 0 ≤ x) : 0 ≤ rnd x := by
  have := (hr x).2 0 ⟨0, 0, by norm_num, by norm_num, by simp⟩
  rw [zero_sub, abs_neg, abs_of_nonneg hx, abs_le] at this
  linarith

theorem rnd_zero (hr : Random.RoundsToNearest rnd) : rnd 0 = 0 :=
  rnd_exact hr ⟨0, 0, by norm_num, by norm_num, by simp⟩

theorem atof_eq (hcv : Std rnd cv) {a : Token} {q : ℚ} (h : strtod a = some q) (hm : Mod q) : cv.atof a = rnd q := by
  refine hcv.atof a q h ?_
  have h1 : |(q : ℝ)| ≤ 1000000000000 := by
    have : ((|q| : ℚ) : ℝ) ≤ ((1000000000000 : ℚ) : ℝ) := by exact_mod_cast hm
    simpa using this
  have h2 : (2 : ℝ) ^ 1024 = 2 ^ 54 * 2 ^ 970 := by rw [← pow_add]
  have h3 : (1 : ℝ) ≤ 2 ^ 970 := one_le_pow₀ (by norm_num)
  rw [h2]
  clear h2
  generalize (2 : ℝ) ^ 970 = P at *
  nlinarith

theorem scalar_eq {α β : Type} {conv : Token → Option α} {f : Token → β} {F : α → β} {dflt x : α} {old : β}
    {ts : List Token} (h : Scalar conv ts dflt x) (hf : ∀ a, conv a = some x → f a = F x) (ho : F dflt = old) :
    scalar (rep ts) f old = F x := by
  cases ts with
  | nil => simpa [rep, scalar, Scalar, ← ho] using congrArg F h.symm
  | cons a l => simpa [rep, scalar, first] using hf a h

theorem readHopLoop_eq (hcv : Std rnd cv) (n : ℤ) : ∀ (ts : List Token) (l : List (ℤ × ℤ × ℚ)) (t : ℤ → ℝ),
    hopsIn ts = some l → (∀ x ∈ l, 0 ≤ x.1 ∧ x.1 < n ∧ 0 ≤ x.2.1 ∧ x.2.1 < n ∧ Mod x.2.2) →
    ts.length % 3 = 0 ∧ readHopLoop cv n ts t = (0, fun k =>
      match l.reverse.find? fun x => k = x.1 + n * x.2.1 with
      | some x => rnd x.2.2
      | none => t k)
  | [], l, t, h, _ => by
    obtain rfl : [] = l := Option.some.inj h
    exact ⟨rfl, rfl⟩
  | [_], _, _, h, _ => by simp [hopsIn] at h
  | [_, _], _, _, h, _ => by simp [hopsIn] at h
  | a :: b :: v :: r, l, t, h, hl => by
    unfold hopsIn at h
    split at h
    · rename_i a' b' v' l' ha hb hv hr
      obtain rfl := Option.some.inj h
      have hx := hl _ (List.mem_cons_self ..)
      obtain ⟨ih1, ih2⟩ := readHopLoop_eq hcv n r l' (Function.update t (a' + n * b') (rnd v')) hr
        fun x hx => hl x (List.mem_cons_of_mem _ hx)
      refine ⟨by simp only [List.length_cons]; omega, ?_⟩
      simp only [readHopLoop, hcv.atoi _ _ ha, hcv.atoi _ _ hb, atof_eq hcv hv hx.2.2.2.2]
      rw [if_neg (by simp only at hx; omega), ih2]
      refine Prod.ext rfl (funext fun k => ?_)
      simp only [List.reverse_cons, List.find?_append]
      cases l'.reverse.find? fun x => k = x.1 + n * x.2.1 with
      | some y => rfl
      | none =>
        by_cases hk : k = a' + n * b'
        · subst hk
          simp
        · simp [hk]
    · cases h

theorem hops_eq (hr : Random.RoundsToNearest rnd) (hcv : Std rnd cv) {n : ℤ} {ts : List Token} {l : List (ℤ × ℤ × ℚ)}
    (h : HopsOk n ts l) :
    optList (rep ts) (readHoppings cv n) (fun _ => 0) = (0, fun k => rnd (hopOf n l k)) := by
  obtain ⟨h1, h2⟩ := readHopLoop_eq hcv n ts l (fun _ => 0) h.1 h.2
  have e : ∀ k, (match l.reverse.find? fun x => k = x.1 + n * x.2.1 with
      | some x => rnd x.2.2
      | none => 0) = rnd (hopOf n l k) := by
    intro k
    unfold hopOf
    cases l.reverse.find? fun x => k = x.1 + n * x.2.1 with
    | some y => rfl
    | none => simp [rnd_zero hr]
  simp only [e] at h2
  cases ts with
  | nil =>
    obtain rfl : [] = l := Option.some.inj h.1
    simp [rep, optList, hopOf, rnd_zero hr]
  | cons a r =>
    simp only [rep, optList, reduceCtorEq, if_false]
    unfold readHoppings
    rw [if_neg (by omega), h2]

theorem listIn_get (hcv : Std rnd cv) : ∀ (ts : List Token) (l : List ℚ), listIn ts = some l → (∀ x ∈ l, Mod x) →
    l.length = ts.length ∧ ∀ k (h : k < ts.length), cv.atof ts[k] = rnd (l.getD k 0)
  | [], l, h, _ => by
    obtain rfl : [] = l := Option.some.inj h
    exact ⟨rfl, fun k h => absurd h (by simp)⟩
  | v :: r, l, h, hl => by
    unfold listIn at h
    split at h
    · rename_i v' l' hv hr
      obtain rfl := Option.some.inj h
      obtain ⟨i1, i2⟩ := listIn_get hcv r l' hr fun x hx => hl x (List.mem_cons_of_mem _ hx)
      refine ⟨by simp [i1], fun k hk => ?_⟩
      cases k with
      | zero => simpa using atof_eq hcv hv (hl _ (List.mem_cons_self ..))
      | succ k => simpa using i2 k (by simpa using hk)
    · cases h

theorem orbs_eq (hr : Random.RoundsToNearest rnd) (hcv : Std rnd cv) {n : ℤ} {ts : List Token} {l : List ℚ}
    (h : OrbsOk n ts l) :
    optList (rep ts) (readList cv n) (fun _ => 0) = (0, fun k => rnd (orbOf l k)) := by
  obtain ⟨h1, h2⟩ := listIn_get hcv ts l h.1 h.2.2
  have h0 := rnd_zero hr
  cases ts with
  | nil =>
    obtain rfl : [] = l := Option.some.inj h.1
    simp [rep, optList, orbOf, h0]
  | cons a r =>
    have hn := h.2.1.resolve_left (by simp)
    simp only [rep, optList, reduceCtorEq, if_false]
    unfold readList
    rw [if_neg (by rw [hn]; simp)]
    refine Prod.ext rfl (funext fun k => ?_)
    simp only [orbOf]
    by_cases hk : 0 ≤ k ∧ k.toNat < (a :: r).length
    · rw [dif_pos hk, if_pos hk.1, h2]
    · rw [dif_neg hk]
      by_cases h3 : 0 ≤ k
      · rw [if_pos h3, List.getD_eq_default _ _ (by rw [h1]; by_contra h4; exact hk ⟨h3, by omega⟩)]
        simp [h0]
      · rw [if_neg h3]
        simp [h0]

theorem readBool_eq {a : Token} {l : List Token} {b : Bool} (h : boolIn a = some b) : readBool (rep (a :: l)) false = b := by
  unfold boolIn at h
  by_cases h2 : a = nm "true" ∨ a = nm "1"
  · rw [if_pos h2] at h
    simpa [readBool, rep, first, h2] using h
  · rw [if_neg h2] at h
    by_cases h3 : a = nm "false" ∨ a = nm "0"
    · rw [if_pos h3] at h
      simpa [readBool, rep, first, h2, h3] using h
    · rw [if_neg h3] at h
      cases h

/-- C103: a file gives the parameters described by its words -/
theorem Sheet.parse (hr : Random.RoundsToNearest rnd) (hcv : Std rnd cv) (s : Sheet) (file : List UInt8)
    (hs : ShortLines file) (hc : ∀ name, (valuesIn name file).length ≤ 1024)
    (h : s.Matches fun n => valuesIn (ascii n) file) (ticks : BitVec 64) :
    Params.parse cv (some file) (Main.initialParams ticks) = some (0, s.params rnd ticks) := by
  obtain ⟨t, h1, h2⟩ := readTable_spec_partial file hs hc
  simp only [Params.parse, h1, Option.map_some]
  have hget : ∀ n, HashTable.get t (nm n) = rep (valuesIn (ascii n) file) := fun n => h2 (nm n)
  have hint : ∀ {ts x}, Scalar atoi ts 0 x → scalar (rep ts) cv.atoi 0 = x := fun hx =>
    scalar_eq (F := id) hx (fun a ha => hcv.atoi a _ ha) rfl
  have hreal : ∀ {ts x}, Scalar strtod ts 0 x ∧ Mod x → scalar (rep ts) cv.atof 0 = rnd x := fun hx =>
    scalar_eq (F := fun q : ℚ => rnd q) hx.1 (fun a ha => atof_eq hcv ha hx.2) (by simp [rnd_zero hr])
  have hhop := fun {ts l} (hx : HopsOk s.Norb ts l) => hops_eq hr hcv hx
  have horb := fun {ts l} (hx : OrbsOk s.Norb ts l) => orbs_eq hr hcv hx
  have hpos := h.pos
  have hi := h.ints
  have hh := h.hops
  have ho := h.orbs
  have hq := h.reals
  simp only [List.forall_mem_cons] at hi hh ho hq
  obtain ⟨i1, i2, i3, i4, i5, i6, i7, i8, i9, i10, i11, i12, -⟩ := hi
  obtain ⟨t1, t2, t3, t4, t5, -⟩ := hh
  obtain ⟨o1, o2, o3, o4, -⟩ := ho
  obtain ⟨d1, d2, d3, d4, -⟩ := hq
  have hn : ∃ l, rep (valuesIn (ascii "Norb") file) = some l ∧ cv.atoi (first l) = s.Norb := by
    have h0 := h.norb
    cases hv : valuesIn (ascii "Norb") file with
    | nil => rw [hv] at h0; cases h0
    | cons a l =>
      rw [hv] at h0
      exact ⟨a :: l, rfl, hcv.atoi a _ h0⟩
  obtain ⟨ln, hn1, hn2⟩ := hn
  have hneq : scalar (rep (valuesIn (ascii "neqlt") file)) cv.atoi s.L = s.neqlt :=
    scalar_eq (F := id) h.neqlt (fun a ha => hcv.atoi a _ ha) rfl
  have hb : readBool (rep (valuesIn (ascii "use_phonons") file)) false = s.phonons := by
    have h0 := h.phonons
    cases hv : valuesIn (ascii "use_phonons") file with
    | nil => rw [hv] at h0; exact (show s.phonons = false from h0).symm
    | cons a l =>
      rw [hv] at h0
      have h1 : boolIn a = some s.phonons := h0
      exact readBool_eq h1
  have hit : valuesIn (ascii "itime") file = [] := h.itime
  unfold interpret
  simp only [hget, hn1, hn2, not_le.2 hpos, if_false, allocateParams, Main.initialParams, hint i1, hint i2, hint i3, hint i4,
    hint i5, hint i6, hint i7, hint i8, hint i9, hint i10, hint i11, hint i12, hhop t1, hhop t2, hhop t3, hhop t4, hhop t5,
    horb o1, horb o2, horb o3, horb o4, hreal d1, hreal d2, hreal d3, hreal d4, hneq, hb, hit, ne_eq, not_true, Sheet.params]
  rfl

end numbers

/-! ## Short files -/

theorem words_length (l : List UInt8) : (words l).length ≤ l.length + 1 := by
  refine (List.length_filter_le _ _).trans ?_
  induction l with
  | nil => simp
  | cons c l ih =>
    rw [List.splitOnP_cons_eq_if_modifyHead]
    split
    · simp only [List.length_cons]; omega
    · rw [List.length_modifyHead]; simp only [List.length_cons]; omega

theorem valuesOn_length (name : Token) (l : List UInt8) : (valuesOn name l).length ≤ l.length := by
  have h1 := words_length (content l)
  have h2 : (content l).length ≤ l.length := (List.takeWhile_sublist _).length_le
  unfold valuesOn
  cases hw : words (content l) with
  | nil => simp
  | cons w ws =>
    rw [hw] at h1
    simp only [List.length_cons] at h1 ⊢
    split
    · omega
    · simp

theorem valuesIn_length (name : Token) (f : List UInt8) : (valuesIn name f).length ≤ f.length := by
  unfold valuesIn
  have key : ((f.splitOnP fun c => c == 10).map List.length).sum ≤ f.length := by
    induction f with
    | nil => simp
    | cons c f ih =>
      rw [List.splitOnP_cons_eq_if_modifyHead]
      split
      · simp only [List.map_cons, List.length_nil, List.sum_cons, List.length_cons]; omega
      · cases hs : f.splitOnP fun c => c == 10 with
        | nil => exact absurd hs (List.splitOnP_ne_nil _ _)
        | cons a r =>
          rw [hs] at ih
          simp only [List.modifyHead_cons, List.map_cons, List.sum_cons, List.length_cons] at ih ⊢
          omega
  rw [List.length_flatMap]
  refine le_trans ?_ key
  exact List.sum_le_sum fun l _ => valuesOn_length name l

theorem short_of_length {f : List UInt8} (h : f.length ≤ 1022) : ShortLines f := by
  intro line hl
  refine le_trans ?_ h
  clear h
  induction f generalizing line with
  | nil =>
    simp only [List.splitOnP_nil, List.mem_singleton] at hl
    simp [hl]
  | cons c f ih =>
    rw [List.splitOnP_cons_eq_if_modifyHead] at hl
    split at hl
    · rcases List.mem_cons.1 hl with rfl | hl
      · simp
      · exact (ih _ hl).trans (by simp)
    · cases hs : f.splitOnP fun c => c == 10 with
      | nil => exact absurd hs (List.splitOnP_ne_nil _ _)
      | cons a r =>
        rw [hs] at hl ih
        rcases List.mem_cons.1 hl with rfl | hl
        · have := ih a (by simp)
          simp only [List.length_cons]; omega
        · exact (ih _ (by simp [hl])).trans (by simp)

/-! ## The files -/

/-- lines of text, each with a newline at its end -/
def text (l : List String) : List UInt8 := l.flatMap fun s => ascii s ++ [10]

/-- `bin/sample_input_1band.txt` -/
def band1 : List UInt8 := text [
  "Norb        1",
  "Nx          6",
  "Ny          6",
  "t_ab        0,0,1.0",
  "t_ac        0,0,1.0",
  "# uncomment for next-nearest neighbor hopping",
  "# t_ad        0,0,-0.3",
  "# t_bc        0,0,-0.3",
  "U           4",
  "eps         0",
  "mu          0",
  "dt          0.05",
  "L           40",
  "prodBlen    8",
  "nwraps      8",
  "nequil      512",
  "nsampl      512",
  "neqlt       8",
  "nuneqlt     0",
  "",
  "# uncomment to enable phonons",
  "# use_phonons                 true",
  "# phonon_omega                1.0",
  "# phonon_g                    2.0",
  "# phonon_local_box_width      2.0",
  "# phonon_n_local_updates      64",
  "# phonon_block_box_width      4.0",
  "# phonon_n_block_updates      16"]

/-- `bin/sample_input_3band.txt` -/
def band3 : List UInt8 := text [
  "# number of orbitals per unit cell",
  "Norb        3",
  "",
  "# lattice dimension",
  "Nx          4",
  "Ny          4",
  "",
  "# hopping parameters",
  "# tpd = 1.13, tpp = 0.49",
  "# standard three-band phase factors",
  "t_aa        0,1,  1.13",
  "t_aa        0,2, -1.13",
  "t_aa        1,2, -0.49",
  "t_ab        1,0, -1.13",
  "t_ab        1,2,  0.49",
  "t_ac        2,0,  1.13",
  "t_ac        2,1,  0.49",
  "t_bc        2,1, -0.49",
  "",
  "# Hubbard U parameter, Udd = 8.5, Upp = 4.1",
  "U           8.5, 4.1, 4.1",
  "",
  "# site energies",
  "# 4.25 = 0.00 + 8.5/2",
  "# 5.29 = 3.24 + 4.1/2",
  "eps         4.25, 5.29, 5.29",
  "",
  "# uncomment to enable phonons",
  "# use_phonons                 true",
  "# phonon_omega                0.0, 1.0, 1.0",
  "# phonon_g                    0.0, 2.0, 2.0",
  "# phonon_local_box_width      1.0",
  "# phonon_n_local_updates      32",
  "# phonon_block_box_width      8.0",
  "# phonon_n_block_updates      8",
  "",
  "# chemical potential",
  "mu          -0.35",
  "",
  "dt          0.125",
  "L           64",
  "prodBlen    8",
  "nwraps      8",
  "nequil      512",
  "nsampl      512",
  "neqlt       8",
  "nuneqlt     0"]

/-- `bin/sample_input_hexagonal.txt` -/
def hexagonal : List UInt8 := text [
  "# number of orbitals per unit cell",
  "Norb        2",
  "",
  "# lattice dimension",
  "Nx          4",
  "Ny          4",
  "",
  "# shift of x-coordinate when wrapping around in y-direction, must be Ny/2 for triangular lattices",
  "pbc_shift   2",
  "",
  "# nearest neighbor hopping parameters for a hexagonal lattice",
  "t_aa        1,0, 1.0",
  "t_ab        1,0, 1.0",
  "t_ac        1,0, 1.0",
  "",
  "# Hubbard U parameter",
  "U           4.0, 4.0",
  "",
  "# chemical potential",
  "mu          0.0",
  "",
  "dt          0.1",
  "L           40",
  "prodBlen    5",
  "nwraps      10",
  "nequil      512",
  "nsampl      1024",
  "neqlt       10",
  "nuneqlt     0"]

/-- `bin/sample_input_kagome.txt` -/
def kagome : List UInt8 := text [
  "# number of orbitals per unit cell",
  "Norb        3",
  "",
  "# lattice dimension",
  "Nx          4",
  "Ny          4",
  "",
  "# shift of x-coordinate when wrapping around in y-direction, must be Ny/2 for triangular lattices",
  "pbc_shift   2",
  "",
  "# nearest neighbor hopping parameters for a Kagome lattice",
  "# pairwise hopping between orbitals within a unit cell",
  "t_aa        1,0, 1.0",
  "t_aa        2,0, 1.0",
  "t_aa        1,2, 1.0",
  "# hopping between unit cells",
  "t_ac        1,0, 1.0",
  "t_bc        2,0, 1.0",
  "t_ab        1,2, 1.0",
  "",
  "# Hubbard U parameter",
  "U           4.0, 4.0, 4.0",
  "",
  "# chemical potential",
  "mu          0.0",
  "",
  "dt          0.1",
  "L           40",
  "prodBlen    5",
  "nwraps      10",
  "nequil      512",
  "nsampl      1024",
  "neqlt       10",
  "nuneqlt     0"]

/-- `bin/sample_input_1band.txt` with phonons, as suggested by its comments -/
def band1Phonons : List UInt8 := text [
  "Norb        1",
  "Nx          6",
  "Ny          6",
  "t_ab        0,0,1.0",
  "t_ac        0,0,1.0",
  "# uncomment for next-nearest neighbor hopping",
  "# t_ad        0,0,-0.3",
  "# t_bc        0,0,-0.3",
  "U           4",
  "eps         0",
  "mu          0",
  "dt          0.05",
  "L           40",
  "prodBlen    8",
  "nwraps      8",
  "nequil      512",
  "nsampl      512",
  "neqlt       8",
  "nuneqlt     0",
  "",
  "# uncomment to enable phonons",
  "use_phonons                 true",
  "phonon_omega                1.0",
  "phonon_g                    2.0",
  "phonon_local_box_width      2.0",
  "phonon_n_local_updates      64",
  "phonon_block_box_width      4.0",
  "phonon_n_block_updates      16"]

/-- `bin/sample_input_3band.txt` with phonons, as suggested by its comments -/
def band3Phonons : List UInt8 := text [
  "# number of orbitals per unit cell",
  "Norb        3",
  "",
  "# lattice dimension",
  "Nx          4",
  "Ny          4",
  "",
  "# hopping parameters",
  "# tpd = 1.13, tpp = 0.49",
  "# standard three-band phase factors",
  "t_aa        0,1,  1.13",
  "t_aa        0,2, -1.13",
  "t_aa        1,2, -0.49",
  "t_ab        1,0, -1.13",
  "t_ab        1,2,  0.49",
  "t_ac        2,0,  1.13",
  "t_ac        2,1,  0.49",
  "t_bc        2,1, -0.49",
  "",
  "# Hubbard U parameter, Udd = 8.5, Upp = 4.1",
  "U           8.5, 4.1, 4.1",
  "",
  "# site energies",
  "# 4.25 = 0.00 + 8.5/2",
  "# 5.29 = 3.24 + 4.1/2",
  "eps         4.25, 5.29, 5.29",
  "",
  "# uncomment to enable phonons",
  "use_phonons                 true",
  "phonon_omega                0.0, 1.0, 1.0",
  "phonon_g                    0.0, 2.0, 2.0",
  "phonon_local_box_width      1.0",
  "phonon_n_local_updates      32",
  "phonon_block_box_width      8.0",
  "phonon_n_block_updates      8",
  "",
  "# chemical potential",
  "mu          -0.35",
  "",
  "dt          0.125",
  "L           64",
  "prodBlen    8",
  "nwraps      8",
  "nequil      512",
  "nsampl      512",
  "neqlt       8",
  "nuneqlt     0"]

/-- the parameters in the first file -/
def sheet1 : Sheet :=
  { Norb := 1, Nx := 6, Ny := 6, tab := [(0, 0, 1)], tac := [(0, 0, 1)], U := [4], eps := [0], dt := 1 / 20, L := 40,
    prodBlen := 8, nwraps := 8, nequil := 512, nsampl := 512, neqlt := 8 }

/-- the parameters in the second file -/
def sheet3 : Sheet :=
  { Norb := 3, Nx := 4, Ny := 4, taa := [(0, 1, 113 / 100), (0, 2, -113 / 100), (1, 2, -49 / 100)],
    tab := [(1, 0, -113 / 100), (1, 2, 49 / 100)], tac := [(2, 0, 113 / 100), (2, 1, 49 / 100)], tbc := [(2, 1, -49 / 100)],
    U := [17 / 2, 41 / 10, 41 / 10], eps := [17 / 4, 529 / 100, 529 / 100], mu := -7 / 20, dt := 1 / 8, L := 64,
    prodBlen := 8, nwraps := 8, nequil := 512, nsampl := 512, neqlt := 8 }

/-- the parameters in the third file -/
def sheetHex : Sheet :=
  { Norb := 2, Nx := 4, Ny := 4, shift := 2, taa := [(1, 0, 1)], tab := [(1, 0, 1)], tac := [(1, 0, 1)], U := [4, 4],
    dt := 1 / 10, L := 40, prodBlen := 5, nwraps := 10, nequil := 512, nsampl := 1024, neqlt := 10 }

/-- the parameters in the fourth file -/
def sheetKagome : Sheet :=
  { Norb := 3, Nx := 4, Ny := 4, shift := 2, taa := [(1, 0, 1), (2, 0, 1), (1, 2, 1)], tab := [(1, 2, 1)], tac := [(1, 0, 1)],
    tbc := [(2, 0, 1)], U := [4, 4, 4], dt := 1 / 10, L := 40, prodBlen := 5, nwraps := 10, nequil := 512, nsampl := 1024,
    neqlt := 10 }

/-- with phonons -/
def sheet1Phonons : Sheet :=
  { sheet1 with phonons := true, omega := [1], g := [2], lbw := 2, nlu := 64, bbw := 4, nbu := 16 }

/-- with phonons -/
def sheet3Phonons : Sheet :=
  { sheet3 with phonons := true, omega := [0, 1, 1], g := [0, 2, 2], lbw := 1, nlu := 32, bbw := 8, nbu := 8 }

/-- the files with their parameters -/
def sampleFiles : List (List UInt8 × Sheet) :=
  [(band1, sheet1), (band3, sheet3), (hexagonal, sheetHex), (kagome, sheetKagome), (band1Phonons, sheet1Phonons),
    (band3Phonons, sheet3Phonons)]

/-- conditions which can be checked for the decimal fractions -/
structure Sheet.Good (s : Sheet) : Prop where
  norb : 0 < s.Norb
  nx : 0 < s.Nx
  ny : 0 < s.Ny
  noSelf : ∀ i : Fin s.Norb.toNat, hopOf s.Norb s.taa (i.val + s.Norb * i.val) = 0
  noDouble : ∀ i j : Fin s.Norb.toNat, i ≠ j →
    hopOf s.Norb s.taa (i.val + s.Norb * j.val) = 0 ∨ hopOf s.Norb s.taa (j.val + s.Norb * i.val) = 0
  l : 2 ≤ s.L
  l2 : s.L ≤ 1000
  prodBlen : 0 < s.prodBlen
  dvdL : s.prodBlen ∣ s.L
  dvdNwraps : s.prodBlen ∣ s.nwraps
  nwraps : 0 < s.nwraps
  dt : 0 ≤ s.dt
  u : ∀ i : Fin s.Norb.toNat, 0 ≤ orbOf s.U i.val
  shift : 0 ≤ s.shift
  small : s.Norb ≤ 8 ∧ s.Nx ≤ 32 ∧ s.Ny ≤ 32 ∧ s.shift ≤ 1000
  neqlt : 0 < s.neqlt
  nuneqlt : s.nuneqlt = 0
  iters : 0 ≤ s.nequil ∧ s.nequil ≤ 10000 ∧ 0 ≤ s.nsampl ∧ s.nsampl ≤ 10000
  local' : s.nlu ≤ 1000

/-- the bytes of `band1` -/
def band1Bytes : List UInt8 :=
  [78, 111, 114, 98, 32, 32, 32, 32, 32, 32, 32, 32, 49, 10, 78, 120, 32, 32, 32, 32, 32, 32, 32, 32, 32, 32, 54, 10, 78, 121, 32, 32,
    32, 32, 32, 32, 32, 32, 32, 32, 54, 10, 116, 95, 97, 98, 32, 32, 32, 32, 32, 32, 32, 32, 48, 44, 48, 44, 49, 46, 48, 10, 116, 95,
    97, 99, 32, 32, 32, 32, 32, 32, 32, 32, 48, 44, 48, 44, 49, 46, 48, 10, 35, 32, 117, 110, 99, 111, 109, 109, 101, 110, 116, 32, 102, 111,
    114, 32, 110, 101, 120, 116, 45, 110, 101, 97, 114, 101, 115, 116, 32, 110, 101, 105, 103, 104, 98, 111, 114, 32, 104, 111, 112, 112, 105, 110, 103, 10,
    35, 32, 116, 95, 97, 100, 32, 32, 32, 32, 32, 32, 32, 32, 48, 44, 48, 44, 45, 48, 46, 51, 10, 35, 32, 116, 95, 98, 99, 32, 32, 32,
    32, 32, 32, 32, 32, 48, 44, 48, 44, 45, 48, 46, 51, 10, 85, 32, 32, 32, 32, 32, 32, 32, 32, 32, 32, 32, 52, 10, 101, 112, 115, 32,
    32, 32, 32, 32, 32, 32, 32, 32, 48, 10, 109, 117, 32, 32, 32, 32, 32, 32, 32, 32, 32, 32, 48, 10, 100, 116, 32, 32, 32, 32, 32, 32,
    32, 32, 32, 32, 48, 46, 48, 53, 10, 76, 32, 32, 32, 32, 32, 32, 32, 32, 32, 32, 32, 52, 48, 10, 112, 114, 111, 100, 66, 108, 101, 110,
    32, 32, 32, 32, 56, 10, 110, 119, 114, 97, 112, 115, 32, 32, 32, 32, 32, 32, 56, 10, 110, 101, 113, 117, 105, 108, 32, 32, 32, 32, 32, 32,
    53, 49, 50, 10, 110, 115, 97, 109, 112, 108, 32, 32, 32, 32, 32, 32, 53, 49, 50, 10, 110, 101, 113, 108, 116, 32, 32, 32, 32, 32, 32, 32,
    56, 10, 110, 117, 110, 101, 113, 108, 116, 32, 32, 32, 32, 32, 48, 10, 10, 35, 32, 117, 110, 99, 111, 109, 109, 101, 110, 116, 32, 116, 111, 32,
    101, 110, 97, 98, 108, 101, 32, 112, 104, 111, 110, 111, 110, 115, 10, 35, 32, 117, 115, 101, 95, 112, 104, 111, 110, 111, 110, 115, 32, 32, 32, 32,
    32, 32, 32, 32, 32, 32, 32, 32, 32, 32, 32, 32, 32, 116, 114, 117, 101, 10, 35, 32, 112, 104, 111, 110, 111, 110, 95, 111, 109, 101, 103, 97,
    32, 32, 32, 32, 32, 32, 32, 32, 32, 32, 32, 32, 32, 32, 32, 32, 49, 46, 48, 10, 35, 32, 112, 104, 111, 110, 111, 110, 95, 103, 32, 32,
    32, 32, 32, 32, 32, 32, 32, 32, 32, 32, 32, 32, 32, 32, 32, 32, 32, 32, 50, 46, 48, 10, 35, 32, 112, 104, 111, 110, 111, 110, 95, 108,
    111, 99, 97, 108, 95, 98, 111, 120, 95, 119, 105, 100, 116, 104, 32, 32, 32, 32, 32, 32, 50, 46, 48, 10, 35, 32, 112, 104, 111, 110, 111, 110,
    95, 110, 95, 108, 111, 99, 97, 108, 95, 117, 112, 100, 97, 116, 101, 115, 32, 32, 32, 32, 32, 32, 54, 52, 10, 35, 32, 112, 104, 111, 110, 111,
    110, 95, 98, 108, 111, 99, 107, 95, 98, 111, 120, 95, 119, 105, 100, 116, 104, 32, 32, 32, 32, 32, 32, 52, 46, 48, 10, 35, 32, 112, 104, 111,
    110, 111, 110, 95, 110, 95, 98, 108, 111, 99, 107, 95, 117, 112, 100, 97, 116, 101, 115, 32, 32, 32, 32, 32, 32, 49, 54, 10]

theorem band1_eq : band1 = band1Bytes := by decide +kernel

/-- the bytes of `band3` -/
def band3Bytes : List UInt8 :=
  [35, 32, 110, 117, 109, 98, 101, 114, 32, 111, 102, 32, 111, 114, 98, 105, 116, 97, 108, 115, 32, 112, 101, 114, 32, 117, 110, 105, 116, 32, 99, 101,
    108, 108, 10, 78, 111, 114, 98, 32, 32, 32, 32, 32, 32, 32, 32, 51, 10, 10, 35, 32, 108, 97, 116, 116, 105, 99, 101, 32, 100, 105, 109, 101,
    110, 115, 105, 111, 110, 10, 78, 120, 32, 32, 32, 32, 32, 32, 32, 32, 32, 32, 52, 10, 78, 121, 32, 32, 32, 32, 32, 32, 32, 32, 32, 32,
    52, 10, 10, 35, 32, 104, 111, 112, 112, 105, 110, 103, 32, 112, 97, 114, 97, 109, 101, 116, 101, 114, 115, 10, 35, 32, 116, 112, 100, 32, 61, 32,
    49, 46, 49, 51, 44, 32, 116, 112, 112, 32, 61, 32, 48, 46, 52, 57, 10, 35, 32, 115, 116, 97, 110, 100, 97, 114, 100, 32, 116, 104, 114, 101,
    101, 45, 98, 97, 110, 100, 32, 112, 104, 97, 115, 101, 32, 102, 97, 99, 116, 111, 114, 115, 10, 116, 95, 97, 97, 32, 32, 32, 32, 32, 32, 32,
    32, 48, 44, 49, 44, 32, 32, 49, 46, 49, 51, 10, 116, 95, 97, 97, 32, 32, 32, 32, 32, 32, 32, 32, 48, 44, 50, 44, 32, 45, 49, 46,
    49, 51, 10, 116, 95, 97, 97, 32, 32, 32, 32, 32, 32, 32, 32, 49, 44, 50, 44, 32, 45, 48, 46, 52, 57, 10, 116, 95, 97, 98, 32, 32,
    32, 32, 32, 32, 32, 32, 49, 44, 48, 44, 32, 45, 49, 46, 49, 51, 10, 116, 95, 97, 98, 32, 32, 32, 32, 32, 32, 32, 32, 49, 44, 50,
    44, 32, 32, 48, 46, 52, 57, 10, 116, 95, 97, 99, 32, 32, 32, 32, 32, 32, 32, 32, 50, 44, 48, 44, 32, 32, 49, 46, 49, 51, 10, 116,
    95, 97, 99, 32, 32, 32, 32, 32, 32, 32, 32, 50, 44, 49, 44, 32, 32, 48, 46, 52, 57, 10, 116, 95, 98, 99, 32, 32, 32, 32, 32, 32,
    32, 32, 50, 44, 49, 44, 32, 45, 48, 46, 52, 57, 10, 10, 35, 32, 72, 117, 98, 98, 97, 114, 100, 32, 85, 32, 112, 97, 114, 97, 109, 101,
    116, 101, 114, 44, 32, 85, 100, 100, 32, 61, 32, 56, 46, 53, 44, 32, 85, 112, 112, 32, 61, 32, 52, 46, 49, 10, 85, 32, 32, 32, 32, 32,
    32, 32, 32, 32, 32, 32, 56, 46, 53, 44, 32, 52, 46, 49, 44, 32, 52, 46, 49, 10, 10, 35, 32, 115, 105, 116, 101, 32, 101, 110, 101, 114,
    103, 105, 101, 115, 10, 35, 32, 52, 46, 50, 53, 32, 61, 32, 48, 46, 48, 48, 32, 43, 32, 56, 46, 53, 47, 50, 10, 35, 32, 53, 46, 50,
    57, 32, 61, 32, 51, 46, 50, 52, 32, 43, 32, 52, 46, 49, 47, 50, 10, 101, 112, 115, 32, 32, 32, 32, 32, 32, 32, 32, 32, 52, 46, 50,
    53, 44, 32, 53, 46, 50, 57, 44, 32, 53, 46, 50, 57, 10, 10, 35, 32, 117, 110, 99, 111, 109, 109, 101, 110, 116, 32, 116, 111, 32, 101, 110,
    97, 98, 108, 101, 32, 112, 104, 111, 110, 111, 110, 115, 10, 35, 32, 117, 115, 101, 95, 112, 104, 111, 110, 111, 110, 115, 32, 32, 32, 32, 32, 32,
    32, 32, 32, 32, 32, 32, 32, 32, 32, 32, 32, 116, 114, 117, 101, 10, 35, 32, 112, 104, 111, 110, 111, 110, 95, 111, 109, 101, 103, 97, 32, 32,
    32, 32, 32, 32, 32, 32, 32, 32, 32, 32, 32, 32, 32, 32, 48, 46, 48, 44, 32, 49, 46, 48, 44, 32, 49, 46, 48, 10, 35, 32, 112, 104,
    111, 110, 111, 110, 95, 103, 32, 32, 32, 32, 32, 32, 32, 32, 32, 32, 32, 32, 32, 32, 32, 32, 32, 32, 32, 32, 48, 46, 48, 44, 32, 50,
    46, 48, 44, 32, 50, 46, 48, 10, 35, 32, 112, 104, 111, 110, 111, 110, 95, 108, 111, 99, 97, 108, 95, 98, 111, 120, 95, 119, 105, 100, 116, 104,
    32, 32, 32, 32, 32, 32, 49, 46, 48, 10, 35, 32, 112, 104, 111, 110, 111, 110, 95, 110, 95, 108, 111, 99, 97, 108, 95, 117, 112, 100, 97, 116,
    101, 115, 32, 32, 32, 32, 32, 32, 51, 50, 10, 35, 32, 112, 104, 111, 110, 111, 110, 95, 98, 108, 111, 99, 107, 95, 98, 111, 120, 95, 119, 105,
    100, 116, 104, 32, 32, 32, 32, 32, 32, 56, 46, 48, 10, 35, 32, 112, 104, 111, 110, 111, 110, 95, 110, 95, 98, 108, 111, 99, 107, 95, 117, 112,
    100, 97, 116, 101, 115, 32, 32, 32, 32, 32, 32, 56, 10, 10, 35, 32, 99, 104, 101, 109, 105, 99, 97, 108, 32, 112, 111, 116, 101, 110, 116, 105,
    97, 108, 10, 109, 117, 32, 32, 32, 32, 32, 32, 32, 32, 32, 32, 45, 48, 46, 51, 53, 10, 10, 100, 116, 32, 32, 32, 32, 32, 32, 32, 32,
    32, 32, 48, 46, 49, 50, 53, 10, 76, 32, 32, 32, 32, 32, 32, 32, 32, 32, 32, 32, 54, 52, 10, 112, 114, 111, 100, 66, 108, 101, 110, 32,
    32, 32, 32, 56, 10, 110, 119, 114, 97, 112, 115, 32, 32, 32, 32, 32, 32, 56, 10, 110, 101, 113, 117, 105, 108, 32, 32, 32, 32, 32, 32, 53,
    49, 50, 10, 110, 115, 97, 109, 112, 108, 32, 32, 32, 32, 32, 32, 53, 49, 50, 10, 110, 101, 113, 108, 116, 32, 32, 32, 32, 32, 32, 32, 56,
    10, 110, 117, 110, 101, 113, 108, 116, 32, 32, 32, 32, 32, 48, 10]

theorem band3_eq : band3 = band3Bytes := by decide +kernel

/-- the bytes of `hexagonal` -/
def hexagonalBytes : List UInt8 :=
  [35, 32, 110, 117, 109, 98, 101, 114, 32, 111, 102, 32, 111, 114, 98, 105, 116, 97, 108, 115, 32, 112, 101, 114, 32, 117, 110, 105, 116, 32, 99, 101,
    108, 108, 10, 78, 111, 114, 98, 32, 32, 32, 32, 32, 32, 32, 32, 50, 10, 10, 35, 32, 108, 97, 116, 116, 105, 99, 101, 32, 100, 105, 109, 101,
    110, 115, 105, 111, 110, 10, 78, 120, 32, 32, 32, 32, 32, 32, 32, 32, 32, 32, 52, 10, 78, 121, 32, 32, 32, 32, 32, 32, 32, 32, 32, 32,
    52, 10, 10, 35, 32, 115, 104, 105, 102, 116, 32, 111, 102, 32, 120, 45, 99, 111, 111, 114, 100, 105, 110, 97, 116, 101, 32, 119, 104, 101, 110, 32,
    119, 114, 97, 112, 112, 105, 110, 103, 32, 97, 114, 111, 117, 110, 100, 32, 105, 110, 32, 121, 45, 100, 105, 114, 101, 99, 116, 105, 111, 110, 44, 32,
    109, 117, 115, 116, 32, 98, 101, 32, 78, 121, 47, 50, 32, 102, 111, 114, 32, 116, 114, 105, 97, 110, 103, 117, 108, 97, 114, 32, 108, 97, 116, 116,
    105, 99, 101, 115, 10, 112, 98, 99, 95, 115, 104, 105, 102, 116, 32, 32, 32, 50, 10, 10, 35, 32, 110, 101, 97, 114, 101, 115, 116, 32, 110, 101,
    105, 103, 104, 98, 111, 114, 32, 104, 111, 112, 112, 105, 110, 103, 32, 112, 97, 114, 97, 109, 101, 116, 101, 114, 115, 32, 102, 111, 114, 32, 97, 32,
    104, 101, 120, 97, 103, 111, 110, 97, 108, 32, 108, 97, 116, 116, 105, 99, 101, 10, 116, 95, 97, 97, 32, 32, 32, 32, 32, 32, 32, 32, 49, 44,
    48, 44, 32, 49, 46, 48, 10, 116, 95, 97, 98, 32, 32, 32, 32, 32, 32, 32, 32, 49, 44, 48, 44, 32, 49, 46, 48, 10, 116, 95, 97, 99,
    32, 32, 32, 32, 32, 32, 32, 32, 49, 44, 48, 44, 32, 49, 46, 48, 10, 10, 35, 32, 72, 117, 98, 98, 97, 114, 100, 32, 85, 32, 112, 97,
    114, 97, 109, 101, 116, 101, 114, 10, 85, 32, 32, 32, 32, 32, 32, 32, 32, 32, 32, 32, 52, 46, 48, 44, 32, 52, 46, 48, 10, 10, 35, 32,
    99, 104, 101, 109, 105, 99, 97, 108, 32, 112, 111, 116, 101, 110, 116, 105, 97, 108, 10, 109, 117, 32, 32, 32, 32, 32, 32, 32, 32, 32, 32, 48,
    46, 48, 10, 10, 100, 116, 32, 32, 32, 32, 32, 32, 32, 32, 32, 32, 48, 46, 49, 10, 76, 32, 32, 32, 32, 32, 32, 32, 32, 32, 32, 32,
    52, 48, 10, 112, 114, 111, 100, 66, 108, 101, 110, 32, 32, 32, 32, 53, 10, 110, 119, 114, 97, 112, 115, 32, 32, 32, 32, 32, 32, 49, 48, 10,
    110, 101, 113, 117, 105, 108, 32, 32, 32, 32, 32, 32, 53, 49, 50, 10, 110, 115, 97, 109, 112, 108, 32, 32, 32, 32, 32, 32, 49, 48, 50, 52,
    10, 110, 101, 113, 108, 116, 32, 32, 32, 32, 32, 32, 32, 49, 48, 10, 110, 117, 110, 101, 113, 108, 116, 32, 32, 32, 32, 32, 48, 10]

theorem hexagonal_eq : hexagonal = hexagonalBytes := by decide +kernel

/-- the bytes of `kagome` -/
def kagomeBytes : List UInt8 :=
  [35, 32, 110, 117, 109, 98, 101, 114, 32, 111, 102, 32, 111, 114, 98, 105, 116, 97, 108, 115, 32, 112, 101, 114, 32, 117, 110, 105, 116, 32, 99, 101,
    108, 108, 10, 78, 111, 114, 98, 32, 32, 32, 32, 32, 32, 32, 32, 51, 10, 10, 35, 32, 108, 97, 116, 116, 105, 99, 101, 32, 100, 105, 109, 101,
    110, 115, 105, 111, 110, 10, 78, 120, 32, 32, 32, 32, 32, 32, 32, 32, 32, 32, 52, 10, 78, 121, 32, 32, 32, 32, 32, 32, 32, 32, 32, 32,
    52, 10, 10, 35, 32, 115, 104, 105, 102, 116, 32, 111, 102, 32, 120, 45, 99, 111, 111, 114, 100, 105, 110, 97, 116, 101, 32, 119, 104, 101, 110, 32,
    119, 114, 97, 112, 112, 105, 110, 103, 32, 97, 114, 111, 117, 110, 100, 32, 105, 110, 32, 121, 45, 100, 105, 114, 101, 99, 116, 105, 111, 110, 44, 32,
    109, 117, 115, 116, 32, 98, 101, 32, 78, 121, 47, 50, 32, 102, 111, 114, 32, 116, 114, 105, 97, 110, 103, 117, 108, 97, 114, 32, 108, 97, 116, 116,
    105, 99, 101, 115, 10, 112, 98, 99, 95, 115, 104, 105, 102, 116, 32, 32, 32, 50, 10, 10, 35, 32, 110, 101, 97, 114, 101, 115, 116, 32, 110, 101,
    105, 103, 104, 98, 111, 114, 32, 104, 111, 112, 112, 105, 110, 103, 32, 112, 97, 114, 97, 109, 101, 116, 101, 114, 115, 32, 102, 111, 114, 32, 97, 32,
    75, 97, 103, 111, 109, 101, 32, 108, 97, 116, 116, 105, 99, 101, 10, 35, 32, 112, 97, 105, 114, 119, 105, 115, 101, 32, 104, 111, 112, 112, 105, 110,
    103, 32, 98, 101, 116, 119, 101, 101, 110, 32, 111, 114, 98, 105, 116, 97, 108, 115, 32, 119, 105, 116, 104, 105, 110, 32, 97, 32, 117, 110, 105, 116,
    32, 99, 101, 108, 108, 10, 116, 95, 97, 97, 32, 32, 32, 32, 32, 32, 32, 32, 49, 44, 48, 44, 32, 49, 46, 48, 10, 116, 95, 97, 97, 32,
    32, 32, 32, 32, 32, 32, 32, 50, 44, 48, 44, 32, 49, 46, 48, 10, 116, 95, 97, 97, 32, 32, 32, 32, 32, 32, 32, 32, 49, 44, 50, 44,
    32, 49, 46, 48, 10, 35, 32, 104, 111, 112, 112, 105, 110, 103, 32, 98, 101, 116, 119, 101, 101, 110, 32, 117, 110, 105, 116, 32, 99, 101, 108, 108,
    115, 10, 116, 95, 97, 99, 32, 32, 32, 32, 32, 32, 32, 32, 49, 44, 48, 44, 32, 49, 46, 48, 10, 116, 95, 98, 99, 32, 32, 32, 32, 32,
    32, 32, 32, 50, 44, 48, 44, 32, 49, 46, 48, 10, 116, 95, 97, 98, 32, 32, 32, 32, 32, 32, 32, 32, 49, 44, 50, 44, 32, 49, 46, 48,
    10, 10, 35, 32, 72, 117, 98, 98, 97, 114, 100, 32, 85, 32, 112, 97, 114, 97, 109, 101, 116, 101, 114, 10, 85, 32, 32, 32, 32, 32, 32, 32,
    32, 32, 32, 32, 52, 46, 48, 44, 32, 52, 46, 48, 44, 32, 52, 46, 48, 10, 10, 35, 32, 99, 104, 101, 109, 105, 99, 97, 108, 32, 112, 111,
    116, 101, 110, 116, 105, 97, 108, 10, 109, 117, 32, 32, 32, 32, 32, 32, 32, 32, 32, 32, 48, 46, 48, 10, 10, 100, 116, 32, 32, 32, 32, 32,
    32, 32, 32, 32, 32, 48, 46, 49, 10, 76, 32, 32, 32, 32, 32, 32, 32, 32, 32, 32, 32, 52, 48, 10, 112, 114, 111, 100, 66, 108, 101, 110,
    32, 32, 32, 32, 53, 10, 110, 119, 114, 97, 112, 115, 32, 32, 32, 32, 32, 32, 49, 48, 10, 110, 101, 113, 117, 105, 108, 32, 32, 32, 32, 32,
    32, 53, 49, 50, 10, 110, 115, 97, 109, 112, 108, 32, 32, 32, 32, 32, 32, 49, 48, 50, 52, 10, 110, 101, 113, 108, 116, 32, 32, 32, 32, 32,
    32, 32, 49, 48, 10, 110, 117, 110, 101, 113, 108, 116, 32, 32, 32, 32, 32, 48, 10]

theorem kagome_eq : kagome = kagomeBytes := by decide +kernel

/-- the bytes of `band1Phonons` -/
def band1PhononsBytes : List UInt8 :=
  [78, 111, 114, 98, 32, 32, 32, 32, 32, 32, 32, 32, 49, 10, 78, 120, 32, 32, 32, 32, 32, 32, 32, 32, 32, 32, 54, 10, 78, 121, 32, 32,
    32, 32, 32, 32, 32, 32, 32, 32, 54, 10, 116, 95, 97, 98, 32, 32, 32, 32, 32, 32, 32, 32, 48, 44, 48, 44, 49, 46, 48, 10, 116, 95,
    97, 99, 32, 32, 32, 32, 32, 32, 32, 32, 48, 44, 48, 44, 49, 46, 48, 10, 35, 32, 117, 110, 99, 111, 109, 109, 101, 110, 116, 32, 102, 111,
    114, 32, 110, 101, 120, 116, 45, 110, 101, 97, 114, 101, 115, 116, 32, 110, 101, 105, 103, 104, 98, 111, 114, 32, 104, 111, 112, 112, 105, 110, 103, 10,
    35, 32, 116, 95, 97, 100, 32, 32, 32, 32, 32, 32, 32, 32, 48, 44, 48, 44, 45, 48, 46, 51, 10, 35, 32, 116, 95, 98, 99, 32, 32, 32,
    32, 32, 32, 32, 32, 48, 44, 48, 44, 45, 48, 46, 51, 10, 85, 32, 32, 32, 32, 32, 32, 32, 32, 32, 32, 32, 52, 10, 101, 112, 115, 32,
    32, 32, 32, 32, 32, 32, 32, 32, 48, 10, 109, 117, 32, 32, 32, 32, 32, 32, 32, 32, 32, 32, 48, 10, 100, 116, 32, 32, 32, 32, 32, 32,
    32, 32, 32, 32, 48, 46, 48, 53, 10, 76, 32, 32, 32, 32, 32, 32, 32, 32, 32, 32, 32, 52, 48, 10, 112, 114, 111, 100, 66, 108, 101, 110,
    32, 32, 32, 32, 56, 10, 110, 119, 114, 97, 112, 115, 32, 32, 32, 32, 32, 32, 56, 10, 110, 101, 113, 117, 105, 108, 32, 32, 32, 32, 32, 32,
    53, 49, 50, 10, 110, 115, 97, 109, 112, 108, 32, 32, 32, 32, 32, 32, 53, 49, 50, 10, 110, 101, 113, 108, 116, 32, 32, 32, 32, 32, 32, 32,
    56, 10, 110, 117, 110, 101, 113, 108, 116, 32, 32, 32, 32, 32, 48, 10, 10, 35, 32, 117, 110, 99, 111, 109, 109, 101, 110, 116, 32, 116, 111, 32,
    101, 110, 97, 98, 108, 101, 32, 112, 104, 111, 110, 111, 110, 115, 10, 117, 115, 101, 95, 112, 104, 111, 110, 111, 110, 115, 32, 32, 32, 32, 32, 32,
    32, 32, 32, 32, 32, 32, 32, 32, 32, 32, 32, 116, 114, 117, 101, 10, 112, 104, 111, 110, 111, 110, 95, 111, 109, 101, 103, 97, 32, 32, 32, 32,
    32, 32, 32, 32, 32, 32, 32, 32, 32, 32, 32, 32, 49, 46, 48, 10, 112, 104, 111, 110, 111, 110, 95, 103, 32, 32, 32, 32, 32, 32, 32, 32,
    32, 32, 32, 32, 32, 32, 32, 32, 32, 32, 32, 32, 50, 46, 48, 10, 112, 104, 111, 110, 111, 110, 95, 108, 111, 99, 97, 108, 95, 98, 111, 120,
    95, 119, 105, 100, 116, 104, 32, 32, 32, 32, 32, 32, 50, 46, 48, 10, 112, 104, 111, 110, 111, 110, 95, 110, 95, 108, 111, 99, 97, 108, 95, 117,
    112, 100, 97, 116, 101, 115, 32, 32, 32, 32, 32, 32, 54, 52, 10, 112, 104, 111, 110, 111, 110, 95, 98, 108, 111, 99, 107, 95, 98, 111, 120, 95,
    119, 105, 100, 116, 104, 32, 32, 32, 32, 32, 32, 52, 46, 48, 10, 112, 104, 111, 110, 111, 110, 95, 110, 95, 98, 108, 111, 99, 107, 95, 117, 112,
    100, 97, 116, 101, 115, 32, 32, 32, 32, 32, 32, 49, 54, 10]

theorem band1Phonons_eq : band1Phonons = band1PhononsBytes := by decide +kernel

/-- the bytes of `band3Phonons` -/
def band3PhononsBytes : List UInt8 :=
  [35, 32, 110, 117, 109, 98, 101, 114, 32, 111, 102, 32, 111, 114, 98, 105, 116, 97, 108, 115, 32, 112, 101, 114, 32, 117, 110, 105, 116, 32, 99, 101,
    108, 108, 10, 78, 111, 114, 98, 32, 32, 32, 32, 32, 32, 32, 32, 51, 10, 10, 35, 32, 108, 97, 116, 116, 105, 99, 101, 32, 100, 105, 109, 101,
    110, 115, 105, 111, 110, 10, 78, 120, 32, 32, 32, 32, 32, 32, 32, 32, 32, 32, 52, 10, 78, 121, 32, 32, 32, 32, 32, 32, 32, 32, 32, 32,
    52, 10, 10, 35, 32, 104, 111, 112, 112, 105, 110, 103, 32, 112, 97, 114, 97, 109, 101, 116, 101, 114, 115, 10, 35, 32, 116, 112, 100, 32, 61, 32,
    49, 46, 49, 51, 44, 32, 116, 112, 112, 32, 61, 32, 48, 46, 52, 57, 10, 35, 32, 115, 116, 97, 110, 100, 97, 114, 100, 32, 116, 104, 114, 101,
    101, 45, 98, 97, 110, 100, 32, 112, 104, 97, 115, 101, 32, 102, 97, 99, 116, 111, 114, 115, 10, 116, 95, 97, 97, 32, 32, 32, 32, 32, 32, 32,
    32, 48, 44, 49, 44, 32, 32, 49, 46, 49, 51, 10, 116, 95, 97, 97, 32, 32, 32, 32, 32, 32, 32, 32, 48, 44, 50, 44, 32, 45, 49, 46,
    49, 51, 10, 116, 95, 97, 97, 32, 32, 32, 32, 32, 32, 32, 32, 49, 44, 50, 44, 32, 45, 48, 46, 52, 57, 10, 116, 95, 97, 98, 32, 32,
    32, 32, 32, 32, 32, 32, 49, 44, 48, 44, 32, 45, 49, 46, 49, 51, 10, 116, 95, 97, 98, 32, 32, 32, 32, 32, 32, 32, 32, 49, 44, 50,
    44, 32, 32, 48, 46, 52, 57, 10, 116, 95, 97, 99, 32, 32, 32, 32, 32, 32, 32, 32, 50, 44, 48, 44, 32, 32, 49, 46, 49, 51, 10, 116,
    95, 97, 99, 32, 32, 32, 32, 32, 32, 32, 32, 50, 44, 49, 44, 32, 32, 48, 46, 52, 57, 10, 116, 95, 98, 99, 32, 32, 32, 32, 32, 32,
    32, 32, 50, 44, 49, 44, 32, 45, 48, 46, 52, 57, 10, 10, 35, 32, 72, 117, 98, 98, 97, 114, 100, 32, 85, 32, 112, 97, 114, 97, 109, 101,
    116, 101, 114, 44, 32, 85, 100, 100, 32, 61, 32, 56, 46, 53, 44, 32, 85, 112, 112, 32, 61, 32, 52, 46, 49, 10, 85, 32, 32, 32, 32, 32,
    32, 32, 32, 32, 32, 32, 56, 46, 53, 44, 32, 52, 46, 49, 44, 32, 52, 46, 49, 10, 10, 35, 32, 115, 105, 116, 101, 32, 101, 110, 101, 114,
    103, 105, 101, 115, 10, 35, 32, 52, 46, 50, 53, 32, 61, 32, 48, 46, 48, 48, 32, 43, 32, 56, 46, 53, 47, 50, 10, 35, 32, 53, 46, 50,
    57, 32, 61, 32, 51, 46, 50, 52, 32, 43, 32, 52, 46, 49, 47, 50, 10, 101, 112, 115, 32, 32, 32, 32, 32, 32, 32, 32, 32, 52, 46, 50,
    53, 44, 32, 53, 46, 50, 57, 44, 32, 53, 46, 50, 57, 10, 10, 35, 32, 117, 110, 99, 111, 109, 109, 101, 110, 116, 32, 116, 111, 32, 101, 110,
    97, 98, 108, 101, 32, 112, 104, 111, 110, 111, 110, 115, 10, 117, 115, 101, 95, 112, 104, 111, 110, 111, 110, 115, 32, 32, 32, 32, 32, 32, 32, 32,
    32, 32, 32, 32, 32, 32, 32, 32, 32, 116, 114, 117, 101, 10, 112, 104, 111, 110, 111, 110, 95, 111, 109, 101, 103, 97, 32, 32, 32, 32, 32, 32,
    32, 32, 32, 32, 32, 32, 32, 32, 32, 32, 48, 46, 48, 44, 32, 49, 46, 48, 44, 32, 49, 46, 48, 10, 112, 104, 111, 110, 111, 110, 95, 103,
    32, 32, 32, 32, 32, 32, 32, 32, 32, 32, 32, 32, 32, 32, 32, 32, 32, 32, 32, 32, 48, 46, 48, 44, 32, 50, 46, 48, 44, 32, 50, 46,
    48, 10, 112, 104, 111, 110, 111, 110, 95, 108, 111, 99, 97, 108, 95, 98, 111, 120, 95, 119, 105, 100, 116, 104, 32, 32, 32, 32, 32, 32, 49, 46,
    48, 10, 112, 104, 111, 110, 111, 110, 95, 110, 95, 108, 111, 99, 97, 108, 95, 117, 112, 100, 97, 116, 101, 115, 32, 32, 32, 32, 32, 32, 51, 50,
    10, 112, 104, 111, 110, 111, 110, 95, 98, 108, 111, 99, 107, 95, 98, 111, 120, 95, 119, 105, 100, 116, 104, 32, 32, 32, 32, 32, 32, 56, 46, 48,
    10, 112, 104, 111, 110, 111, 110, 95, 110, 95, 98, 108, 111, 99, 107, 95, 117, 112, 100, 97, 116, 101, 115, 32, 32, 32, 32, 32, 32, 56, 10, 10,
    35, 32, 99, 104, 101, 109, 105, 99, 97, 108, 32, 112, 111, 116, 101, 110, 116, 105, 97, 108, 10, 109, 117, 32, 32, 32, 32, 32, 32, 32, 32, 32,
    32, 45, 48, 46, 51, 53, 10, 10, 100, 116, 32, 32, 32, 32, 32, 32, 32, 32, 32, 32, 48, 46, 49, 50, 53, 10, 76, 32, 32, 32, 32, 32,
    32, 32, 32, 32, 32, 32, 54, 52, 10, 112, 114, 111, 100, 66, 108, 101, 110, 32, 32, 32, 32, 56, 10, 110, 119, 114, 97, 112, 115, 32, 32, 32,
    32, 32, 32, 56, 10, 110, 101, 113, 117, 105, 108, 32, 32, 32, 32, 32, 32, 53, 49, 50, 10, 110, 115, 97, 109, 112, 108, 32, 32, 32, 32, 32,
    32, 53, 49, 50, 10, 110, 101, 113, 108, 116, 32, 32, 32, 32, 32, 32, 32, 56, 10, 110, 117, 110, 101, 113, 108, 116, 32, 32, 32, 32, 32, 48,
    10]

theorem band3Phonons_eq : band3Phonons = band3PhononsBytes := by decide +kernel

theorem band1_match : band1.length ≤ 1022 ∧ sheet1.Matches fun n => valuesIn (ascii n) band1 := by
  rw [band1_eq]
  refine ⟨by decide +kernel, ?_⟩
  constructor <;> decide +kernel

theorem band3_match : band3.length ≤ 1022 ∧ sheet3.Matches fun n => valuesIn (ascii n) band3 := by
  rw [band3_eq]
  refine ⟨by decide +kernel, ?_⟩
  constructor <;> decide +kernel

theorem hexagonal_match : hexagonal.length ≤ 1022 ∧ sheetHex.Matches fun n => valuesIn (ascii n) hexagonal := by
  rw [hexagonal_eq]
  refine ⟨by decide +kernel, ?_⟩
  constructor <;> decide +kernel

theorem kagome_match : kagome.length ≤ 1022 ∧ sheetKagome.Matches fun n => valuesIn (ascii n) kagome := by
  rw [kagome_eq]
  refine ⟨by decide +kernel, ?_⟩
  constructor <;> decide +kernel

theorem band1Phonons_match : band1Phonons.length ≤ 1022 ∧ sheet1Phonons.Matches fun n => valuesIn (ascii n) band1Phonons := by
  rw [band1Phonons_eq]
  refine ⟨by decide +kernel, ?_⟩
  constructor <;> decide +kernel

theorem band3Phonons_match : band3Phonons.length ≤ 1022 ∧ sheet3Phonons.Matches fun n => valuesIn (ascii n) band3Phonons := by
  rw [band3Phonons_eq]
  refine ⟨by decide +kernel, ?_⟩
  constructor <;> decide +kernel

theorem samples_match : ∀ x ∈ sampleFiles, x.1.length ≤ 1022 ∧ x.2.Matches fun n => valuesIn (ascii n) x.1 := by
  intro x hx
  simp only [sampleFiles, List.mem_cons, List.not_mem_nil, or_false] at hx
  rcases hx with rfl | rfl | rfl | rfl | rfl | rfl
  · exact band1_match
  · exact band3_match
  · exact hexagonal_match
  · exact kagome_match
  · exact band1Phonons_match
  · exact band3Phonons_match

theorem samples_good : ∀ x ∈ sampleFiles, x.2.Good := by
  intro x hx
  simp only [sampleFiles, List.mem_cons, List.not_mem_nil, or_false] at hx
  rcases hx with rfl | rfl | rfl | rfl | rfl | rfl
  all_goals
    constructor <;> decide +kernel

end Verif.Params
