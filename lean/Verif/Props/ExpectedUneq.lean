import Verif.Props.Expected

/-! # Property C74: unequal time measurements -/

set_option autoImplicit false

namespace Verif.MonteCarlo

open Matrix MeasureTheory Verif.Lapack Verif.TimeFlow Verif.Fock Verif.Greens Verif.GreensUneq Verif.Measurement
open Verif.Main Verif.Progress Verif.Lattice

variable {σ : Type} {N : ℕ}

/-! ## Specification -/

/-- expectation value of `X` at time `l` and `Y` at time 0 in the state `H ^ L / Tr H ^ L` -/
noncomputable def thermalPair (H : Op (Mode N)) (L l : ℕ) (X Y : Op (Mode N)) : ℝ :=
  (H ^ (L - l) * X * H ^ l * Y).trace / (H ^ L).trace

/-- expectation values which belong to the entries for two sites; `T l X Y` stands for `⟨X(l) Y(0)⟩` -/
noncomputable def uvalue (T : ℕ → Op (Mode N) → Op (Mode N) → ℝ) (l : ℕ) (a b : Fin N) : UneqF → ℝ
  | .geqltU => T l (ann (a, true) * cre (b, true)) 1
  | .geqltD => T l (ann (a, false) * cre (b, false)) 1
  | .gtau0U => T l (ann (a, true)) (cre (b, true))
  | .gtau0D => T l (ann (a, false)) (cre (b, false))
  | .g0tauU => if l = 0 then T 0 (ann (a, true)) (cre (b, true)) else -T l (cre (b, true)) (ann (a, true))
  | .g0tauD => if l = 0 then T 0 (ann (a, false)) (cre (b, false)) else -T l (cre (b, false)) (ann (a, false))
  | .nn => T l (opOf (nOp true a ++ nOp false a)) (opOf (nOp true b ++ nOp false b))
  | .zz => T l (opOf (zOp a)) (opOf (zOp b))
  | .xx => T l (opOf (xOp a)) (opOf (xOp b))
  | _ => 0

/-- expectation values which belong to the entries for two cells -/
noncomputable def upairValue [NeZero N] (Nx Ny : ℕ) (t : ℤ) (T : ℕ → Op (Mode N) → Op (Mode N) → ℝ) (l o c c' : ℕ) :
    UneqF → ℝ
  | .scSw => T l (pairOf (onsitePair Nx Ny o c)) (pairOf (onsitePair Nx Ny o c'))ᵀ
  | .scDw => T l (pairOf (pairOp Nx Ny t dWave o c)) (pairOf (pairOp Nx Ny t dWave o c'))ᵀ
  | .scSx => T l (pairOf (pairOp Nx Ny t extS o c)) (pairOf (pairOp Nx Ny t extS o c'))ᵀ
  | .jx => -T l (opOf (currentOp Nx Ny t 1 0 o c)) (opOf (currentOp Nx Ny t 1 0 o c'))
  | .jy => -T l (opOf (currentOp Nx Ny t 0 1 o c)) (opOf (currentOp Nx Ny t 0 1 o c'))
  | .b1g => T l (opOf (ramanOp Nx Ny t dWave o c)) (opOf (ramanOp Nx Ny t dWave o c'))
  | .b2g => T l (opOf (ramanOp Nx Ny t b2gForm o c)) (opOf (ramanOp Nx Ny t b2gForm o c'))
  | _ => 0

/-- the entries of the arrays `e` of the unequal time measurements are the averages over the cells of expectation
values -/
structure UneqThermal [NeZero N] (Nx Ny Norb L : ℕ) (s t : ℤ) (b1 : Prop) (T : ℕ → Op (Mode N) → Op (Mode N) → ℝ)
    (e : UneqF → ℤ → ℝ) : Prop where
  corr : ∀ f ∈ [UneqF.geqltU, .geqltD, .gtau0U, .gtau0D, .g0tauU, .g0tauD, .nn, .zz, .xx],
    ∀ l o p : ℕ, l < L → o < Norb → p < Norb → ∀ dx dy : ℤ,
    e f (cellOf Nx Ny s dx dy + (Nx * Ny : ℕ) * (o + Norb * p + Norb * Norb * l))
      = cellAvg (Nx * Ny) fun c => uvalue T l (siteN N (Nx * Ny) o c)
        (siteN N (Nx * Ny) p (moveCell Nx Ny s c dx dy)) f
  pair : ∀ f ∈ [UneqF.scSw, .scDw, .scSx, .jx, .jy, .b1g, .b2g], (f = .b1g → b1) →
    ∀ l o : ℕ, l < L → o < Norb → ∀ dx dy : ℤ,
    e f (cellOf Nx Ny s dx dy + (Nx * Ny : ℕ) * (o + Norb * l))
      = cellAvg (Nx * Ny) fun c => upairValue Nx Ny t T l o c (moveCell Nx Ny s c dx dy) f

/-- number of unequal time measurements from iteration `it` on -/
def uneqCount (cfg : Cfg) (stop : ℤ → Bool) (it : ℤ) : ℕ :=
  ((Finset.range (iterations stop (cfg.nequil + cfg.nsampl - it).toNat it)).filter fun j : ℕ =>
    it + j ≥ cfg.nequil ∧ cfg.nuneqlt > 0 ∧ (it + j).tmod cfg.nuneqlt = 0).card

/-! ## Proofs -/

theorem gain_uneq {M : Type} {sys : Sys σ N M} {cfg : Cfg} {qu : Field cfg.L N → ℝ} (stop : ℤ → Bool) (it : ℤ) :
    ∑ j ∈ Finset.range (iterations stop (cfg.nequil + cfg.nsampl - it).toNat it), iterGain sys cfg (fun _ _ => 0) qu (it + j)
      = uneqCount cfg stop it * wsum sys cfg.L qu := by
  unfold uneqCount
  rw [Finset.card_filter, Nat.cast_sum, Finset.sum_mul]
  refine Finset.sum_congr rfl fun j _ => ?_
  unfold iterGain
  have h0 : wsum sys cfg.L (fun _ => 0) = 0 := by unfold wsum; simp
  have h1 : ∀ n l, sliceGain sys cfg.L n (fun _ _ => 0) l = 0 := fun n l => by
    unfold sliceGain; rw [h0, ite_self]
  simp only [h1, Finset.sum_const_zero, zero_add]
  split
  · rw [Nat.cast_one, one_mul]
  · rw [Nat.cast_zero, zero_mul]

theorem cube_congr {L : ℕ} {A B : ℕ → Mat N} (h : ∀ l < L, A l = B l) : cube L A = cube L B := by
  funext l a b
  unfold cube
  split
  · rename_i hc
    rw [h _ (by omega)]
  · rfl

theorem exactG_cur {L : ℕ} {B B' : ℕ → Mat N} (h : ∀ l < L, B l = B' l) : (exactG B L).cur L = (exactG B' L).cur L := by
  have h0 : ∀ i ≤ L, prodSeq B i = prodSeq B' i := fun i hi => prodSeq_congr fun k hk => h k (by omega)
  have h1 : ∀ i ≤ L, prodSeq (fun l => B (i + l)) (L - i) = prodSeq (fun l => B' (i + l)) (L - i) :=
    fun i hi => prodSeq_congr fun k hk => h (i + k) (by omega)
  unfold TimeG.cur Cur.ofMats
  rw [cube_congr (A := (exactG B L).t0) (B := (exactG B' L).t0), cube_congr (A := (exactG B L).zt) (B := (exactG B' L).zt),
    cube_congr (A := (exactG B L).eq) (B := (exactG B' L).eq)]
  · intro l hl
    simp only [exactG]
    rw [h0 l hl.le, h1 l hl.le]
  · intro l hl
    simp only [exactG]
    rw [h0 L le_rfl, h1 l hl.le]
  · intro l hl
    simp only [exactG]
    rw [h0 l hl.le, h0 L le_rfl]

section run

variable [NeZero N] {sys : Sys σ N MeasData} {L len : ℕ}
  {Nx Ny Norb : ℕ} {shift : ℤ} {junk : ℤ → ℤ} {dt : ℝ} {omega : ℕ → ℝ}
  {alg : BlockCyclic.QRs N} {tau : BlockCyclic.Buf} {old : GreensUneq.Arrays}

/-- the time dependent Green's functions of a field -/
noncomputable def timeGreen {M : Type} (sys : Sys σ N M) (L : ℕ) (expV : Fin 2 → ℕ → ℝ) (s : ℕ → Fin N → Fin 2) : TimeG N :=
  exactG (sys.fieldB expV s fun _ _ => 1) L

theorem compute_exact {M : Type} {sys : Sys σ N M} {expV : Fin 2 → ℕ → ℝ} {s : ℕ → Fin N → Fin 2} {tsm : TSM N}
    {G : GreensFn N} (hi : SpinInv (sys.fieldB expV s fun _ _ => 1) L len 0 tsm G) {A : GreensUneq.Arrays}
    (h : compute alg tsm L tau old = some A) :
    A.toCur N L = (timeGreen sys L expV (Fock.extend (fieldOf L s))).cur L := by
  have e : tsm.L = L := hi.td.hL
  have hf : TimeFlow.Fresh tsm := fun k hk => hi.fresh k hk (by
    rintro ⟨-, h0⟩
    exact h0 (Nat.zero_mod _))
  have hnum : 2 ≤ tsm.numBprod := by
    by_contra hc
    have hnum := hi.td.dims.num
    have h1 : tsm.numBprod = 1 := by omega
    rw [compute_one alg (Nat.pos_of_ne_zero (NeZero.ne N)) _ h1] at h
    cases h
  have hdet : (1 + TimeFlow.cyclicProd tsm.B tsm.L 0).det ≠ 0 := by
    have : TimeFlow.cyclicProd tsm.B tsm.L 0 = TimeFlow.cyclicProd (sys.fieldB expV s fun _ _ => 1) L 0 := by
      rw [hi.td.hL]
      exact TimeFlow.prodSeq_congr fun k hk => (hi.mats _ (Nat.mod_lt _ (by omega))).1
    rw [this]
    exact hi.good.det_ne
  obtain ⟨A', a1, a2⟩ := GreensUneq.compute_toCur alg tsm hi.td.dims hf hnum
    (fun l hl => (hi.mats l (hi.td.hL ▸ hl)).2) hdet tau old
  rw [e] at a1 a2
  obtain rfl := Option.some.inj (a1.symm.trans h)
  rw [a2]
  refine exactG_cur fun l hl => ?_
  rw [(hi.mats l hl).1]
  unfold Sys.fieldB
  rw [extend_fieldOf s l hl]

theorem uneq_adds (hx : 0 < Nx) (hy : 0 < Ny) (hN : N = Nx * Ny * Norb) (hs : 0 ≤ shift)
    (hm : sys.meas = realMeas Norb (Nx * Ny) L (Maps.construct Nx Ny shift junk) dt omega alg tau old) :
    Adds sys L len (fun m => m.uneq.sign) (fun _ _ => 0) (fun x => sgnOf sys L x * 1) ∧
    ∀ (f : UneqF) (z : ℤ) (V : TimeG N → TimeG N → ℝ),
      (∀ u d e, UneqEstimates Nx Ny Norb L shift 0 (Nx = 1 ↔ Ny = 1) u d e → e f z = V u d) →
      Adds sys L len (fun m => m.uneq.arr f z) (fun _ _ => 0) (fun x => sgnOf sys L x *
        V (timeGreen sys L sys.hs.expVu (Fock.extend x)) (timeGreen sys L sys.hs.expVd (Fock.extend x))) := by
  have heq : ∀ Gu Gd (m m' : MeasData), sys.meas.eq Gu Gd m = some m' → m'.uneq = m.uneq := by
    intro Gu Gd m m' e
    rw [hm] at e
    simp only [realMeas, Option.map_eq_some_iff] at e
    obtain ⟨d, -, rfl⟩ := e
    rfl
  have hun : ∀ (st : State σ N MeasData) (m' : MeasData), Inv sys (fun _ _ => 1) L len 0 st →
      sys.meas.uneq (st.Gu.sgndet * st.Gd.sgndet) st.tsmU st.tsmD st.meas = some m' →
      ∃ e, UneqEstimates Nx Ny Norb L shift 0 (Nx = 1 ↔ Ny = 1)
        (timeGreen sys L sys.hs.expVu (Fock.extend (fieldOf L st.s)))
        (timeGreen sys L sys.hs.expVd (Fock.extend (fieldOf L st.s))) e ∧
      m'.uneq.sign = st.meas.uneq.sign + sgnOf sys L (fieldOf L st.s) ∧
      ∀ f z, m'.uneq.arr f z = st.meas.uneq.arr f z + sgnOf sys L (fieldOf L st.s) * e f z := by
    intro st m' hi e
    rw [hm] at e
    simp only [realMeas, Option.bind_eq_bind] at e
    obtain ⟨a, ea, e⟩ := Option.bind_eq_some_iff.1 e
    obtain ⟨b, eb, e⟩ := Option.bind_eq_some_iff.1 e
    obtain ⟨c, ec, e⟩ := Option.bind_eq_some_iff.1 e
    obtain rfl := Option.some.inj e
    have hsg : (((st.Gu.sgndet * st.Gd.sgndet : ℤ) : ℝ)) = 1 ∨ (((st.Gu.sgndet * st.Gd.sgndet : ℤ) : ℝ)) = -1 := by
      rcases hi.up.good.sgn with h | h <;> rcases hi.down.good.sgn with h' | h' <;> simp [h, h']
    obtain ⟨est, h1, h2⟩ := accumulateUneq_estimates hx hy hN shift hs junk L
      (timeGreen sys L sys.hs.expVu (Fock.extend (fieldOf L st.s)))
      (timeGreen sys L sys.hs.expVd (Fock.extend (fieldOf L st.s))) (exactG_start _ _) (exactG_start _ _) _ hsg
    rw [compute_exact hi.up ea, compute_exact hi.down eb, h2] at ec
    obtain rfl := Option.some.inj ec
    have := exact_sign (Nat.zero_le L) ⟨hi.up.good, hi.down.good⟩
    rw [this]
    exact ⟨est, h1, rfl, fun f z => rfl⟩
  refine ⟨⟨fun s l Gu Gd m m' _ _ e => ?_, fun st m' hi e => ?_⟩, fun f z V hV =>
    ⟨fun s l Gu Gd m m' _ _ e => ?_, fun st m' hi e => ?_⟩⟩
  · simp only [heq _ _ _ _ e, add_zero]
  · obtain ⟨est, -, h2, -⟩ := hun st m' hi e
    rw [mul_one]
    exact h2
  · simp only [heq _ _ _ _ e, add_zero]
  · obtain ⟨est, h1, -, h3⟩ := hun st m' hi e
    rw [← hV _ _ _ h1]
    exact h3 f z

end run

section thermal

variable {M : Type} {sys : Sys σ N M} {L l : ℕ} {Norb : ℕ} {K : Mat N} {U : ℕ → ℝ} {dt : ℝ}

theorem uneq_means (h : Describes sys Norb K U dt) (hl : l ≤ L)
    (hne : ∀ x : Field L N, signed sys L (Fock.extend x) (fun _ _ => 1) ≠ 0) :
    let T := thermalPair (stepOf sys K U dt) L l
    let P := fun s : ℕ → Fin N → Fin 2 => unequalTime (timeGreen sys L sys.hs.expVu s) (timeGreen sys L sys.hs.expVd s) l
    (∀ X Y : OneBody N, T (opOf X) (opOf Y) = signedAverage sys L (fun _ _ => 1) fun s => (P s).corr X Y) ∧
    (∀ X : OneBody N, T (opOf X) 1 = signedAverage sys L (fun _ _ => 1) fun s => (P s).mean X) ∧
    (∀ X Y : PairOp N, T (pairOf X) (pairOf Y)ᵀ = signedAverage sys L (fun _ _ => 1) fun s => (P s).pairCorr X Y) ∧
    (∀ a b, T (ann a) (cre b) = signedAverage sys L (fun _ _ => 1) fun s => (P s).greater a b) ∧
    (∀ a b, T (cre a) (ann b) = signedAverage sys L (fun _ _ => 1) fun s => (P s).lesser a b) := by
  have hne' : ∀ s : Fin L → Fin N → Fin 2, signed sys L (Fock.extend s) (fun _ _ => Real.exp (-dt * 0)) ≠ 0 := by
    intro s
    simp only [mul_zero, Real.exp_zero]
    exact hne s
  have h1 := thermal_averages h (fun _ _ => 0) hl hne'
  have h2 := fun X Y => thermal_eq h (fun _ _ => 0) hl hne' X Y
  have est : ∀ s : Fin L → Fin N → Fin 2, _ := fun s => unequalTime_is_trace
    (sys.fieldB sys.hs.expVu (Fock.extend s) fun _ _ => 1) (sys.fieldB sys.hs.expVd (Fock.extend s) fun _ _ => 1) L
    (by rw [← flow_eq]; exact left_ne_zero_of_mul (hne s))
    (by rw [← flow_eq]; exact right_ne_zero_of_mul (hne s)) l hl
  simp only [mul_zero, Real.exp_zero] at h1 h2
  have e2 : ∀ X Y : Op (Mode N), thermal (fun _ => stepOf sys K U dt) L l X Y
      = thermalPair (stepOf sys K U dt) L l X Y := by
    intro X Y
    unfold thermal thermalPair
    rw [oprod_const, oprod_const, oprod_const]
  have e : (fun _ : ℕ => stepOp K (fun i => U (sys.orb i)) dt fun _ => 0) = fun _ => stepOf sys K U dt := rfl
  rw [e] at h1
  simp only [e, e2] at h1 h2
  refine ⟨h1.1, h1.2.1, h1.2.2, fun a b => h2 _ _ _ fun s => ?_, fun a b => h2 _ _ _ fun s => ?_⟩
  · show (unequalTime _ _ l).greater a b = _
    unfold timeGreen
    rw [est s]
    rfl
  · show (unequalTime _ _ l).lesser a b = _
    unfold timeGreen
    rw [est s]
    rfl

theorem average_neg (hne : ∀ x : Field L N, signed sys L (Fock.extend x) (fun _ _ => 1) ≠ 0)
    (O : (ℕ → Fin N → Fin 2) → ℝ) : signedAverage sys L (fun _ _ => 1) (fun s => -O s)
      = -signedAverage sys L (fun _ _ => 1) O := by
  have := average_smul hne (-1) O
  simpa only [neg_one_mul] using this

/-- the Green's function at time `l` -/
theorem green_at (h : Describes sys Norb K U dt) (hK : K.IsSymm) (hl : l ≤ L)
    (hne : ∀ x : Field L N, signed sys L (Fock.extend x) (fun _ _ => 1) ≠ 0) (a b : Fin N) (sp : Bool) :
    signedAverage sys L (fun _ _ => 1) (fun s => spinG ((timeGreen sys L sys.hs.expVu s).eq l)
      ((timeGreen sys L sys.hs.expVd s).eq l) (a, sp) (b, sp))
      = thermalPair (stepOf sys K U dt) L l (ann (a, sp) * cre (b, sp)) 1 := by
  have e2 : ∀ X : Op (Mode N), thermalPair (stepOf sys K U dt) L l X 1 = thermalMean (stepOf sys K U dt) L X := by
    intro X
    unfold thermalPair thermalMean
    rw [mul_one, Matrix.trace_mul_comm, ← mul_assoc, ← pow_add, Nat.add_sub_cancel' hl]
  rw [e2, ← green_mean h hK hl hne a b sp]
  have e : ∀ (expV : Fin 2 → ℕ → ℝ) (s : ℕ → Fin N → Fin 2), (timeGreen sys L expV s).eq l = greenAt sys L l expV s := by
    intro expV s
    unfold timeGreen greenAt exactG
    simp only
    rw [cyclic_seg _ hl, seg_zero]
    rfl
  simp only [e]

theorem ucorr_mean (h : Describes sys Norb K U dt) (hK : K.IsSymm) (hl : l ≤ L)
    (hne : ∀ x : Field L N, signed sys L (Fock.extend x) (fun _ _ => 1) ≠ 0) (a b : Fin N) (f : UneqF)
    (hf : f ∈ [UneqF.geqltU, .geqltD, .gtau0U, .gtau0D, .g0tauU, .g0tauD, .nn, .zz, .xx]) :
    signedAverage sys L (fun _ _ => 1) (fun s => ucorrSpec (timeGreen sys L sys.hs.expVu s)
      (timeGreen sys L sys.hs.expVd s) l a b f) = uvalue (thermalPair (stepOf sys K U dt) L) l a b f := by
  obtain ⟨h1, -, -, h4, h5⟩ := uneq_means h hl hne
  have hst : ∀ (expV : Fin 2 → ℕ → ℝ) (s : ℕ → Fin N → Fin 2),
      (timeGreen sys L expV s).zt 0 = (timeGreen sys L expV s).t0 0 := fun expV s =>
    (exactG_start _ L).zt.trans (exactG_start _ L).t0.symm
  fin_cases hf
  · exact green_at h hK hl hne a b true
  · exact green_at h hK hl hne a b false
  · exact (h4 (a, true) (b, true)).symm
  · exact (h4 (a, false) (b, false)).symm
  · show _ = if l = 0 then _ else _
    split
    · rename_i h0
      subst h0
      rw [h4 (a, true) (b, true)]
      congr 1
      funext s
      show (timeGreen sys L sys.hs.expVu s).zt 0 a b = (timeGreen sys L sys.hs.expVu s).t0 0 a b
      rw [hst]
    · rename_i h0
      rw [h5 (b, true) (a, true), ← average_neg hne]
      congr 1
      funext s
      simp [unequalTime, h0, ucorrSpec, spinG]
  · show _ = if l = 0 then _ else _
    split
    · rename_i h0
      subst h0
      rw [h4 (a, false) (b, false)]
      congr 1
      funext s
      show (timeGreen sys L sys.hs.expVd s).zt 0 a b = (timeGreen sys L sys.hs.expVd s).t0 0 a b
      rw [hst]
    · rename_i h0
      rw [h5 (b, false) (a, false), ← average_neg hne]
      congr 1
      funext s
      simp [unequalTime, h0, ucorrSpec, spinG]
  · exact (h1 _ _).symm
  · exact (h1 _ _).symm
  · exact (h1 _ _).symm

theorem upair_mean [NeZero N] (h : Describes sys Norb K U dt) (hl : l ≤ L)
    (hne : ∀ x : Field L N, signed sys L (Fock.extend x) (fun _ _ => 1) ≠ 0) (Nx Ny : ℕ) (t : ℤ) (o c c' : ℕ) (f : UneqF)
    (hf : f ∈ [UneqF.scSw, .scDw, .scSx, .jx, .jy, .b1g, .b2g]) :
    signedAverage sys L (fun _ _ => 1) (fun s => upairSpec Nx Ny t (unequalTime (timeGreen sys L sys.hs.expVu s)
      (timeGreen sys L sys.hs.expVd s) l) o c c' f)
      = upairValue Nx Ny t (thermalPair (stepOf sys K U dt) L) l o c c' f := by
  obtain ⟨h1, -, h3, -, -⟩ := uneq_means h hl hne
  fin_cases hf
  · exact (h3 _ _).symm
  · exact (h3 _ _).symm
  · exact (h3 _ _).symm
  · exact (average_neg hne _).trans (congrArg Neg.neg (h1 _ _).symm)
  · exact (average_neg hne _).trans (congrArg Neg.neg (h1 _ _).symm)
  · exact (h1 _ _).symm
  · exact (h1 _ _).symm

end thermal

section result

variable [MeasurableSpace σ] {P : Measure σ} [NeZero N] {sys : Sys σ N MeasData} {ph : Phonon} {cfg : Cfg}
  {Nx Ny Norb : ℕ} {shift : ℤ} {junk : ℤ → ℤ} {dt : ℝ} {omega : ℕ → ℝ}
  {alg : BlockCyclic.QRs N} {tau : BlockCyclic.Buf} {old : GreensUneq.Arrays} {K : Mat N} {U : ℕ → ℝ}

/-- C74, unequal times -/
theorem expected_unequal_times (hP : sys.rng.Ideal N P) (hok : sys.Ok cfg.prodBlen) (hL : 0 < cfg.L)
    (hd : cfg.prodBlen ∣ cfg.L) (hp : cfg.usePhonons = false) (hx : 0 < Nx) (hy : 0 < Ny) (hN : N = Nx * Ny * Norb)
    (hs : 0 ≤ shift)
    (hm : sys.meas = realMeas Norb (Nx * Ny) cfg.L (Maps.construct Nx Ny shift junk) dt omega alg tau old)
    (hK : K.IsSymm) (hD : Describes sys Norb K U dt)
    (hw : ∀ x : Field cfg.L N, sys.weight cfg.L (Fock.extend x) (fun _ _ => 1) ≠ 0)
    (stop : ℤ → Bool) (it : ℤ) (hcount : 0 < uneqCount cfg stop it) (X expX : ℕ → Fin N → ℝ)
    (cnt : Counters) (meas : MeasData) (hmeas : meas.uneq = UneqData.allocate)
    (R : Field cfg.L N → σ → LoopResult (State σ N MeasData))
    (hR : ∀ x r, simulate sys ph cfg stop it r (Fock.extend x) X expX cnt meas = some (R x r)) :
    UneqThermal Nx Ny Norb cfg.L shift 0 (Nx = 1 ↔ Ny = 1) (thermalPair (stepOf sys K U dt) cfg.L) fun f z =>
      expected sys cfg.L P (fun x r => (R x r).state.meas.uneq.arr f z) /
        expected sys cfg.L P (fun x r => (R x r).state.meas.uneq.sign) := by
  have hne : ∀ x : Field cfg.L N, signed sys cfg.L (Fock.extend x) (fun _ _ => 1) ≠ 0 := fun x h =>
    hw x (by rw [weight_eq, h, abs_zero])
  have hS := (signedSum_pos (L := cfg.L) hD hK).ne'
  have hc : (uneqCount cfg stop it : ℝ) ≠ 0 := by exact_mod_cast hcount.ne'
  obtain ⟨a1, a2⟩ := uneq_adds (len := cfg.prodBlen) hx hy hN hs hm
  have h1 : expected sys cfg.L P (fun x r => (R x r).state.meas.uneq.sign)
      = uneqCount cfg stop it * signedSum sys cfg.L := by
    have h := simulate_expected hP hok hL hd hp a1 stop it X expX cnt meas R fun x r _ => hR x r
    rw [h, gain_uneq, hmeas, wsum_sgn]
    simp only [mul_one, UneqData.allocate, zero_mul, zero_add]
    rfl
  have h2 : ∀ (f : UneqF) (z : ℤ) (V : TimeG N → TimeG N → ℝ) (T : ℝ),
      (∀ u d e, UneqEstimates Nx Ny Norb cfg.L shift 0 (Nx = 1 ↔ Ny = 1) u d e → e f z = V u d) →
      signedAverage sys cfg.L (fun _ _ => 1) (fun s => V (timeGreen sys cfg.L sys.hs.expVu s)
        (timeGreen sys cfg.L sys.hs.expVd s)) = T →
      expected sys cfg.L P (fun x r => (R x r).state.meas.uneq.arr f z) /
        expected sys cfg.L P (fun x r => (R x r).state.meas.uneq.sign) = T := by
    intro f z V T hV hT
    have h := simulate_expected hP hok hL hd hp (a2 f z V hV) stop it X expX cnt meas R fun x r _ => hR x r
    rw [h, gain_uneq, hmeas, h1, wsum_average hne hS (fun s => V (timeGreen sys cfg.L sys.hs.expVu s)
        (timeGreen sys cfg.L sys.hs.expVd s)), hT]
    simp only [UneqData.allocate, zero_mul, zero_add]
    field_simp
  constructor
  · intro f hf l o p hl ho hp dx dy
    refine h2 f _ (fun u d => cellAvg (Nx * Ny) fun c => ucorrSpec u d l (siteN N (Nx * Ny) o c)
      (siteN N (Nx * Ny) p (moveCell Nx Ny shift c dx dy)) f) _
      (fun u d e he => he.corr f hf l o p hl ho hp dx dy) ?_
    rw [average_cellAvg hne]
    exact congrArg (cellAvg _) (funext fun c => ucorr_mean hD hK hl.le hne _ _ f hf)
  · intro f hf hb l o hl ho dx dy
    refine h2 f _ (fun u d => cellAvg (Nx * Ny) fun c => upairSpec Nx Ny 0 (unequalTime u d l) o c
      (moveCell Nx Ny shift c dx dy) f) _ (fun u d e he => he.pair f hf hb l o hl ho dx dy) ?_
    rw [average_cellAvg hne]
    exact congrArg (cellAvg _) (funext fun c => upair_mean hD hl.le hne _ _ _ _ _ _ f hf)

end result

end Verif.MonteCarlo
