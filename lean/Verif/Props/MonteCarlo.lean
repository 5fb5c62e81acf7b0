import Verif.Lemmas.Sweep
import Verif.Lemmas.LapackExists
import Verif.Props.Stratonovich
import Verif.Props.Random
import Mathlib.MeasureTheory.Measure.Lebesgue.Basic

/-! # Sweeps without phonons: C23, C30, C31, C32, C33 -/

set_option autoImplicit false

namespace Verif.MonteCarlo

open Matrix Verif.Lapack Verif.TimeFlow Verif.Greens Verif.Stratonovich

variable {σ : Type} {N : ℕ} {M : Type}

/-! ## Specification -/

/-- what is needed of a source of random numbers -/
structure Rng.Lawful (rng : Rng σ) (N : ℕ) : Prop where
  uniform_pos : ∀ r, 0 < (rng.uniform r).1
  uniform_le : ∀ r, (rng.uniform r).1 ≤ 1
  perm : ∀ r l r', rng.shuffle N r = some (l, r') → l.Perm (List.finRange N)

/-- specification: matrix of time slice `l` for the field `s` and further factors `E` (1 without
phonons, `exp(-dt g X)` with phonons) -/
noncomputable def Sys.fieldB (sys : Sys σ N M) (expV : Fin 2 → ℕ → ℝ) (s : ℕ → Fin N → Fin 2)
    (E : ℕ → Fin N → ℝ) (l : ℕ) : Mat N :=
  diagonal (fun i => expV (s l i) (sys.orb i) * E l i) * sys.expK

/-- what is needed of the constant data -/
structure Sys.Ok (sys : Sys σ N M) (len : ℕ) : Prop where
  expK : sys.expK * sys.invExpK = 1
  hs : ∀ i : Fin N, Consistent sys.hs (sys.orb i)
  rng : sys.rng.Lawful N
  dvd : len ∣ sys.nwraps

/-- invariant before slice `l`: everything belongs to the current field -/
structure Inv (sys : Sys σ N M) (E : ℕ → Fin N → ℝ) (L len l : ℕ) (st : State σ N M) : Prop where
  up : SpinInv (sys.fieldB sys.hs.expVu st.s E) L len l st.tsmU st.Gu
  down : SpinInv (sys.fieldB sys.hs.expVd st.s E) L len l st.tsmD st.Gd

/-- invariant while the sites of slice `l` are updated -/
structure Mid (sys : Sys σ N M) (E : ℕ → Fin N → ℝ) (L len l : ℕ) (st : State σ N M) : Prop where
  up : SpinMid (sys.fieldB sys.hs.expVu st.s E) L len l st.tsmU st.Gu
  down : SpinMid (sys.fieldB sys.hs.expVd st.s E) L len l st.tsmD st.Gd

/-- `A`: product over all slices -/
noncomputable def Sys.flow (sys : Sys σ N M) (expV : Fin 2 → ℕ → ℝ) (L : ℕ)
    (s : ℕ → Fin N → Fin 2) (E : ℕ → Fin N → ℝ) : Mat N :=
  cyclicProd (sys.fieldB expV s E) L 0

/-- specification: weight of a configuration, `|det(1 + A_u) det(1 + A_d)|` -/
noncomputable def Sys.weight (sys : Sys σ N M) (L : ℕ) (s : ℕ → Fin N → Fin 2)
    (E : ℕ → Fin N → ℝ) : ℝ :=
  |(1 + sys.flow sys.hs.expVu L s E).det * (1 + sys.flow sys.hs.expVd L s E).det|

/-- the field with one entry reversed -/
def flipField (s : ℕ → Fin N → Fin 2) (l : ℕ) (i : Fin N) : ℕ → Fin N → Fin 2 :=
  Function.update s l (Function.update (s l) i (1 - s l i))

/-! ## The generator of random.c is lawful -/

theorem toSite_some {N : ℕ} {z : ℤ} {i : Fin N} (h : toSite N z = some i) : z = (i.val : ℤ) := by
  unfold toSite at h
  split at h
  · rename_i h'
    rw [Option.some.injEq] at h
    subst h
    simp only
    omega
  · cases h

theorem toSite_of {N : ℕ} (v : ℕ) (hv : v < N) : toSite N (v : ℤ) = some ⟨v, hv⟩ := by
  unfold toSite
  rw [dif_pos ⟨by omega, by omega⟩]
  simp

theorem mapM_toSite {N : ℕ} (seq : ℕ → ℤ) (ks : List ℕ) (h : ∀ k ∈ ks, ∃ v : ℕ, v < N ∧ seq k = v) :
    ∃ l : List (Fin N), (ks.mapM fun j => toSite N (seq j)) = some l ∧
      l.map (fun i => (i.val : ℤ)) = ks.map seq := by
  induction ks with
  | nil => exact ⟨[], by simp⟩
  | cons k ks ih =>
    obtain ⟨v, hv, hk⟩ := h k (by simp)
    obtain ⟨l, h1, h2⟩ := ih fun k hk => h k (by simp [hk])
    refine ⟨⟨v, hv⟩ :: l, ?_, by simp [h2, hk]⟩
    rw [List.mapM_cons, hk, toSite_of v hv, h1]
    rfl

/-- the generator of random.c with rounding to nearest satisfies the laws (from C01-C03), and its
shuffle fails only if the bounded draws never end -/
theorem xorshift_lawful (rnd : ℝ → ℝ) (hr : Random.RoundsToNearest rnd) (junk : ℕ → ℤ) (N : ℕ)
    (hN : N < 2 ^ 31) :
    (xorshift rnd junk).Lawful N ∧
    ∀ sd, (xorshift rnd junk).shuffle N sd = none ↔ Random.shuffle sd N junk = none := by
  have key : ∀ (sd : Random.Seed) seq sd', Random.shuffle sd N junk = some (seq, sd') →
      ∃ l : List (Fin N), (xorshift rnd junk).shuffle N sd = some (l, sd') ∧
        l.Perm (List.finRange N) := by
    intro sd seq sd' h
    obtain ⟨p1, p2, -⟩ := Random.shuffle_isPerm sd sd' N hN junk seq h
    obtain ⟨l, h1, h2⟩ := mapM_toSite (N := N) seq (List.range N)
      (fun k hk => p2 k (List.mem_range.1 hk))
    refine ⟨l, ?_, ?_⟩
    · simp [xorshift, h, h1]
    · rw [List.perm_ext_iff_of_nodup _ (List.nodup_finRange N)]
      · intro i
        simp only [List.mem_finRange, iff_true]
        obtain ⟨k, ⟨hk, hki⟩, -⟩ := p1 i.val i.2
        have : (i.val : ℤ) ∈ l.map (fun i => (i.val : ℤ)) := by
          rw [h2, List.mem_map]
          exact ⟨k, List.mem_range.2 hk, hki⟩
        obtain ⟨j, hj, hji⟩ := List.mem_map.1 this
        have : j = i := Fin.ext (by exact_mod_cast hji)
        exact this ▸ hj
      · have hn : (l.map (fun i => (i.val : ℤ))).Nodup := by
          rw [h2]
          refine List.Nodup.map_on ?_ List.nodup_range
          intro a ha b hb hab
          obtain ⟨v, hv, hva⟩ := p2 a (List.mem_range.1 ha)
          exact (p1 v hv).unique ⟨List.mem_range.1 ha, hva⟩ ⟨List.mem_range.1 hb, hab ▸ hva⟩
        exact List.Nodup.of_map _ hn
  refine ⟨⟨fun sd => (Random.uniform_mem_Ioc rnd hr sd).1,
    fun sd => (Random.uniform_mem_Ioc rnd hr sd).2, ?_⟩, ?_⟩
  · intro sd l sd' h
    cases hs : Random.shuffle sd N junk with
    | none => simp [xorshift, hs] at h
    | some r =>
      obtain ⟨l', h1, h2⟩ := key sd r.1 r.2 hs
      rw [h1, Option.some.injEq, Prod.mk.injEq] at h
      exact h.1 ▸ h2
  · intro sd
    constructor
    · intro h
      cases hs : Random.shuffle sd N junk with
      | none => rfl
      | some r =>
        obtain ⟨l', h1, h2⟩ := key sd r.1 r.2 hs
        rw [h1] at h
        cases h
    · intro h
      simp [xorshift, h]

/-! ## Row scaling by field changes -/

theorem rowB_update (K : Mat N) (D : ℕ → Fin N → ℝ) (l : ℕ) (i : Fin N) (δ : ℝ) :
    (fun k => diagonal (Function.update D l (Function.update (D l) i ((1 + δ) * D l i)) k) * K)
      = Function.update (fun k => diagonal (D k) * K) l (scaleRow i δ (diagonal (D l) * K)) := by
  funext k
  by_cases hk : k = l
  · subst hk
    rw [Function.update_self, Function.update_self]
    ext a b
    simp only [diagonal_mul, scaleRow, of_apply]
    by_cases ha : a = i
    · subst ha; simp [mul_assoc]
    · simp [ha]
  · rw [Function.update_of_ne hk, Function.update_of_ne hk]

variable (sys : Sys σ N M)

theorem fieldB_flip (expV : Fin 2 → ℕ → ℝ) (s : ℕ → Fin N → Fin 2) (E : ℕ → Fin N → ℝ) (l : ℕ)
    (i : Fin N) (δ : ℝ)
    (h : expV (1 - s l i) (sys.orb i) = (1 + δ) * expV (s l i) (sys.orb i)) :
    sys.fieldB expV (flipField s l i) E
      = Function.update (sys.fieldB expV s E) l (scaleRow i δ (sys.fieldB expV s E l)) := by
  have := rowB_update sys.expK (fun l i => expV (s l i) (sys.orb i) * E l i) l i δ
  unfold Sys.fieldB
  refine Eq.trans ?_ this
  funext k
  congr 2
  funext a
  unfold flipField
  by_cases hk : k = l
  · subst hk
    simp only [Function.update_self]
    by_cases ha : a = i
    · subst ha; simp only [Function.update_self]; rw [h]; ring
    · simp only [Function.update_of_ne ha]
  · simp only [Function.update_of_ne hk]

theorem fieldB_eq_timeStep (expV : Fin 2 → ℕ → ℝ) (s : ℕ → Fin N → Fin 2) (l : ℕ) :
    timeStepMatrix sys.Ncell sys.expK expV (s l) = sys.fieldB expV s (fun _ _ => 1) l := by
  ext a b
  simp [timeStepMatrix, Sys.fieldB, Sys.orb, diagonal_mul]

theorem fieldB_eq_phonon (expV : Fin 2 → ℕ → ℝ) (s : ℕ → Fin N → Fin 2) (E : ℕ → Fin N → ℝ)
    (l : ℕ) : sys.phB expV s E l = sys.fieldB expV s E l := by
  ext a b
  simp [Sys.phB, phononTimeStepMatrix, Sys.fieldB, Sys.orb, diagonal_mul]

theorem Sys.Ok.recipU {sys : Sys σ N M} {len : ℕ} (h : sys.Ok len) (i : Fin N) (v : Fin 2) :
    sys.hs.expVu v (i / sys.Ncell) * sys.hs.expVu (1 - v) (i / sys.Ncell) = 1 :=
  (h.hs i).reciprocal v

theorem Sys.Ok.recipD {sys : Sys σ N M} {len : ℕ} (h : sys.Ok len) (i : Fin N) (v : Fin 2) :
    sys.hs.expVd v (i / sys.Ncell) * sys.hs.expVd (1 - v) (i / sys.Ncell) = 1 := by
  have h1 := (h.hs i).reversed v
  have h2 := (h.hs i).reversed (1 - v)
  unfold Sys.orb at h1 h2
  rw [h1, h2, sub_sub_cancel, mul_comm]
  exact (h.hs i).reciprocal v

/-! ## One step after the other -/

variable {sys} {E : ℕ → Fin N → ℝ} {L len l : ℕ} {st : State σ N M}

theorem Inv.wrap (h : Inv sys E L len l st) (hl : l < L) : Mid sys E L len l (wrap l st) :=
  ⟨h.up.wrap hl, h.down.wrap hl⟩

/-- the value compared with the random number is the ratio of the weights -/
theorem Mid.accept_eq (h : Mid sys E L len l st) (hok : sys.Ok len) (hl : l < L) (i : Fin N) :
    let Bu := sys.fieldB sys.hs.expVu
    let Bd := sys.fieldB sys.hs.expVd
    let du := ratio st.Gu i (sys.hs.delta (st.s l i) (sys.orb i))
    let dd := ratio st.Gd i (sys.hs.delta (1 - st.s l i) (sys.orb i))
    (1 + cyclicProd (Bu (flipField st.s l i) E) L (l + 1)).det
      = du * (1 + cyclicProd (Bu st.s E) L (l + 1)).det ∧
    (1 + cyclicProd (Bd (flipField st.s l i) E) L (l + 1)).det
      = dd * (1 + cyclicProd (Bd st.s E) L (l + 1)).det := by
  intro Bu Bd du dd
  constructor
  · simp only [Bu, fieldB_flip sys _ _ E l i _ ((hok.hs i).flipUp (st.s l i))]
    exact h.up.good.ratio_eq hl i _
  · simp only [Bd, fieldB_flip sys _ _ E l i _ ((hok.hs i).flipDown (st.s l i))]
    exact h.down.good.ratio_eq hl i _

theorem Mid.hsSite (h : Mid sys E L len l st) (hok : sys.Ok len) (hl : l < L) (i : Fin N) :
    Mid sys E L len l (hsSite sys l st i) := by
  unfold MonteCarlo.hsSite
  simp only
  split
  · rename_i hacc
    have hpos := lt_trans (hok.rng.uniform_pos st.rng) hacc
    have hne := abs_pos.1 hpos
    constructor
    · have := fieldB_flip sys _ _ E l i _ ((hok.hs i).flipUp (st.s l i))
      unfold flipField at this
      simp only
      rw [this]
      exact h.up.apply hl i _ (left_ne_zero_of_mul hne)
    · have := fieldB_flip sys _ _ E l i _ ((hok.hs i).flipDown (st.s l i))
      unfold flipField at this
      simp only
      rw [this]
      exact h.down.apply hl i _ (right_ne_zero_of_mul hne)
  · exact ⟨h.up, h.down⟩

theorem Mid.hsFold (h : Mid sys E L len l st) (hok : sys.Ok len) (hl : l < L)
    (order : List (Fin N)) : Mid sys E L len l (order.foldl (MonteCarlo.hsSite sys l) st) := by
  induction order generalizing st with
  | nil => exact h
  | cons i order ih => exact ih (h.hsSite hok hl i)

theorem Mid.hsSlice (h : Mid sys E L len l st) (hok : sys.Ok len) (hl : l < L)
    {st' : State σ N M} (hs : hsSlice sys l st = some st') : Mid sys E L len l st' := by
  unfold MonteCarlo.hsSlice at hs
  cases hsh : sys.rng.shuffle N st.rng with
  | none => simp [hsh] at hs
  | some r =>
    simp only [hsh, Option.bind_eq_bind, Option.bind_some, Option.pure_def, Option.some.injEq] at hs
    rw [← hs]
    exact Mid.hsFold (st := { st with rng := r.2 }) ⟨h.up, h.down⟩ hok hl _

theorem Mid.updateB (h : Mid sys (fun _ _ => 1) L len l st) (hok : sys.Ok len) :
    Inv sys (fun _ _ => 1) L len (l + 1) (updateB sys l st) :=
  ⟨h.up.update (fun l => timeStepMatrix sys.Ncell sys.expK sys.hs.expVu (st.s l))
      (fun l => invTimeStepMatrix sys.Ncell sys.invExpK sys.hs.expVu (st.s l)) _
      (fieldB_eq_timeStep sys _ _ _)
      (timeStepMatrix_inverse _ _ _ hok.expK _ _ hok.recipU).2.1,
    h.down.update (fun l => timeStepMatrix sys.Ncell sys.expK sys.hs.expVd (st.s l))
      (fun l => invTimeStepMatrix sys.Ncell sys.invExpK sys.hs.expVd (st.s l)) _
      (fieldB_eq_timeStep sys _ _ _)
      (timeStepMatrix_inverse _ _ _ hok.expK _ _ hok.recipD).2.1⟩

/-- recomputation is always possible and keeps everything exact -/
theorem Inv.recompute [NeZero N] (h : Inv sys E L len l st) (hl : len ∣ l) :
    ∃ st', MonteCarlo.recompute sys (l % st.tsmU.L) st = some st' ∧ Inv sys E L len l st' ∧
      st' = { st with Gu := st'.Gu, Gd := st'.Gd } := by
  obtain ⟨gu, hu1, hu2⟩ := h.up.construct sys.lp hl
  obtain ⟨gd, hd1, hd2⟩ := h.down.construct sys.lp hl
  refine ⟨{ st with Gu := gu, Gd := gd }, ?_, ⟨hu2, hd2⟩, rfl⟩
  rw [h.up.td.hL]
  simp [MonteCarlo.recompute, hu1, hd1]

/-- recomputed Green's functions equal the ones obtained by wrapping and rank one updates -/
theorem Inv.recompute_eq [NeZero N] (h : Inv sys E L len l st) (hl : len ∣ l) :
    MonteCarlo.recompute sys (l % st.tsmU.L) st = some st := by
  obtain ⟨st', h1, h2, h3⟩ := h.recompute hl
  rw [h1, h3, h2.up.good.unique (by rw [h3]; exact h.up.good),
    h2.down.good.unique (by rw [h3]; exact h.down.good)]

/-! ## C30 -/

/-- both Green's functions are the exact ones of the field `s` at slice `l` -/
structure Exact (sys : Sys σ N M) (L : ℕ) (E : ℕ → Fin N → ℝ) (s : ℕ → Fin N → Fin 2) (l : ℕ)
    (Gu Gd : GreensFn N) : Prop where
  up : GoodG (sys.fieldB sys.hs.expVu s E) L l Gu
  down : GoodG (sys.fieldB sys.hs.expVd s E) L l Gd

/-- `P` is preserved by measurements with exact Green's functions of some field at some slice -/
def EqMeasInv (sys : Sys σ N M) (L neqlt : ℕ) (P : M → Prop) : Prop :=
  ∀ (s : ℕ → Fin N → Fin 2) (l : ℕ) (Gu Gd : GreensFn N) (m m' : M), l < L → neqlt > 0 →
    (l + 1) % neqlt = 0 → Exact sys L (fun _ _ => 1) s (l + 1) Gu Gd → P m →
    sys.meas.eq Gu Gd m = some m' → P m'

theorem maybeRecompute_eq [NeZero N] (h : Inv sys E L len (l + 1) st) (hok : sys.Ok len)
    {st' : State σ N M} (hs : maybeRecompute sys l st = some st') :
    st' = st := by
  unfold maybeRecompute at hs
  split at hs
  · rename_i hw
    have hd : len ∣ l + 1 := hok.dvd.trans (Nat.dvd_of_mod_eq_zero hw)
    rw [h.recompute_eq hd, Option.some.injEq] at hs
    exact hs.symm
  · exact (Option.some.inj hs).symm

/-- one time slice -/
theorem hsTimeSlice_inv [NeZero N] (hok : sys.Ok len) (hl : l < L) (neqlt : ℕ) (P : M → Prop)
    (hP : EqMeasInv sys L neqlt P) {st' : State σ N M}
    (h : Inv sys (fun _ _ => 1) L len l st) (hp : P st.meas)
    (hs : hsTimeSlice sys neqlt st l = some st') :
    Inv sys (fun _ _ => 1) L len (l + 1) st' ∧ P st'.meas := by
  have hm := h.wrap hl
  unfold hsTimeSlice at hs
  simp only [Option.bind_eq_bind] at hs
  obtain ⟨st1, e1, hs⟩ := Option.bind_eq_some_iff.1 hs
  have hm1 := hm.hsSlice hok hl e1
  have hmeas1 : st1.meas = st.meas := by
    unfold hsSlice at e1
    cases hsh : sys.rng.shuffle N (MonteCarlo.wrap l st).rng with
    | none => simp [hsh] at e1
    | some r =>
      simp only [hsh, Option.bind_eq_bind, Option.bind_some, Option.pure_def,
        Option.some.injEq] at e1
      rw [← e1]
      have : ∀ (order : List (Fin N)) (t : State σ N M),
          (order.foldl (MonteCarlo.hsSite sys l) t).meas = t.meas := by
        intro order
        induction order with
        | nil => intro t; rfl
        | cons i order ih =>
          intro t
          rw [List.foldl_cons, ih]
          unfold MonteCarlo.hsSite
          simp only
          split <;> rfl
      rw [this]
      rfl
  have hi := hm1.updateB hok
  obtain ⟨st2, e2, hs⟩ := Option.bind_eq_some_iff.1 hs
  have h2 := maybeRecompute_eq hi hok e2
  subst h2
  unfold measureEq at hs
  split at hs
  · rename_i hc
    simp only [Option.bind_eq_bind] at hs
    obtain ⟨m, e3, hs⟩ := Option.bind_eq_some_iff.1 hs
    simp only [Option.pure_def, Option.some.injEq] at hs
    subst hs
    refine ⟨⟨hi.up, hi.down⟩, ?_⟩
    refine hP (MonteCarlo.updateB sys l st1).s l _ _ _ m hl hc.1 hc.2 ⟨hi.up.good, hi.down.good⟩ ?_ e3
    have : (MonteCarlo.updateB sys l st1).meas = st.meas := hmeas1
    rw [this]
    exact hp
  · rw [Option.some.injEq] at hs
    subst hs
    exact ⟨hi, by have : (MonteCarlo.updateB sys l st1).meas = st.meas := hmeas1
                  rw [this]; exact hp⟩

/-- one time slice never fails because of a singular matrix -/
theorem hsTimeSlice_defined [NeZero N] (hok : sys.Ok len) (hl : l < L) (neqlt : ℕ)
    (h : Inv sys (fun _ _ => 1) L len l st)
    (hsh : ∀ r, sys.rng.shuffle N r ≠ none)
    (hme : ∀ gu gd m, sys.meas.eq gu gd m ≠ none) :
    ∃ st', hsTimeSlice sys neqlt st l = some st' := by
  have hm := h.wrap hl
  obtain ⟨r, hr⟩ := Option.ne_none_iff_exists'.1 (hsh (MonteCarlo.wrap l st).rng)
  have e1 : hsSlice sys l (MonteCarlo.wrap l st)
      = some (r.1.foldl (MonteCarlo.hsSite sys l) { MonteCarlo.wrap l st with rng := r.2 }) := by
    unfold hsSlice
    rw [hr]
    rfl
  have hi := (hm.hsSlice hok hl e1).updateB hok
  unfold hsTimeSlice
  simp only [Option.bind_eq_bind]
  rw [e1, Option.bind_some]
  generalize MonteCarlo.updateB sys l (r.1.foldl (MonteCarlo.hsSite sys l)
    { MonteCarlo.wrap l st with rng := r.2 }) = st2 at hi
  have e2 : maybeRecompute sys l st2 = some st2 := by
    unfold maybeRecompute
    split
    · rename_i hw
      exact hi.recompute_eq (hok.dvd.trans (Nat.dvd_of_mod_eq_zero hw))
    · rfl
  rw [e2, Option.bind_some]
  unfold measureEq
  split
  · obtain ⟨m, hm⟩ := Option.ne_none_iff_exists'.1 (hme st2.Gu st2.Gd st2.meas)
    rw [hm]
    exact ⟨_, rfl⟩
  · exact ⟨_, rfl⟩

/-- the first `k` slices of a sweep -/
theorem sweep_inv [NeZero N] (hok : sys.Ok len) (neqlt : ℕ) (P : M → Prop)
    (hP : EqMeasInv sys L neqlt P) (h : Inv sys (fun _ _ => 1) L len 0 st) (hp : P st.meas)
    (k : ℕ) (hk : k ≤ L) {st' : State σ N M}
    (hs : (List.range k).foldlM (hsTimeSlice sys neqlt) st = some st') :
    Inv sys (fun _ _ => 1) L len k st' ∧ P st'.meas := by
  induction k generalizing st' with
  | zero =>
    rw [List.range_zero, List.foldlM_nil] at hs
    cases hs
    exact ⟨h, hp⟩
  | succ k ih =>
    rw [List.range_succ, List.foldlM_append] at hs
    obtain ⟨st1, e1, e2⟩ := Option.bind_eq_some_iff.1 hs
    obtain ⟨i1, p1⟩ := ih (by omega) e1
    rw [List.foldlM_cons] at e2
    obtain ⟨st2, e3, e4⟩ := Option.bind_eq_some_iff.1 e2
    rw [List.foldlM_nil] at e4
    cases e4
    exact hsTimeSlice_inv hok (by omega) neqlt P hP i1 p1 e3

/-- C30: a whole sweep -/
theorem dqmcIteration_inv [NeZero N] (hok : sys.Ok len) (neqlt : ℕ) (P : M → Prop)
    (hP : EqMeasInv sys L neqlt P) (h : Inv sys (fun _ _ => 1) L len 0 st) (hp : P st.meas)
    {st' : State σ N M} (hs : dqmcIteration sys neqlt st = some st') :
    Inv sys (fun _ _ => 1) L len 0 st' ∧ P st'.meas := by
  unfold dqmcIteration at hs
  rw [h.up.td.hL] at hs
  obtain ⟨i, p⟩ := sweep_inv hok neqlt P hP h hp L le_rfl hs
  exact ⟨⟨i.up.next, i.down.next⟩, p⟩

/-- C30, any number of sweeps, with or without measurements -/
theorem sweeps_inv [NeZero N] (hok : sys.Ok len) (neqlts : List ℕ) (P : M → Prop)
    (hP : ∀ neqlt ∈ neqlts, EqMeasInv sys L neqlt P) (h : Inv sys (fun _ _ => 1) L len 0 st)
    (hp : P st.meas) {st' : State σ N M}
    (hs : neqlts.foldlM (fun st neqlt => dqmcIteration sys neqlt st) st = some st') :
    Inv sys (fun _ _ => 1) L len 0 st' ∧ P st'.meas := by
  induction neqlts generalizing st with
  | nil =>
    rw [List.foldlM_nil] at hs
    cases hs
    exact ⟨h, hp⟩
  | cons n ns ih =>
    rw [List.foldlM_cons] at hs
    obtain ⟨st1, e1, e2⟩ := Option.bind_eq_some_iff.1 hs
    obtain ⟨i1, p1⟩ := dqmcIteration_inv hok n P (hP n (by simp)) h hp e1
    exact ih (fun m hm => hP m (by simp [hm])) i1 p1 e2

/-- a sweep never fails because of a singular matrix -/
theorem dqmcIteration_defined [NeZero N] (hok : sys.Ok len) (neqlt : ℕ)
    (h : Inv sys (fun _ _ => 1) L len 0 st) (hsh : ∀ r, sys.rng.shuffle N r ≠ none)
    (hme : ∀ gu gd m, sys.meas.eq gu gd m ≠ none) :
    ∃ st', dqmcIteration sys neqlt st = some st' := by
  unfold dqmcIteration
  rw [h.up.td.hL]
  have : ∀ k ≤ L, ∃ st', (List.range k).foldlM (hsTimeSlice sys neqlt) st = some st' := by
    intro k
    induction k with
    | zero => intro _; exact ⟨st, rfl⟩
    | succ k ih =>
      intro hk
      obtain ⟨st1, e1⟩ := ih (by omega)
      obtain ⟨i1, -⟩ := sweep_inv hok neqlt (fun _ => True) (fun _ _ _ _ _ _ _ _ _ _ _ _ => trivial)
        h trivial k (by omega) e1
      obtain ⟨st2, e2⟩ := hsTimeSlice_defined hok (show k < L by omega) neqlt i1 hsh hme
      refine ⟨st2, ?_⟩
      rw [List.range_succ, List.foldlM_append, e1]
      show (List.foldlM (hsTimeSlice sys neqlt) st1 [k]) = some st2
      rw [List.foldlM_cons, e2]
      rfl
  exact this L le_rfl

/-! ## C23 -/

/-- specification: a cached product is the product of the matrices of the current field -/
def CacheExact (B : ℕ → Mat N) (tsm : TSM N) : Prop :=
  ∀ m < tsm.numBprod, tsm.Bprod m = prodSeq (fun j => B (m * tsm.prodBlen + j)) tsm.prodBlen

theorem SpinInv.cacheExact {B : ℕ → Mat N} {tsm : TSM N} {G : GreensFn N}
    (h : SpinInv B L len l tsm G) (hl : len ∣ l) : CacheExact B tsm := by
  intro m hm
  rw [h.fresh.fresh (by rw [h.td.hlen]; exact hl) m hm]
  refine prodSeq_congr fun j hj => (h.mats _ ?_).1
  rw [← h.td.hL, h.td.dims.mul]
  calc m * tsm.prodBlen + j < m * tsm.prodBlen + tsm.prodBlen := by omega
    _ = (m + 1) * tsm.prodBlen := by ring
    _ ≤ _ := Nat.mul_le_mul_right _ hm

/-- C23: the state from which the Green's functions are recomputed after slice `l` (any number of
sweeps before), and the state at the end of each sweep, have exact caches -/
theorem caches_fresh [NeZero N] (hok : sys.Ok len) (neqlts : List ℕ) (neqlt : ℕ)
    (h : Inv sys (fun _ _ => 1) L len 0 st) {st1 st2 st3 : State σ N M}
    (hs : neqlts.foldlM (fun st neqlt => dqmcIteration sys neqlt st) st = some st1)
    (hl : l < L)
    (hs2 : (List.range l).foldlM (hsTimeSlice sys neqlt) st1 = some st2)
    (hs3 : hsSlice sys l (MonteCarlo.wrap l st2) = some st3) :
    (CacheExact (sys.fieldB sys.hs.expVu st1.s fun _ _ => 1) st1.tsmU ∧
      CacheExact (sys.fieldB sys.hs.expVd st1.s fun _ _ => 1) st1.tsmD) ∧
    ((l + 1) % sys.nwraps = 0 →
      CacheExact (sys.fieldB sys.hs.expVu st3.s fun _ _ => 1) (MonteCarlo.updateB sys l st3).tsmU ∧
      CacheExact (sys.fieldB sys.hs.expVd st3.s fun _ _ => 1)
        (MonteCarlo.updateB sys l st3).tsmD) := by
  have hT : ∀ n, EqMeasInv sys L n fun _ => True := fun _ _ _ _ _ _ _ _ _ _ _ _ _ => trivial
  obtain ⟨i1, -⟩ := sweeps_inv hok neqlts _ (fun n _ => hT n) h trivial hs
  obtain ⟨i2, -⟩ := sweep_inv hok neqlt _ (hT neqlt) i1 trivial l hl.le hs2
  have i3 := ((i2.wrap hl).hsSlice hok hl hs3).updateB hok
  refine ⟨⟨i1.up.cacheExact (dvd_zero _), i1.down.cacheExact (dvd_zero _)⟩, fun hw => ?_⟩
  have hd : len ∣ l + 1 := hok.dvd.trans (Nat.dvd_of_mod_eq_zero hw)
  exact ⟨i3.up.cacheExact hd, i3.down.cacheExact hd⟩

/-! ## C30 within a slice -/

/-- C30 inside a slice: after any number of sweeps, `l` slices, and the proposals for any list of
sites of slice `l`, both Green's functions and determinants are exact for the current field -/
theorem exact_within_slice [NeZero N] (hok : sys.Ok len) (neqlts : List ℕ) (neqlt : ℕ)
    (h : Inv sys (fun _ _ => 1) L len 0 st) {st1 st2 : State σ N M}
    (hs : neqlts.foldlM (fun st neqlt => dqmcIteration sys neqlt st) st = some st1)
    (hl : l < L) (hs2 : (List.range l).foldlM (hsTimeSlice sys neqlt) st1 = some st2)
    (sites : List (Fin N)) (r : σ) :
    let st3 := sites.foldl (MonteCarlo.hsSite sys l) { MonteCarlo.wrap l st2 with rng := r }
    Exact sys L (fun _ _ => 1) st2.s l st2.Gu st2.Gd ∧
    Exact sys L (fun _ _ => 1) st3.s (l + 1) st3.Gu st3.Gd := by
  have hT : ∀ n, EqMeasInv sys L n fun _ => True := fun _ _ _ _ _ _ _ _ _ _ _ _ _ => trivial
  obtain ⟨i1, -⟩ := sweeps_inv hok neqlts _ (fun n _ => hT n) h trivial hs
  obtain ⟨i2, -⟩ := sweep_inv hok neqlt _ (hT neqlt) i1 trivial l hl.le hs2
  have m := i2.wrap hl
  have m3 := Mid.hsFold (st := { MonteCarlo.wrap l st2 with rng := r }) ⟨m.up, m.down⟩ hok hl sites
  exact ⟨⟨i2.up.good, i2.down.good⟩, ⟨m3.up.good, m3.down.good⟩⟩

/-! ## C31 -/

/-- the determinant does not depend on the slice the product starts with -/
theorem det_shift (B : ℕ → Mat N) (L : ℕ) (hL : 0 < L) (k : ℕ) :
    (1 + cyclicProd B L k).det = (1 + cyclicProd B L 0).det := by
  have step : ∀ k < L, (1 + cyclicProd B L (k + 1)).det = (1 + cyclicProd B L k).det := by
    intro k hk
    have h1 := cyclicProd_last B L k hk
    have h2 : cyclicProd B L k = prodSeq (fun i => B ((k + 1 + i) % L)) (L - 1) * B k := by
      obtain ⟨m, rfl⟩ : ∃ m, L = m + 1 := ⟨L - 1, by omega⟩
      unfold cyclicProd
      rw [prodSeq_succ']
      simp only [Nat.add_sub_cancel, Nat.add_zero]
      rw [Nat.mod_eq_of_lt hk]
      congr 1
      refine prodSeq_congr fun i _ => ?_
      congr 2
      ring
    rw [h1, h2, det_one_add_mul_comm]
  have base : ∀ k ≤ L, (1 + cyclicProd B L k).det = (1 + cyclicProd B L 0).det := by
    intro k
    induction k with
    | zero => intro _; rfl
    | succ k ih => intro hk; rw [step k (by omega), ih (by omega)]
  rw [← cyclicProd_mod B L k, base _ (Nat.mod_lt _ hL).le]

theorem weight_shift (L : ℕ) (hL : 0 < L) (s : ℕ → Fin N → Fin 2) (E : ℕ → Fin N → ℝ) (k : ℕ) :
    sys.weight L s E = |(1 + cyclicProd (sys.fieldB sys.hs.expVu s E) L k).det *
      (1 + cyclicProd (sys.fieldB sys.hs.expVd s E) L k).det| := by
  unfold Sys.weight Sys.flow
  rw [det_shift _ L hL k, det_shift _ L hL k]

theorem Exact.weight_pos {s : ℕ → Fin N → Fin 2} {Gu Gd : GreensFn N} (h : Exact sys L E s l Gu Gd)
    (hL : 0 < L) : 0 < sys.weight L s E := by
  rw [weight_shift L hL s E l]
  exact abs_pos.2 (mul_ne_zero h.up.det_ne h.down.det_ne)

/-- the determinant records give the weight and the sign of the configuration -/
theorem Exact.weight_record {s : ℕ → Fin N → Fin 2} {Gu Gd : GreensFn N}
    (h : Exact sys L E s l Gu Gd) (hL : 0 < L) :
    sys.weight L s E = Real.exp (-(Gu.logdet + Gd.logdet)) ∧
    ((Gu.sgndet * Gd.sgndet : ℤ) : ℝ) * sys.weight L s E
      = (1 + sys.flow sys.hs.expVu L s E).det * (1 + sys.flow sys.hs.expVd L s E).det := by
  have key : ∀ (B : ℕ → Mat N) (G : GreensFn N), GoodG B L l G →
      (1 + cyclicProd B L 0).det = (G.sgndet : ℝ) * Real.exp (-G.logdet) := by
    intro B G hg
    rw [← det_shift B L hL l]
    have h1 := hg.det
    rw [det_nonsing_inv, Ring.inverse_eq_inv'] at h1
    rw [← inv_inv (1 + cyclicProd B L l).det, ← h1, mul_inv, Real.exp_neg]
    congr 1
    rcases hg.sgn with e | e <;> rw [e] <;> norm_num
  have hu := key _ _ h.up
  have hd := key _ _ h.down
  have hw : sys.weight L s E = Real.exp (-(Gu.logdet + Gd.logdet)) := by
    unfold Sys.weight Sys.flow
    rw [hu, hd, abs_mul, abs_mul, abs_mul, Real.abs_exp, Real.abs_exp]
    have a1 : |(Gu.sgndet : ℝ)| = 1 := by rcases h.up.sgn with e | e <;> rw [e] <;> norm_num
    have a2 : |(Gd.sgndet : ℝ)| = 1 := by rcases h.down.sgn with e | e <;> rw [e] <;> norm_num
    rw [a1, a2, one_mul, one_mul, ← Real.exp_add]
    congr 1
    ring
  refine ⟨hw, ?_⟩
  rw [hw]
  unfold Sys.flow
  rw [hu, hd, neg_add, Real.exp_add]
  push_cast
  ring

/-- a number uniform in `(0,1]` is less than `r` with probability `min(1,r)` -/
theorem accept_probability (r : ℝ) :
    MeasureTheory.volume {u : ℝ | u ∈ Set.Ioc 0 1 ∧ u < r} = ENNReal.ofReal (min 1 r) := by
  by_cases h : r ≤ 1
  · have : {u : ℝ | u ∈ Set.Ioc (0 : ℝ) 1 ∧ u < r} = Set.Ioo 0 r := by
      ext u
      simp only [Set.mem_ofPred_eq, Set.mem_Ioc, Set.mem_Ioo]
      constructor
      · rintro ⟨⟨h1, -⟩, h2⟩; exact ⟨h1, h2⟩
      · rintro ⟨h1, h2⟩; exact ⟨⟨h1, by linarith⟩, h2⟩
    rw [this, Real.volume_Ioo, min_eq_right h, sub_zero]
  · have : {u : ℝ | u ∈ Set.Ioc (0 : ℝ) 1 ∧ u < r} = Set.Ioc 0 1 := by
      ext u
      simp only [Set.mem_ofPred_eq, Set.mem_Ioc]
      constructor
      · rintro ⟨h1, -⟩; exact h1
      · rintro h1; exact ⟨h1, by linarith [h1.2]⟩
    rw [this, Real.volume_Ioc, min_eq_left (by linarith), sub_zero]

/-- acceptance with probability `min(1, W'/W)` balances the flow between two configurations -/
theorem balance (W W' : ℝ) (hW : 0 < W) (hW' : 0 ≤ W') :
    W * min 1 (W' / W) = W' * min 1 (W / W') := by
  rcases hW'.eq_or_lt with rfl | h
  · simp
  · rcases le_total W W' with hle | hle
    · rw [min_eq_left ((one_le_div hW).2 hle), min_eq_right ((div_le_one h).2 hle)]
      field_simp
    · rw [min_eq_right ((div_le_one hW).2 hle), min_eq_left ((one_le_div h).2 hle)]
      field_simp

theorem flipField_flipField (s : ℕ → Fin N → Fin 2) (l : ℕ) (i : Fin N) :
    flipField (flipField s l i) l i = s := by
  unfold flipField
  simp

/-- C31: a flip is accepted exactly if the random number is less than the ratio of the weights of
the complete configurations; so its probability is `min(1, W'/W)` and detailed balance holds -/
theorem hs_detailed_balance (h : Mid sys E L len l st) (hok : sys.Ok len) (hl : l < L)
    (i : Fin N) :
    let W := sys.weight L st.s E
    let W' := sys.weight L (flipField st.s l i) E
    let u := (sys.rng.uniform st.rng).1
    0 < W ∧
    (hsSite sys l st i).s = (if u < W' / W then flipField st.s l i else st.s) ∧
    MeasureTheory.volume {u : ℝ | u ∈ Set.Ioc 0 1 ∧ u < W' / W} = ENNReal.ofReal (min 1 (W' / W)) ∧
    W * min 1 (W' / W) = W' * min 1 (W / W') := by
  intro W W' u
  have hL : 0 < L := by omega
  have hW : 0 < W := Exact.weight_pos (l := l + 1) ⟨h.up.good, h.down.good⟩ hL
  have hW' : 0 ≤ W' := abs_nonneg _
  refine ⟨hW, ?_, accept_probability _, balance W W' hW hW'⟩
  obtain ⟨eu, ed⟩ := h.accept_eq hok hl i
  have hr : W' / W = |ratio st.Gu i (sys.hs.delta (st.s l i) (sys.orb i)) *
      ratio st.Gd i (sys.hs.delta (1 - st.s l i) (sys.orb i))| := by
    rw [div_eq_iff hW.ne']
    simp only [W', W]
    rw [weight_shift L hL _ E (l + 1), weight_shift L hL _ E (l + 1), eu, ed, ← abs_mul]
    congr 1
    ring
  rw [hr]
  unfold MonteCarlo.hsSite
  simp only [u]
  split <;> rfl

/-! ## C32 -/

/-- a proposal for site `i` of slice `l` changes at most this entry -/
theorem hsSite_field (l : ℕ) (st : State σ N M) (i : Fin N) :
    (hsSite sys l st i).s = st.s ∨ (hsSite sys l st i).s = flipField st.s l i := by
  unfold MonteCarlo.hsSite
  simp only
  split
  · exact Or.inr rfl
  · exact Or.inl rfl

theorem hsSite_other (l : ℕ) (st : State σ N M) (i : Fin N) (k : ℕ) (j : Fin N)
    (h : k ≠ l ∨ j ≠ i) : (hsSite sys l st i).s k j = st.s k j := by
  rcases hsSite_field (sys := sys) l st i with e | e <;> rw [e]
  unfold flipField
  by_cases hk : k = l
  · subst hk
    rw [Function.update_self, Function.update_of_ne (by tauto)]
  · rw [Function.update_of_ne hk]

theorem hsFold_other (l : ℕ) (st : State σ N M) (order : List (Fin N)) (k : ℕ) (j : Fin N)
    (h : k ≠ l ∨ j ∉ order) : (order.foldl (hsSite sys l) st).s k j = st.s k j := by
  induction order generalizing st with
  | nil => rfl
  | cons i order ih =>
    rw [List.foldl_cons, ih _ (by simp only [List.mem_cons] at h; tauto)]
    apply hsSite_other
    simp only [List.mem_cons] at h
    tauto

/-- C32: while slice `l` is processed, every site is proposed exactly once, in some order; only the
entries of slice `l` change, and the entry of a site changes only by its own proposal -/
theorem hsTimeSlice_field [NeZero N] (hr : sys.rng.Lawful N) (neqlt : ℕ) {st' : State σ N M}
    (hs : hsTimeSlice sys neqlt st l = some st') :
    (∀ k ≠ l, st'.s k = st.s k) ∧
    ∃ (order : List (Fin N)) (st0 : State σ N M), order.Perm (List.finRange N) ∧ st0.s = st.s ∧
      st'.s = (order.foldl (hsSite sys l) st0).s ∧
      ∀ a i b, order = a ++ i :: b →
        (a.foldl (hsSite sys l) st0).s l i = st.s l i ∧
        ((a ++ [i]).foldl (hsSite sys l) st0).s l i = st'.s l i := by
  unfold hsTimeSlice at hs
  simp only [Option.bind_eq_bind] at hs
  obtain ⟨st1, e1, hs⟩ := Option.bind_eq_some_iff.1 hs
  obtain ⟨st2, e2, hs⟩ := Option.bind_eq_some_iff.1 hs
  have h2 : st2.s = st1.s := by
    unfold maybeRecompute at e2
    split at e2
    · unfold MonteCarlo.recompute at e2
      simp only [Option.bind_eq_bind] at e2
      obtain ⟨gu, -, e2⟩ := Option.bind_eq_some_iff.1 e2
      obtain ⟨gd, -, e2⟩ := Option.bind_eq_some_iff.1 e2
      simp only [Option.pure_def, Option.some.injEq] at e2
      rw [← e2]
      rfl
    · rw [← Option.some.inj e2]
      rfl
  have h3 : st'.s = st2.s := by
    unfold measureEq at hs
    split at hs
    · simp only [Option.bind_eq_bind] at hs
      obtain ⟨m, -, hs⟩ := Option.bind_eq_some_iff.1 hs
      simp only [Option.pure_def, Option.some.injEq] at hs
      rw [← hs]
    · rw [← Option.some.inj hs]
  unfold hsSlice at e1
  simp only [Option.bind_eq_bind] at e1
  obtain ⟨r, hsh, e1⟩ := Option.bind_eq_some_iff.1 e1
  simp only [Option.pure_def, Option.some.injEq] at e1
  have hperm := hr.perm _ r.1 r.2 hsh
  have hnd : r.1.Nodup := hperm.nodup_iff.2 (List.nodup_finRange N)
  have hst' : st'.s = (r.1.foldl (hsSite sys l) { MonteCarlo.wrap l st with rng := r.2 }).s := by
    rw [h3, h2, ← e1]
  refine ⟨?_, r.1, { MonteCarlo.wrap l st with rng := r.2 }, hperm, rfl, hst', ?_⟩
  · intro k hk
    funext j
    rw [hst', hsFold_other _ _ _ _ _ (Or.inl hk)]
    rfl
  · intro a i b hab
    rw [hab, List.nodup_append, List.nodup_cons] at hnd
    constructor
    · rw [hsFold_other]
      · rfl
      · right
        intro hia
        exact hnd.2.2 i hia i (by simp) rfl
    · rw [hst', hab, show a ++ i :: b = (a ++ [i]) ++ b by simp, List.foldl_append (l' := b),
        hsFold_other (order := b)]
      exact Or.inr hnd.2.1.1

/-! ## C33 -/

/-- C33: without interaction neither the matrices nor the weight depend on the field -/
theorem no_interaction (Norb : ℕ) (U : ℕ → ℝ) (dt : ℝ) (hp : fill Norb U dt = some sys.hs)
    (hN : ∀ i : Fin N, sys.orb i < Norb) (hU : ∀ o < Norb, U o = 0) (L : ℕ)
    (s s' : ℕ → Fin N → Fin 2) (E : ℕ → Fin N → ℝ) :
    sys.fieldB sys.hs.expVu s E = sys.fieldB sys.hs.expVu s' E ∧
    sys.fieldB sys.hs.expVd s E = sys.fieldB sys.hs.expVd s' E ∧
    sys.weight L s E = sys.weight L s' E := by
  have hz := fun (i : Fin N) v => fill_zero Norb U dt sys.hs hp (sys.orb i) (hU _ (hN i)) v
  have hu : sys.fieldB sys.hs.expVu s E = sys.fieldB sys.hs.expVu s' E := by
    funext l
    simp only [Sys.fieldB, (hz _ _).1]
  have hd : sys.fieldB sys.hs.expVd s E = sys.fieldB sys.hs.expVd s' E := by
    funext l
    simp only [Sys.fieldB, (hz _ _).2.1]
  exact ⟨hu, hd, by unfold Sys.weight Sys.flow; rw [hu, hd]⟩

theorem applyUpdate_zero (G : GreensFn N) (i : Fin N) : applyUpdate G i 0 (ratio G i 0) = G := by
  have h : ratio G i 0 = 1 := by simp [ratio]
  unfold applyUpdate
  rw [h]
  have : shermanMorrison 0 i G.mat = G.mat := by
    ext a b
    simp [shermanMorrison]
  rw [this]
  have hn : ¬ (1 : ℝ) < 0 := by norm_num
  simp [hn]

/-- C33: without interaction the updates of the field that are skipped would have changed nothing
but the field itself and the random stream -/
theorem skip_harmless (Norb : ℕ) (U : ℕ → ℝ) (dt : ℝ) (hp : fill Norb U dt = some sys.hs)
    (hN : ∀ i : Fin N, sys.orb i < Norb) (hU : ∀ o < Norb, U o = 0) (l : ℕ) (st st' : State σ N M)
    (hs : hsSlice sys l st = some st') : st' = { st with s := st'.s, rng := st'.rng } := by
  have hz := fun (i : Fin N) v => (fill_zero Norb U dt sys.hs hp (sys.orb i) (hU _ (hN i)) v).2.2
  have site : ∀ (t : State σ N M) i,
      hsSite sys l t i = { t with s := (hsSite sys l t i).s, rng := (hsSite sys l t i).rng } := by
    intro t i
    unfold MonteCarlo.hsSite
    simp only [hz, applyUpdate_zero]
    split <;> rfl
  have fold : ∀ (order : List (Fin N)) (t : State σ N M), order.foldl (hsSite sys l) t
      = { t with s := (order.foldl (hsSite sys l) t).s, rng := (order.foldl (hsSite sys l) t).rng }
      := by
    intro order
    induction order with
    | nil => intro t; rfl
    | cons i order ih =>
      intro t
      have h1 := ih (hsSite sys l t i)
      rw [List.foldl_cons]
      generalize (order.foldl (hsSite sys l) (hsSite sys l t i)) = t2 at h1 ⊢
      rw [site t i] at h1
      exact h1
  unfold hsSlice at hs
  simp only [Option.bind_eq_bind] at hs
  obtain ⟨r, -, hs⟩ := Option.bind_eq_some_iff.1 hs
  simp only [Option.pure_def, Option.some.injEq] at hs
  have := fold r.1 { st with rng := r.2 }
  rw [hs] at this
  exact this

end Verif.MonteCarlo
