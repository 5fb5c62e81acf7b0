import Verif.Props.RoundedSteps
import Verif.Props.InexactMean

/-! # Property C114, third part: runs in rounded arithmetic track the field -/

set_option autoImplicit false

namespace Verif.Rounded

open Filter Topology Matrix Verif.Lapack Verif.TimeFlow Verif.Greens Verif.Stratonovich Verif.MonteCarlo Verif.Ultra Verif.Fock

variable {σ : Type} {N : ℕ} {M : Type}

/-! ## From limits to tolerances -/

theorem uniform_fin {X α : Type} [Finite X] {R : X → ℝ → α → Prop} {p : X → α → Prop} {c : ℝ} (hc : 0 < c)
    (h : ∀ x, ∀ U : Ultrafilter {t : ℝ × α // R x t.1 t.2}, Tendsto (fun t => t.1.1) (U : Filter {t : ℝ × α // R x t.1 t.2}) (𝓝 0) →
      ∀ᶠ t in (U : Filter {t : ℝ × α // R x t.1 t.2}), p x t.1.2) :
    ∃ δ, 0 < δ ∧ δ ≤ c ∧ ∀ x a, R x δ a → p x a := by
  have key : ∀ x, ∀ᶠ u in 𝓝[>] (0 : ℝ), ∀ a, R x u a → p x a := by
    intro x
    have h1 : ∀ᶠ t in comap (fun t : {t : ℝ × α // R x t.1 t.2} => t.1.1) (𝓝[>] (0 : ℝ)), p x t.1.2 := by
      refine eventually_of_ultra fun U hU => h x U ?_
      have : Tendsto (fun t : {t : ℝ × α // R x t.1 t.2} => t.1.1) (U : Filter _) (𝓝[>] (0 : ℝ)) := tendsto_iff_comap.2 hU
      exact this.mono_right nhdsWithin_le_nhds
    rw [eventually_comap] at h1
    filter_upwards [h1] with u hu a ha
    exact hu ⟨(u, a), ha⟩ rfl
  have h2 : ∀ᶠ u in 𝓝[>] (0 : ℝ), 0 < u := eventually_mem_nhdsWithin
  have h3 : ∀ᶠ u in 𝓝[>] (0 : ℝ), u < c := nhdsWithin_le_nhds (gt_mem_nhds hc)
  obtain ⟨δ, h4, h5, h6⟩ := ((eventually_all.2 key).and (h2.and h3)).exists
  exact ⟨δ, h5, h6.le, h4⟩

/-! ## The two spin species -/

/-- exponentials of a spin species: `false` is up -/
def tableOf (h : HSParams) (b : Bool) : Fin 2 → ℕ → ℝ := if b then h.expVd else h.expVu

/-- argument of the table of row changes -/
def dirOf (b : Bool) (v : Fin 2) : Fin 2 := if b then 1 - v else v

/-- exact matrices of a spin species -/
noncomputable def exactB (sys : Sys σ N M) (b : Bool) (s : ℕ → Fin N → Fin 2) : ℕ → Mat N :=
  sys.fieldB (tableOf sys.hs b) s fun _ _ => 1

/-- what a spin species needs -/
structure Sound (sys : Sys σ N M) (L : ℕ) : Prop where
  expK : sys.expK * sys.invExpK = 1
  hs : ∀ i : Fin N, Consistent sys.hs (sys.orb i)
  weight : ∀ s, sys.weight L s (fun _ _ => 1) ≠ 0

section spins

variable {sys : Sys σ N M} {L : ℕ}

theorem exactB_congr {b : Bool} {s s' : ℕ → Fin N → Fin 2} (h : ∀ l < L, s l = s' l) : ∀ l < L, exactB sys b s l = exactB sys b s' l := by
  intro l hl
  unfold exactB Sys.fieldB
  rw [h l hl]

theorem cyclic_congr {B B' : ℕ → Mat N} (h : ∀ l < L, B l = B' l) (j : ℕ) : cyclicProd B L j = cyclicProd B' L j :=
  prodSeq_congr fun l hl => h _ (Nat.mod_lt _ (by omega))

theorem NearG.congr {B B' : ℕ → Mat N} {e : ℝ} {j : ℕ} {G : GreensFn N} (h : NearG e B L j G) (hB : ∀ l < L, B l = B' l) :
    NearG e B' L j G := by
  have e1 := cyclic_congr hB j
  exact ⟨e1 ▸ h.mat, e1 ▸ h.sgn⟩

theorem NearG.shift_congr {B : ℕ → Mat N} {e : ℝ} {a b : ℕ} {G : GreensFn N} (h : NearG e B L a G) (hab : a % L = b % L) :
    NearG e B L b G := by
  have e1 : cyclicProd B L a = cyclicProd B L b := by rw [← cyclicProd_mod B L a, hab, cyclicProd_mod]
  exact ⟨e1 ▸ h.mat, e1 ▸ h.sgn⟩

theorem Sound.det_ne (h : Sound sys L) (hL : 0 < L) (b : Bool) (s : ℕ → Fin N → Fin 2) (j : ℕ) :
    (1 + cyclicProd (exactB sys b s) L j).det ≠ 0 := by
  rw [det_shift _ L hL]
  have hw := h.weight s
  unfold Sys.weight Sys.flow at hw
  rw [abs_ne_zero] at hw
  cases b
  · exact left_ne_zero_of_mul hw
  · exact right_ne_zero_of_mul hw

theorem Sound.recip (h : Sound sys L) (b : Bool) (i : Fin N) (v : Fin 2) :
    tableOf sys.hs b v (i / sys.Ncell) * tableOf sys.hs b (1 - v) (i / sys.Ncell) = 1 := by
  have hc := h.hs i
  cases b
  · exact hc.reciprocal v
  · show sys.hs.expVd v (sys.orb i) * sys.hs.expVd (1 - v) (sys.orb i) = 1
    rw [hc.reversed, hc.reversed]
    exact hc.reciprocal (1 - v)

theorem Sound.inverse (h : Sound sys L) (b : Bool) (s : ℕ → Fin N → Fin 2) (l : ℕ) :
    exactB sys b s l * invTimeStepMatrix sys.Ncell sys.invExpK (tableOf sys.hs b) (s l) = 1 := by
  have := (timeStepMatrix_inverse sys.Ncell sys.expK sys.invExpK h.expK (tableOf sys.hs b) (s l) (h.recip b)).2.1
  rw [fieldB_eq_timeStep] at this
  exact this

theorem Sound.det_slice (h : Sound sys L) (b : Bool) (s : ℕ → Fin N → Fin 2) (l : ℕ) : (exactB sys b s l).det ≠ 0 := by
  intro h0
  have := congrArg Matrix.det (h.inverse b s l)
  rw [det_mul, h0, zero_mul, det_one] at this
  exact zero_ne_one this

theorem Sound.flip (h : Sound sys L) (b : Bool) (s : ℕ → Fin N → Fin 2) (l : ℕ) (i : Fin N) :
    exactB sys b (flipField s l i) = Function.update (exactB sys b s) l
      (scaleRow i (sys.hs.delta (dirOf b (s l i)) (sys.orb i)) (exactB sys b s l)) := by
  cases b
  · exact fieldB_flip sys _ s _ l i _ ((h.hs i).flipUp (s l i))
  · exact fieldB_flip sys _ s _ l i _ ((h.hs i).flipDown (s l i))

theorem Tables.Within.table {tab : Tables N} {u : ℝ} (h : tab.Within sys u) (b : Bool) (v : Fin 2) (i : Fin N) :
    |tableOf tab.hs b v (sys.orb i) - tableOf sys.hs b v (sys.orb i)| ≤ u := by
  cases b
  · exact h.expVu v i
  · exact h.expVd v i

end spins

/-! ## Tolerances of the steps -/

section steps

variable (sys : Sys σ N M) (L : ℕ) (k : ℕ)

/-- a record with wrapped matrix -/
def wrapG (ar : Arith N) (B invB : Mat N) (G : GreensFn N) : GreensFn N := { G with mat := timeSliceWrap ar B invB G.mat }

/-- errors of at most `δ` before a step lead to errors of at most `ε` after it -/
structure StepOk (δ ε : ℝ) : Prop where
  wrap : ∀ (ar : Arith N) (tab : Tables N) (s : ℕ → Fin N → Fin 2) (b : Bool) (l : ℕ) (G : GreensFn N), ar.Within k δ →
    tab.Within sys δ → l < L → NearG δ (exactB sys b s) L l G →
    NearG ε (exactB sys b s) L (l + 1) (wrapG ar (slices ar sys tab (tableOf tab.hs b) s l)
      (invSlices ar sys tab (tableOf tab.hs b) s l) G)
  update : ∀ (ar : Arith N) (tab : Tables N) (s : ℕ → Fin N → Fin 2) (b : Bool) (l : ℕ) (i : Fin N) (G : GreensFn N),
    ar.Within k δ → tab.Within sys δ → l < L → NearG δ (exactB sys b s) L (l + 1) G →
    NearG ε (exactB sys b (flipField s l i)) L (l + 1) (applyUpdate ar G i (tab.hs.delta (dirOf b (s l i)) (sys.orb i))
      (ratio ar G i (tab.hs.delta (dirOf b (s l i)) (sys.orb i))))
  factor : ∀ (ar : Arith N) (tab : Tables N) (s : ℕ → Fin N → Fin 2) (l : ℕ) (i : Fin N) (Gu Gd : GreensFn N),
    ar.Within k δ → tab.Within sys δ → l < L → NearG δ (exactB sys false s) L (l + 1) Gu →
    NearG δ (exactB sys true s) L (l + 1) Gd →
    |(|ar.mul (ratio ar Gu i (tab.hs.delta (s l i) (sys.orb i))) (ratio ar Gd i (tab.hs.delta (1 - s l i) (sys.orb i)))|)
      - sys.weight L (flipField s l i) (fun _ _ => 1) / sys.weight L s fun _ _ => 1| ≤ ε

/-- a recomputation in an arithmetic with errors of at most `δ` has an error of at most `ε` -/
def ConstructOk [NeZero N] (len : ℕ) (δ ε : ℝ) : Prop :=
  ∀ (ar : Arith N) (tab : Tables N) (s : ℕ → Fin N → Fin 2) (b : Bool) (j : ℕ) (tsm : TSM N), ar.Within k δ → tab.Within sys δ →
    j < L → len ∣ j → TsmDims L len tsm → (∀ l < L, tsm.B l = slices ar sys tab (tableOf tab.hs b) s l) →
    (∀ m < tsm.numBprod, RFreshAt ar tsm m) → ∃ g, greenConstruct ar tsm j = some g ∧ NearG ε (exactB sys b s) L j g

variable {sys} {L} {k}

theorem near_lim {ι : Type} {U : Ultrafilter ι} {u : ι → ℝ} (hu : Tendsto u U (𝓝 0)) {A : ι → Mat N} {A₀ : Mat N}
    (h : ∀ t, Near (u t) (A t) A₀) : MLim U A A₀ :=
  mlim_of_near (c := 1) hu (MLim.const A₀) (Eventually.of_forall fun t => by rw [mul_one]; exact h t)

theorem val_lim {ι : Type} {U : Ultrafilter ι} {u : ι → ℝ} (hu : Tendsto u U (𝓝 0)) {x : ι → ℝ} {x₀ : ℝ}
    (h : ∀ t, |x t - x₀| ≤ u t) : Tendsto x U (𝓝 x₀) :=
  lim_of_near (c := 1) hu tendsto_const_nhds (Eventually.of_forall fun t => by rw [mul_one]; exact h t)

theorem MLim.near {ι : Type} {U : Ultrafilter ι} {A : ι → Mat N} {A₀ : Mat N} (h : MLim U A A₀) {ε : ℝ} (hε : 0 < ε) :
    ∀ᶠ t in (U : Filter ι), Near ε (A t) A₀ := by
  refine eventually_all.2 fun i => eventually_all.2 fun j => ?_
  filter_upwards [Metric.tendsto_nhds.1 (h i j) ε hε] with t ht
  rw [Real.dist_eq] at ht
  exact ht.le

theorem wrap_tol (h : Sound sys L) {ε : ℝ} (hε : 0 < ε) : ∃ δ, 0 < δ ∧ δ ≤ ε ∧
    ∀ (x : Field L N × Bool × Fin L) (a : Arith N × Tables N × GreensFn N), (a.1.Within k δ ∧ a.2.1.Within sys δ ∧
      NearG δ (exactB sys x.2.1 (extend x.1)) L x.2.2 a.2.2) →
    NearG ε (exactB sys x.2.1 (extend x.1)) L (x.2.2 + 1) (wrapG a.1
      (slices a.1 sys a.2.1 (tableOf a.2.1.hs x.2.1) (extend x.1) x.2.2)
      (invSlices a.1 sys a.2.1 (tableOf a.2.1.hs x.2.1) (extend x.1) x.2.2) a.2.2) := by
  refine uniform_fin hε fun x U hU => ?_
  have hal : Along U (fun t => t.1.2.1) k (fun t => t.1.1) := ⟨hU, Eventually.of_forall fun t => t.2.1⟩
  have hs := slices_lim (sys := sys) hal (tab := fun t => t.1.2.2.1) (V := fun t => tableOf t.1.2.2.1.hs x.2.1)
    (V₀ := tableOf sys.hs x.2.1) (Eventually.of_forall fun t => t.2.2.1) (fun v i => val_lim hU fun t => t.2.2.1.table x.2.1 v i)
    (extend x.1) x.2.2
  have hG := near_lim hU (A := fun t => t.1.2.2.2.mat) fun t => t.2.2.2.mat
  obtain ⟨h1, h2⟩ := wrap_lim hal x.2.2.2 (h.inverse x.2.1 (extend x.1) x.2.2) hs.1 hs.2 hG
  filter_upwards [MLim.near h1 hε] with t ht
  refine ⟨ht, ?_⟩
  rw [h2]
  exact t.2.2.2.sgn

theorem update_tol (h : Sound sys L) {ε : ℝ} (hε : 0 < ε) : ∃ δ, 0 < δ ∧ δ ≤ ε ∧
    ∀ (x : Field L N × Bool × Fin L × Fin N) (a : Arith N × Tables N × GreensFn N), (a.1.Within k δ ∧ a.2.1.Within sys δ ∧
      NearG δ (exactB sys x.2.1 (extend x.1)) L (x.2.2.1 + 1) a.2.2) →
    NearG ε (exactB sys x.2.1 (flipField (extend x.1) x.2.2.1 x.2.2.2)) L (x.2.2.1 + 1) (applyUpdate a.1 a.2.2 x.2.2.2
      (a.2.1.hs.delta (dirOf x.2.1 (extend x.1 x.2.2.1 x.2.2.2)) (sys.orb x.2.2.2))
      (ratio a.1 a.2.2 x.2.2.2 (a.2.1.hs.delta (dirOf x.2.1 (extend x.1 x.2.2.1 x.2.2.2)) (sys.orb x.2.2.2)))) := by
  refine uniform_fin hε fun x U hU => ?_
  have hal : Along U (fun t => t.1.2.1) k (fun t => t.1.1) := ⟨hU, Eventually.of_forall fun t => t.2.1⟩
  have hG := near_lim hU (A := fun t => t.1.2.2.2.mat) fun t => t.2.2.2.mat
  have hδ := val_lim hU fun t => t.2.2.1.delta (dirOf x.2.1 (extend x.1 x.2.2.1 x.2.2.2)) x.2.2.2
  have hne := h.det_ne (Fin.pos x.2.2.1) x.2.1 (flipField (extend x.1) x.2.2.1 x.2.2.2) (x.2.2.1 + 1)
  rw [h.flip] at hne ⊢
  obtain ⟨-, h2, h3⟩ := update_lim hal x.2.2.1.2 x.2.2.2 hδ hG (Eventually.of_forall fun t => t.2.2.2.sgn) hne
  filter_upwards [MLim.near h2 hε, h3] with t a b
  exact ⟨a, b⟩

theorem factor_tol (h : Sound sys L) {ε : ℝ} (hε : 0 < ε) : ∃ δ, 0 < δ ∧ δ ≤ ε ∧
    ∀ (x : Field L N × Fin L × Fin N) (a : Arith N × Tables N × GreensFn N × GreensFn N), (a.1.Within k δ ∧ a.2.1.Within sys δ ∧
      NearG δ (exactB sys false (extend x.1)) L (x.2.1 + 1) a.2.2.1 ∧ NearG δ (exactB sys true (extend x.1)) L (x.2.1 + 1) a.2.2.2) →
    |(|a.1.mul (ratio a.1 a.2.2.1 x.2.2 (a.2.1.hs.delta (extend x.1 x.2.1 x.2.2) (sys.orb x.2.2)))
        (ratio a.1 a.2.2.2 x.2.2 (a.2.1.hs.delta (1 - extend x.1 x.2.1 x.2.2) (sys.orb x.2.2)))|)
      - sys.weight L (flipField (extend x.1) x.2.1 x.2.2) (fun _ _ => 1) / sys.weight L (extend x.1) fun _ _ => 1| ≤ ε := by
  refine uniform_fin hε fun x U hU => ?_
  have hL := Fin.pos x.2.1
  have hal : Along U (fun t => t.1.2.1) k (fun t => t.1.1) := ⟨hU, Eventually.of_forall fun t => t.2.1⟩
  have hGu := near_lim hU (A := fun t => t.1.2.2.2.1.mat) fun t => t.2.2.2.1.mat
  have hGd := near_lim hU (A := fun t => t.1.2.2.2.2.mat) fun t => t.2.2.2.2.mat
  have hδu := val_lim hU fun t => t.2.2.1.delta (dirOf false (extend x.1 x.2.1 x.2.2)) x.2.2
  have hδd := val_lim hU fun t => t.2.2.1.delta (dirOf true (extend x.1 x.2.1 x.2.2)) x.2.2
  have hneu := h.det_ne hL false (flipField (extend x.1) x.2.1 x.2.2) (x.2.1 + 1)
  have hned := h.det_ne hL true (flipField (extend x.1) x.2.1 x.2.2) (x.2.1 + 1)
  rw [h.flip] at hneu hned
  have h1 := (update_lim hal x.2.1.2 x.2.2 hδu hGu (Eventually.of_forall fun t => t.2.2.2.1.sgn) hneu).1
  have h2 := (update_lim hal x.2.1.2 x.2.2 hδd hGd (Eventually.of_forall fun t => t.2.2.2.2.sgn) hned).1
  rw [← h.flip] at h1 h2
  have h3 := (hal.ops.mul h1 h2).abs
  have e : |(1 + cyclicProd (exactB sys false (flipField (extend x.1) x.2.1 x.2.2)) L (x.2.1 + 1)).det
        / (1 + cyclicProd (exactB sys false (extend x.1)) L (x.2.1 + 1)).det
      * ((1 + cyclicProd (exactB sys true (flipField (extend x.1) x.2.1 x.2.2)) L (x.2.1 + 1)).det
        / (1 + cyclicProd (exactB sys true (extend x.1)) L (x.2.1 + 1)).det)|
      = sys.weight L (flipField (extend x.1) x.2.1 x.2.2) (fun _ _ => 1) / sys.weight L (extend x.1) fun _ _ => 1 := by
    unfold Sys.weight Sys.flow
    rw [div_mul_div_comm, abs_div, det_shift _ L hL (x.2.1 + 1), det_shift _ L hL (x.2.1 + 1), det_shift _ L hL (x.2.1 + 1),
      det_shift _ L hL (x.2.1 + 1)]
    rfl
  rw [e] at h3
  filter_upwards [Metric.tendsto_nhds.1 h3 ε hε] with t ht
  rw [Real.dist_eq] at ht
  exact ht.le

theorem construct_tol [NeZero N] (h : Sound sys L) (len : ℕ) {ε : ℝ} (hε : 0 < ε) : ∃ δ, 0 < δ ∧ δ ≤ ε ∧
    ∀ (x : Field L N × Bool × Fin L) (a : Arith N × Tables N × TSM N), (a.1.Within k δ ∧ a.2.1.Within sys δ ∧ len ∣ x.2.2 ∧
      TsmDims L len a.2.2 ∧ (∀ l < L, a.2.2.B l = slices a.1 sys a.2.1 (tableOf a.2.1.hs x.2.1) (extend x.1) l) ∧
      ∀ m < a.2.2.numBprod, RFreshAt a.1 a.2.2 m) →
    ∃ g, greenConstruct a.1 a.2.2 x.2.2 = some g ∧ NearG ε (exactB sys x.2.1 (extend x.1)) L x.2.2 g := by
  refine uniform_fin hε fun x U hU => ?_
  have hal : Along U (fun t => t.1.2.1) k (fun t => t.1.1) := ⟨hU, Eventually.of_forall fun t => t.2.1⟩
  obtain ⟨t₀⟩ := U.neBot.nonempty
  obtain ⟨g, h1, h2, h3⟩ := construct_lim hal (tsm := fun t => t.1.2.2.2) (B := exactB sys x.2.1 (extend x.1)) (L := L) (len := len)
    (sh := x.2.2) (fun t => t.2.2.2.2.1) (fun t => t.2.2.2.2.2.2)
    (fun l hl => by
      have hs := (slices_lim (sys := sys) hal (tab := fun t => t.1.2.2.1) (V := fun t => tableOf t.1.2.2.1.hs x.2.1)
        (V₀ := tableOf sys.hs x.2.1) (Eventually.of_forall fun t => t.2.2.1) (fun v i => val_lim hU fun t => t.2.2.1.table x.2.1 v i)
        (extend x.1) l).1
      refine hs.congr' (Eventually.of_forall fun t => ?_)
      exact (t.2.2.2.2.2.1 l hl).symm)
    (fun l _ => h.det_slice _ _ l) t₀.2.2.2.1 (h.det_ne (Fin.pos x.2.2) _ _ _)
  filter_upwards [h1, MLim.near h2 hε, h3] with t a b c
  exact ⟨g t, a, b, c⟩

theorem flip_congr {s s' : ℕ → Fin N → Fin 2} (h : ∀ l < L, s l = s' l) {l : ℕ} (hl : l < L) (i : Fin N) :
    ∀ l' < L, flipField s l i l' = flipField s' l i l' := by
  intro l' hl'
  unfold flipField
  rw [h l hl]
  by_cases e : l' = l
  · subst e
    rw [Function.update_self, Function.update_self]
  · rw [Function.update_of_ne e, Function.update_of_ne e, h l' hl']

theorem slices_congr {ar : Arith N} {tab : Tables N} {V : Fin 2 → ℕ → ℝ} {s s' : ℕ → Fin N → Fin 2} {l : ℕ} (h : s l = s' l) :
    slices ar sys tab V s l = slices ar sys tab V s' l ∧ invSlices ar sys tab V s l = invSlices ar sys tab V s' l := by
  unfold slices invSlices
  rw [h]
  exact ⟨rfl, rfl⟩

/-- tolerances exist for the steps -/
theorem step_tol (h : Sound sys L) {ε : ℝ} (hε : 0 < ε) : ∃ δ, 0 < δ ∧ δ ≤ ε ∧ StepOk sys L k δ ε := by
  obtain ⟨δ₁, p₁, q₁, h₁⟩ := wrap_tol (k := k) h hε
  obtain ⟨δ₂, p₂, q₂, h₂⟩ := update_tol (k := k) h hε
  obtain ⟨δ₃, p₃, q₃, h₃⟩ := factor_tol (k := k) h hε
  have m1 : min δ₁ (min δ₂ δ₃) ≤ δ₁ := min_le_left _ _
  have m2 : min δ₁ (min δ₂ δ₃) ≤ δ₂ := (min_le_right _ _).trans (min_le_left _ _)
  have m3 : min δ₁ (min δ₂ δ₃) ≤ δ₃ := (min_le_right _ _).trans (min_le_right _ _)
  have agree : ∀ s : ℕ → Fin N → Fin 2, ∀ l < L, extend (fieldOf L s) l = s l := fun s l hl => extend_fieldOf s l hl
  refine ⟨min δ₁ (min δ₂ δ₃), lt_min p₁ (lt_min p₂ p₃), m1.trans q₁, ⟨?_, ?_, ?_⟩⟩
  · intro ar tab s b l G ha ht hl hG
    have := h₁ (fieldOf L s, b, ⟨l, hl⟩) (ar, tab, G) ⟨ha.mono m1, ht.mono m1,
      (hG.mono m1).congr (exactB_congr fun l hl => (agree s l hl).symm)⟩
    simp only at this
    rw [(slices_congr (agree s l hl)).1, (slices_congr (agree s l hl)).2] at this
    exact this.congr (exactB_congr (agree s))
  · intro ar tab s b l i G ha ht hl hG
    have := h₂ (fieldOf L s, b, ⟨l, hl⟩, i) (ar, tab, G) ⟨ha.mono m2, ht.mono m2,
      (hG.mono m2).congr (exactB_congr fun l hl => (agree s l hl).symm)⟩
    simp only at this
    rw [agree s l hl] at this
    exact this.congr (exactB_congr (flip_congr (agree s) hl i))
  · intro ar tab s l i Gu Gd ha ht hl hu hd
    have := h₃ (fieldOf L s, ⟨l, hl⟩, i) (ar, tab, Gu, Gd) ⟨ha.mono m3, ht.mono m3,
      (hu.mono m3).congr (exactB_congr fun l hl => (agree s l hl).symm),
      (hd.mono m3).congr (exactB_congr fun l hl => (agree s l hl).symm)⟩
    simp only at this
    rw [agree s l hl, weight_congr (by omega) (flip_congr (agree s) hl i) (fun _ _ => rfl),
      weight_congr (by omega) (agree s) (fun _ _ => rfl)] at this
    exact this

theorem construct_ok [NeZero N] (h : Sound sys L) (len : ℕ) {ε : ℝ} (hε : 0 < ε) :
    ∃ δ, 0 < δ ∧ δ ≤ ε ∧ ConstructOk sys L k len δ ε := by
  obtain ⟨δ, p, q, h₁⟩ := construct_tol (k := k) h len hε
  refine ⟨δ, p, q, ?_⟩
  intro ar tab s b j tsm ha ht hj hlen hd hB hf
  have agree : ∀ l < L, extend (fieldOf L s) l = s l := fun l hl => extend_fieldOf s l hl
  obtain ⟨g, e, hg⟩ := h₁ (fieldOf L s, b, ⟨j, hj⟩) (ar, tab, tsm) ⟨ha, ht, hlen, hd,
    fun l hl => by rw [hB l hl, (slices_congr (agree l hl)).1], hf⟩
  exact ⟨g, e, hg.congr (exactB_congr agree)⟩

theorem ConstructOk.mono [NeZero N] {len : ℕ} {δ δ' ε : ℝ} (h : ConstructOk sys L k len δ ε) (hd : δ' ≤ δ) :
    ConstructOk sys L k len δ' ε := fun ar tab s b j tsm ha ht => h ar tab s b j tsm (ha.mono hd) (ht.mono hd)

/-- a chain of tolerances -/
theorem chain (h : Sound sys L) {ε : ℝ} (hε : 0 < ε) (S : ℕ) : ∃ e : ℕ → ℝ, (∀ m, 0 < e m) ∧ (∀ m, e m ≤ e (m + 1)) ∧ (∀ m, e m ≤ ε) ∧
    ∀ m < S, StepOk sys L k (e m) (e (m + 1)) := by
  choose f f1 f2 f3 using fun x : {x : ℝ // 0 < x} => step_tol (k := k) h x.2
  let d : ℕ → {x : ℝ // 0 < x} := fun n => Nat.rec ⟨ε, hε⟩ (fun _ x => ⟨f x, f1 x⟩) n
  have d1 : ∀ n, (d (n + 1)).1 ≤ (d n).1 := fun n => f2 (d n)
  have d2 : ∀ n, StepOk sys L k (d (n + 1)).1 (d n).1 := fun n => f3 (d n)
  have d3 : ∀ n, (d n).1 ≤ ε := by
    intro n
    induction n with
    | zero => exact le_rfl
    | succ n ih => exact (d1 n).trans ih
  refine ⟨fun m => (d (S - m)).1, fun m => (d (S - m)).2, fun m => ?_, fun m => d3 _, fun m hm => ?_⟩
  · beta_reduce
    rcases Nat.lt_or_ge m S with hm | hm
    · have e : S - m = S - (m + 1) + 1 := by omega
      rw [e]
      exact d1 _
    · rw [show S - m = S - (m + 1) by omega]
  · have e : S - m = S - (m + 1) + 1 := by omega
    beta_reduce
    rw [e]
    exact d2 _

end steps

/-! ## Invariants -/

section run

variable (ar : Arith N) (sys : Sys σ N M) (tab : Tables N) (L len : ℕ)

/-- before slice `l`: the stored matrices are the rounded ones of the current field, and the Green's function has an error of
at most `e` -/
structure SpinNear (l : ℕ) (s : ℕ → Fin N → Fin 2) (b : Bool) (e : ℝ) (tsm : TSM N) (G : GreensFn N) : Prop where
  td : TsmDims L len tsm
  mats : ∀ j < L, tsm.B j = slices ar sys tab (tableOf tab.hs b) s j ∧ tsm.invB j = invSlices ar sys tab (tableOf tab.hs b) s j
  fresh : RFreshFrom ar tsm l
  near : NearG e (exactB sys b s) L l G

/-- the same in the middle of slice `l` -/
structure SpinNearMid (l : ℕ) (s : ℕ → Fin N → Fin 2) (b : Bool) (e : ℝ) (tsm : TSM N) (G : GreensFn N) : Prop where
  td : TsmDims L len tsm
  mats : ∀ j < L, j ≠ l → tsm.B j = slices ar sys tab (tableOf tab.hs b) s j ∧
    tsm.invB j = invSlices ar sys tab (tableOf tab.hs b) s j
  fresh : RFreshFrom ar tsm l
  near : NearG e (exactB sys b s) L (l + 1) G

variable {ar sys tab L len} {k : ℕ} {l : ℕ} {s : ℕ → Fin N → Fin 2} {b : Bool} {e e' : ℝ} {tsm : TSM N} {G : GreensFn N}

theorem SpinNear.mono (h : SpinNear ar sys tab L len l s b e tsm G) (he : e ≤ e') : SpinNear ar sys tab L len l s b e' tsm G :=
  ⟨h.td, h.mats, h.fresh, h.near.mono he⟩

theorem SpinNearMid.mono (h : SpinNearMid ar sys tab L len l s b e tsm G) (he : e ≤ e') :
    SpinNearMid ar sys tab L len l s b e' tsm G := ⟨h.td, h.mats, h.fresh, h.near.mono he⟩

theorem SpinNear.wrap (h : SpinNear ar sys tab L len l s b e tsm G) (hs : StepOk sys L k e e') (ha : ar.Within k e)
    (ht : tab.Within sys e) (hl : l < L) : SpinNearMid ar sys tab L len l s b e' tsm (wrapG ar (tsm.B l) (tsm.invB l) G) := by
  refine ⟨h.td, fun j hj _ => h.mats j hj, h.fresh, ?_⟩
  rw [(h.mats l hl).1, (h.mats l hl).2]
  exact hs.wrap ar tab s b l G ha ht hl h.near

theorem SpinNearMid.update (h : SpinNearMid ar sys tab L len l s b e tsm G) (hs : StepOk sys L k e e') (ha : ar.Within k e)
    (ht : tab.Within sys e) (hl : l < L) (i : Fin N) :
    SpinNearMid ar sys tab L len l (flipField s l i) b e' tsm (applyUpdate ar G i (tab.hs.delta (dirOf b (s l i)) (sys.orb i))
      (ratio ar G i (tab.hs.delta (dirOf b (s l i)) (sys.orb i)))) := by
  refine ⟨h.td, fun j hj hjl => ?_, h.fresh, hs.update ar tab s b l i G ha ht hl h.near⟩
  have e1 : flipField s l i j = s j := by
    unfold flipField
    rw [Function.update_of_ne hjl]
  rw [(slices_congr e1).1, (slices_congr e1).2]
  exact h.mats j hj hjl

/-- the end of a slice: new matrices, and possibly a recomputation -/
theorem SpinNearMid.finish [NeZero N] (h : SpinNearMid ar sys tab L len l s b e tsm G) {u e₀ : ℝ}
    (hc : ConstructOk sys L k len u e₀) (ha : ar.Within k u) (ht : tab.Within sys u) (hl : l < L) (hdvd : len ∣ sys.nwraps) :
    (updateWith ar (slices ar sys tab (tableOf tab.hs b) s) (invSlices ar sys tab (tableOf tab.hs b) s) sys.W0 l tsm).L = L ∧
    ∃ g, (if (l + 1) % sys.nwraps = 0 then greenConstruct ar (updateWith ar (slices ar sys tab (tableOf tab.hs b) s)
        (invSlices ar sys tab (tableOf tab.hs b) s) sys.W0 l tsm) ((l + 1) % L) else some G) = some g ∧
      SpinNear ar sys tab L len (l + 1) s b (if (l + 1) % sys.nwraps = 0 then e₀ else e)
        (updateWith ar (slices ar sys tab (tableOf tab.hs b) s) (invSlices ar sys tab (tableOf tab.hs b) s) sys.W0 l tsm) g := by
  have hp := h.td.dims.len
  obtain ⟨u1, u2, ⟨u3, u4, u5⟩, -, -⟩ := rupdateWith_spec ar (slices ar sys tab (tableOf tab.hs b) s)
    (invSlices ar sys tab (tableOf tab.hs b) s) sys.W0 l tsm hp
  have hfr := h.fresh.update ar hp (slices ar sys tab (tableOf tab.hs b) s) (invSlices ar sys tab (tableOf tab.hs b) s) sys.W0
  set t' := updateWith ar (slices ar sys tab (tableOf tab.hs b) s) (invSlices ar sys tab (tableOf tab.hs b) s) sys.W0 l tsm with ht'
  have htd : TsmDims L len t' := by
    refine ⟨⟨?_, ?_, ?_⟩, ?_, ?_⟩
    · rw [u4]; exact hp
    · rw [u5]; exact h.td.dims.num
    · rw [u3, u4, u5]; exact h.td.dims.mul
    · rw [u3]; exact h.td.hL
    · rw [u4]; exact h.td.hlen
  have hm : ∀ j < L, t'.B j = slices ar sys tab (tableOf tab.hs b) s j ∧ t'.invB j = invSlices ar sys tab (tableOf tab.hs b) s j := by
    intro j hj
    rw [u1, u2]
    by_cases hjl : j = l
    · subst hjl
      rw [Function.update_self, Function.update_self]
      exact ⟨rfl, rfl⟩
    · rw [Function.update_of_ne hjl, Function.update_of_ne hjl]
      exact h.mats j hj hjl
  refine ⟨htd.hL, ?_⟩
  by_cases hr : (l + 1) % sys.nwraps = 0
  · simp only [if_pos hr]
    have hlen : len ∣ l + 1 := hdvd.trans (Nat.dvd_of_mod_eq_zero hr)
    obtain ⟨g, hg, hn⟩ := hc ar tab s b ((l + 1) % L) t' ha ht (Nat.mod_lt _ (by omega)) ((Nat.dvd_mod_iff h.td.dvd).2 hlen) htd
      (fun j hj => (hm j hj).1) (hfr.all ar (by rw [htd.hlen]; exact hlen))
    exact ⟨g, hg, htd, hm, hfr, hn.shift_congr (Nat.mod_mod _ _)⟩
  · simp only [if_neg hr]
    exact ⟨G, rfl, htd, hm, hfr, h.near⟩

theorem SpinNear.next (h : SpinNear ar sys tab L len L s b e tsm G) : SpinNear ar sys tab L len 0 s b e tsm G :=
  ⟨h.td, h.mats, fun m hm _ => h.fresh.all ar (by rw [h.td.hlen]; exact h.td.dvd) m hm, h.near.shift_congr (by simp)⟩

end run

end Verif.Rounded
