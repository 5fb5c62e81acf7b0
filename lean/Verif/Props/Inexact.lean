import Verif.Lemmas.Rough
import Verif.Model.Inexact
import Verif.Props.Convergence
import Verif.Props.Reach

/-! # Property C113: runs in an inexact arithmetic -/

set_option autoImplicit false

namespace Verif.MonteCarlo

open MeasureTheory Verif.Metropolis Verif.Fock Verif.Greens Verif.Progress Verif.Ergodic Verif.Rough

variable {σ : Type} {N : ℕ} {M V : Type}

/-! ## The exact arithmetic is an instance -/

section exact

variable {sys : Sys σ N M} {ph : Phonon} {cfg : Cfg}

theorem roughSite_join [NeZero N] (l : ℕ) (st : RoughState σ N (State σ N M)) (i : Fin N) :
    (roughSite (exactNumerics sys cfg) sys.rng l st i).join = hsSite sys l st.join i := by
  unfold roughSite hsSite RoughState.join exactNumerics
  simp only
  split <;> rfl

theorem roughFold_join [NeZero N] (l : ℕ) (order : List (Fin N)) (st : RoughState σ N (State σ N M)) :
    (order.foldl (roughSite (exactNumerics sys cfg) sys.rng l) st).join = order.foldl (hsSite sys l) st.join := by
  induction order generalizing st with
  | nil => rfl
  | cons i order ih => rw [List.foldl_cons, List.foldl_cons, ih, roughSite_join]

/-- change of source and field -/
def State.put (st : State σ N M) (r : σ) (s : ℕ → Fin N → Fin 2) : State σ N M := { st with rng := r, s := s }

theorem maybeRecompute_put [NeZero N] (l : ℕ) (st : State σ N M) (r : σ) (s : ℕ → Fin N → Fin 2) :
    maybeRecompute sys l (st.put r s) = (maybeRecompute sys l st).map fun t => t.put r s := by
  unfold maybeRecompute recompute State.put
  split
  · simp only [Option.bind_eq_bind]
    cases greenConstruct sys.lp st.tsmU ((l + 1) % st.tsmU.L) with
    | none => rfl
    | some gu => cases greenConstruct sys.lp st.tsmD ((l + 1) % st.tsmU.L) <;> rfl
  · rfl

theorem measureEq_put (neqlt l : ℕ) (st : State σ N M) (r : σ) (s : ℕ → Fin N → Fin 2) :
    measureEq sys neqlt l (st.put r s) = (measureEq sys neqlt l st).map fun t => t.put r s := by
  unfold measureEq State.put
  split
  · simp only [Option.bind_eq_bind]
    cases sys.meas.eq st.Gu st.Gd st.meas <;> rfl
  · rfl

theorem measureUneq_put (it : ℤ) (st : State σ N M) (r : σ) (s : ℕ → Fin N → Fin 2) :
    measureUneq sys cfg it (st.put r s) = (measureUneq sys cfg it st).map fun t => t.put r s := by
  unfold measureUneq State.put
  split
  · simp only [Option.bind_eq_bind]
    cases sys.meas.uneq (st.Gu.sgndet * st.Gd.sgndet) st.tsmU st.tsmD st.meas <;> rfl
  · rfl

theorem roughTimeSlice_join [NeZero N] (it : ℤ) (l : ℕ) (st : RoughState σ N (State σ N M)) :
    (roughTimeSlice (exactNumerics sys cfg) sys.rng it st l).map RoughState.join
      = hsTimeSlice sys (effNeqlt cfg it) st.join l := by
  unfold roughTimeSlice hsTimeSlice roughSlice hsSlice
  simp only [Option.bind_eq_bind]
  have e0 : (wrap l st.join).rng = st.rng := rfl
  rw [e0]
  cases hs : sys.rng.shuffle N st.rng with
  | none => rfl
  | some p =>
    simp only [Option.bind_some, Option.pure_def]
    have e1 : p.1.foldl (hsSite sys l) { wrap l st.join with rng := p.2 }
        = (p.1.foldl (roughSite (exactNumerics sys cfg) sys.rng l)
          { rng := p.2, s := st.s, num := (exactNumerics sys cfg).wrap l st.num }).join := by
      rw [roughFold_join]
      rfl
    rw [e1]
    generalize p.1.foldl (roughSite (exactNumerics sys cfg) sys.rng l)
      { rng := p.2, s := st.s, num := (exactNumerics sys cfg).wrap l st.num } = t
    have e2 : updateB sys l t.join = (updateB sys l { t.num with s := t.s }).put t.rng t.s := rfl
    rw [e2, maybeRecompute_put]
    show Option.map RoughState.join (((maybeRecompute sys l (updateB sys l { t.num with s := t.s })).bind
      fun v => measureEq sys (effNeqlt cfg it) l v).bind fun v => some { t with num := v }) = _
    cases maybeRecompute sys l (updateB sys l { t.num with s := t.s }) with
    | none => rfl
    | some v =>
      simp only [Option.bind_some, Option.map_some, measureEq_put]
      cases measureEq sys (effNeqlt cfg it) l v <;> rfl

theorem foldlM_map {S T : Type} (p : S → T) (F : S → ℕ → Option S) (G : T → ℕ → Option T)
    (h : ∀ s l, (F s l).map p = G (p s) l) (ls : List ℕ) (s : S) : (ls.foldlM F s).map p = ls.foldlM G (p s) := by
  induction ls generalizing s with
  | nil => rfl
  | cons l ls ih =>
    rw [List.foldlM_cons, List.foldlM_cons, ← h]
    simp only [Option.bind_eq_bind]
    cases F s l with
    | none => rfl
    | some s1 => exact ih s1

/-- one iteration with exact operations is an iteration of the model with real numbers -/
theorem roughBody_join [NeZero N] (hp : cfg.usePhonons = false) (it : ℤ) (st : RoughState σ N (State σ N M))
    (hL : st.num.tsmU.L = cfg.L) :
    (roughBody (exactNumerics sys cfg) sys.rng cfg.L it st).map RoughState.join = simBody sys ph cfg it st.join := by
  unfold roughBody simBody dqmcIteration
  simp only [hp, Bool.false_eq_true, if_false, Option.bind_eq_bind]
  have e : st.join.tsmU.L = cfg.L := hL
  rw [e, ← foldlM_map RoughState.join _ _ fun s l => roughTimeSlice_join it l s]
  cases (List.range cfg.L).foldlM (roughTimeSlice (exactNumerics sys cfg) sys.rng it) st with
  | none => rfl
  | some t =>
    simp only [Option.bind_some, Option.map_some]
    have e2 : t.join = State.put { t.num with s := t.s } t.rng t.s := rfl
    rw [e2, measureUneq_put]
    show Option.map RoughState.join ((measureUneq sys cfg it { t.num with s := t.s }).bind
      fun v => some { t with num := v }) = _
    cases measureUneq sys cfg it { t.num with s := t.s } <;> rfl

theorem simLoop_join [NeZero N] (hok : sys.Ok cfg.prodBlen) (hp : cfg.usePhonons = false) (stop : ℤ → Bool) (n : ℕ) (it : ℤ)
    (st : RoughState σ N (State σ N M)) (p : Prog) (h : Inv sys (fun _ _ => 1) cfg.L cfg.prodBlen 0 st.join) :
    (simLoop (roughBody (exactNumerics sys cfg) sys.rng cfg.L) stop n it st p).map
        (fun R => (⟨R.iteration, R.state.join, R.prog, R.broke⟩ : LoopResult (State σ N M)))
      = simLoop (simBody sys ph cfg) stop n it st.join p := by
  induction n generalizing it st p with
  | zero => rfl
  | succ n ih =>
    unfold simLoop
    split
    · rfl
    · have e := roughBody_join (sys := sys) (ph := ph) hp it st h.up.td.hL
      have hrest : AtRest sys ph cfg st.join := by
        unfold AtRest
        rw [if_neg (by rw [hp]; exact Bool.false_ne_true)]
        exact h
      simp only [Option.bind_eq_bind]
      rw [← e]
      cases hb : roughBody (exactNumerics sys cfg) sys.rng cfg.L it st with
      | none => rfl
      | some st' =>
        rw [hb] at e
        have h' := (simBody_inv hok (fun _ => True) ⟨by intros; intro; intros; trivial,
          by intros; intro; intros; trivial, by intros; trivial⟩ it _ _ hrest trivial e.symm).1
        unfold AtRest at h'
        rw [if_neg (by rw [hp]; exact Bool.false_ne_true)] at h'
        exact ih _ _ _ h'

/-- with the exact operations the loop is the simulation of `Verif/Model/Simulation.lean` -/
theorem simulate_join [NeZero N] (hok : sys.Ok cfg.prodBlen) (hL : 0 < cfg.L) (hd : cfg.prodBlen ∣ cfg.L)
    (hp : cfg.usePhonons = false) (stop : ℤ → Bool) (it : ℤ) (rng : σ) (s : ℕ → Fin N → Fin 2) (X expX : ℕ → Fin N → ℝ)
    (cnt : Counters) (meas : M) :
    ((startState sys cfg rng s X expX cnt meas).bind fun v =>
        (simLoop (roughBody (exactNumerics sys cfg) sys.rng cfg.L) stop (cfg.nequil + cfg.nsampl - it).toNat it ⟨v.rng, v.s, v⟩
          (update it (start cfg.nequil cfg.nsampl))).map
          (fun R => (⟨R.iteration, R.state.join, R.prog, R.broke⟩ : LoopResult (State σ N M))))
      = simulate sys ph cfg stop it rng s X expX cnt meas := by
  unfold simulate
  cases h : startState sys cfg rng s X expX cnt meas with
  | none => rfl
  | some v => exact simLoop_join hok hp stop _ it ⟨v.rng, v.s, v⟩ _ (startState_inv hok hL hd hp rng s X expX cnt meas v h)

end exact

/-! ## The time slices as a sequence of steps -/

section steps

variable (num : Numerics N V) (rng : Rng σ)

/-- end of a time slice, and of the iteration if it is the last one -/
noncomputable def endSlice (L t : ℕ) (s : ℕ → Fin N → Fin 2) (v : V) : Option V :=
  (num.finish ((t / L : ℕ) : ℤ) s (t % L) v).bind fun v =>
    if t % L + 1 = L then num.close ((t / L : ℕ) : ℤ) s v else some v

/-- number of time slices done, field and numbers -/
abbrev Config (N : ℕ) (V : Type) : Type := ℕ × (ℕ → Fin N → Fin 2) × V

/-- one time slice, counted from the beginning of the run -/
noncomputable def sliceRun (L : ℕ) (a : Config N V) (r : σ) : Option (Config N V × σ) :=
  (roughSlice num rng (a.1 % L) ⟨r, a.2.1, num.wrap (a.1 % L) a.2.2⟩).bind fun st =>
    (endSlice num L a.1 st.s st.num).bind fun v => some ((a.1 + 1, st.s, v), st.rng)

variable {num rng}

theorem sliceRun_inner {L it l : ℕ} (hl : l + 1 < L) (st : RoughState σ N V) :
    sliceRun num rng L (it * L + l, st.s, st.num) st.rng
      = (roughTimeSlice num rng it st l).map fun t => ((it * L + (l + 1), t.s, t.num), t.rng) := by
  have e1 : (it * L + l) % L = l := Nat.mul_add_mod_of_lt (by omega)
  have e2 : (it * L + l) / L = it := by
    rw [Nat.mul_comm, Nat.mul_add_div (by omega), Nat.div_eq_of_lt (by omega), Nat.add_zero]
  unfold sliceRun roughTimeSlice endSlice
  simp only [e1, e2, if_neg (by omega : ¬ l + 1 = L), Option.bind_eq_bind]
  cases roughSlice num rng l ⟨st.rng, st.s, num.wrap l st.num⟩ with
  | none => rfl
  | some t =>
    simp only [Option.bind_some]
    cases num.finish it t.s l t.num <;> rfl

theorem sliceRun_last {L it : ℕ} (st : RoughState σ N V) :
    sliceRun num rng (L + 1) (it * (L + 1) + L, st.s, st.num) st.rng
      = (roughTimeSlice num rng it st L).bind fun t => (num.close it t.s t.num).map fun v => (((it + 1) * (L + 1), t.s, v), t.rng) := by
  have e1 : (it * (L + 1) + L) % (L + 1) = L := Nat.mul_add_mod_of_lt (by omega)
  have e2 : (it * (L + 1) + L) / (L + 1) = it := by
    rw [Nat.mul_comm, Nat.mul_add_div (by omega), Nat.div_eq_of_lt (by omega), Nat.add_zero]
  unfold sliceRun roughTimeSlice endSlice
  simp only [e1, e2, Option.bind_eq_bind, if_true]
  cases roughSlice num rng L ⟨st.rng, st.s, num.wrap L st.num⟩ with
  | none => rfl
  | some t =>
    simp only [Option.bind_some]
    cases num.finish it t.s L t.num with
    | none => rfl
    | some v =>
      simp only [Option.bind_some, Option.pure_def]
      cases num.close it t.s v with
      | none => rfl
      | some v =>
        simp only [Option.bind_some, Option.map_some]
        rw [show it * (L + 1) + L + 1 = (it + 1) * (L + 1) by ring]

/-- an iteration consists of `L` time slices -/
theorem run_body {L : ℕ} (hL : 0 < L) (it : ℕ) (st : RoughState σ N V) :
    run (sliceRun num rng L) L (it * L, st.s, st.num) st.rng
      = (roughBody num rng L it st).map fun t => (((it + 1) * L, t.s, t.num), t.rng) := by
  obtain ⟨K, rfl⟩ : ∃ K, L = K + 1 := ⟨L - 1, by omega⟩
  have key : ∀ k ≤ K, run (sliceRun num rng (K + 1)) k (it * (K + 1), st.s, st.num) st.rng
      = ((List.range k).foldlM (roughTimeSlice num rng it) st).map fun t => ((it * (K + 1) + k, t.s, t.num), t.rng) := by
    intro k
    induction k with
    | zero => intro _; rfl
    | succ k ih =>
      intro hk
      rw [run_add, ih (by omega), List.range_succ, List.foldlM_append]
      simp only [Option.bind_eq_bind]
      cases (List.range k).foldlM (roughTimeSlice num rng it) st with
      | none => rfl
      | some t =>
        simp only [Option.map_some, Option.bind_some, List.foldlM_cons, List.foldlM_nil]
        show (sliceRun num rng (K + 1) (it * (K + 1) + k, t.s, t.num) t.rng).bind (fun t => run _ 0 t.1 t.2) = _
        rw [sliceRun_inner (by omega)]
        simp only [Option.bind_eq_bind]
        cases roughTimeSlice num rng it t k <;> rfl
  rw [run_add, key K le_rfl]
  unfold roughBody
  rw [List.range_succ, List.foldlM_append]
  simp only [Option.bind_eq_bind]
  cases (List.range K).foldlM (roughTimeSlice num rng it) st with
  | none => rfl
  | some t =>
    simp only [Option.map_some, Option.bind_some, List.foldlM_cons, List.foldlM_nil]
    show (sliceRun num rng (K + 1) (it * (K + 1) + K, t.s, t.num) t.rng).bind (fun t => run _ 0 t.1 t.2) = _
    rw [sliceRun_last]
    simp only [Option.bind_eq_bind]
    cases roughTimeSlice num rng it t K with
    | none => rfl
    | some t =>
      simp only [Option.bind_some, Option.pure_def]
      cases num.close it t.s t.num <;> rfl

/-- a run which is not stopped -/
theorem run_loop {L : ℕ} (hL : 0 < L) (n it : ℕ) (st : RoughState σ N V) (p : Prog) {b : Config N V} {r : σ}
    (h : run (sliceRun num rng L) (n * L) (it * L, st.s, st.num) st.rng = some (b, r)) :
    ∃ p', simLoop (roughBody num rng L) (fun _ => false) n it st p
      = some ⟨((it + n : ℕ) : ℤ), ⟨r, b.2.1, b.2.2⟩, p', false⟩ := by
  induction n generalizing it st p with
  | zero =>
    rw [Nat.zero_mul] at h
    cases h
    exact ⟨p, rfl⟩
  | succ n ih =>
    rw [Nat.succ_mul, Nat.add_comm, run_add, run_body hL] at h
    cases hb : roughBody num rng L it st with
    | none =>
      rw [hb] at h
      cases h
    | some t =>
      rw [hb] at h
      obtain ⟨p', e⟩ := ih (it + 1) t (update it p) h
      refine ⟨p', ?_⟩
      unfold simLoop
      simp only [Bool.false_eq_true, if_false, hb, Option.bind_eq_bind, Option.bind_some]
      rw [show it + (n + 1) = it + 1 + n by omega, ← e]
      push_cast
      rfl

end steps

/-! ## Specification -/

/-- The computed numbers follow the field in the first `T` time slices of a run: as long as `I` (before time slice `t`) and `J`
(while its sites are visited, `k` of them are left) hold, which the operations maintain, every computed factor differs by at most
`ε` from the quotient of the weights with and without the entry reversed, and every measurement adds the contribution `q`, `qu` of
the field to the recorded quantity `acc` up to an error `η`. -/
structure Tracking (sys : Sys σ N M) (cfg : Cfg) (num : Numerics N V) (T : ℕ) (ε : ℝ) (acc : V → ℝ) (q : ℕ → Field cfg.L N → ℝ)
    (qu : Field cfg.L N → ℝ) (η : ℝ) (I : ℕ → (ℕ → Fin N → Fin 2) → V → Prop) (J : ℕ → ℕ → (ℕ → Fin N → Fin 2) → V → Prop) :
    Prop where
  wrap : ∀ t < T, ∀ s v, I t s v → J t N s (num.wrap (t % cfg.L) v) ∧ acc (num.wrap (t % cfg.L) v) = acc v
  stay : ∀ t < T, ∀ k s v, J t (k + 1) s v → J t k s v
  factor : ∀ t < T, ∀ k s v i, J t (k + 1) s v → |num.factor s (t % cfg.L) v i
    - sys.weight cfg.L (flipField s (t % cfg.L) i) (fun _ _ => 1) / sys.weight cfg.L s fun _ _ => 1| ≤ ε
  update : ∀ t < T, ∀ k s v i, J t (k + 1) s v → 0 < num.factor s (t % cfg.L) v i →
    J t k (flipField s (t % cfg.L) i) (num.update s (t % cfg.L) v i) ∧ acc (num.update s (t % cfg.L) v i) = acc v
  finish : ∀ t < T, ∀ s v, J t 0 s v → ∃ v', endSlice num cfg.L t s v = some v' ∧ I (t + 1) s v' ∧
    if cfg.nequil ≤ ((t / cfg.L : ℕ) : ℤ) then |acc v' - acc v - gain cfg q qu t (fieldOf cfg.L s)| ≤ η else acc v' = acc v

/-! ## Proofs -/

section sites

variable [MeasurableSpace σ] {P : Measure σ} {sys : Sys σ N M} {L l : ℕ} {num : Numerics N V}

theorem unit_mean_max (r a b : ℝ) :
    ∫ u, (if u < r then a else b) ∂unit = max (min 1 r) 0 * a + (1 - max (min 1 r) 0) * b := by
  have hm : MeasurableSet {u : ℝ | u < r} := measurableSet_Iio
  have e : (fun u : ℝ => if u < r then a else b) = fun u => Set.indicator {u : ℝ | u < r} (fun _ => a - b) u + b := by
    funext u
    by_cases h : u < r
    · rw [if_pos h, Set.indicator_of_mem (by exact h)]
      ring
    · rw [if_neg h, Set.indicator_of_notMem (by exact h)]
      ring
  rw [e, integral_add ((integrable_const _).indicator hm) (integrable_const _), integral_indicator hm, setIntegral_const,
    integral_const, measureReal_def, unit_lt, ENNReal.toReal_ofReal', probReal_univ]
  simp only [smul_eq_mul]
  ring

theorem clip_close (a b : ℝ) : |max (min 1 a) 0 - max (min 1 b) 0| ≤ |a - b| := by
  rcases le_total a b with h | h
  · rw [abs_sub_comm, abs_sub_comm a b, abs_of_nonneg (sub_nonneg.2 h),
      abs_of_nonneg (sub_nonneg.2 (max_le_max (min_le_min le_rfl h) le_rfl))]
    rcases le_total 1 a with h1 | h1 <;> rcases le_total 1 b with h2 | h2 <;> rcases le_total a 0 with h3 | h3 <;>
      rcases le_total b 0 with h4 | h4 <;>
      simp [h1, h2, h3, h4] <;> linarith
  · rw [abs_of_nonneg (sub_nonneg.2 h), abs_of_nonneg (sub_nonneg.2 (max_le_max (min_le_min le_rfl h) le_rfl))]
    rcases le_total 1 a with h1 | h1 <;> rcases le_total 1 b with h2 | h2 <;> rcases le_total a 0 with h3 | h3 <;>
      rcases le_total b 0 with h4 | h4 <;>
      simp [h1, h2, h3, h4] <;> linarith

omit [MeasurableSpace σ] in
theorem abs_mean_le {A B : Type} [MeasurableSpace σ] {P : Measure σ} [IsProbabilityMeasure P] (step : A → σ → B × σ)
    {g : B → ℝ} {c : ℝ} (hg : ∀ y, |g y| ≤ c) (x : A) : |mean P step g x| ≤ c := by
  have := norm_integral_le_of_norm_le_const (μ := P) (f := fun r => g (step x r).1) (C := c)
    (Filter.Eventually.of_forall fun r => hg _)
  rw [probReal_univ, mul_one, Real.norm_eq_abs] at this
  exact this

/-- field and numbers after proposals at several sites -/
noncomputable def orderRun (num : Numerics N V) (rng : Rng σ) (l : ℕ) (order : List (Fin N))
    (a : (ℕ → Fin N → Fin 2) × V) (r : σ) : Option (((ℕ → Fin N → Fin 2) × V) × σ) :=
  let st := order.foldl (roughSite num rng l) ⟨r, a.1, a.2⟩
  some ((st.s, st.num), st.rng)

omit [MeasurableSpace σ] in
theorem quotient_eq (hl : l < L) (s : ℕ → Fin N → Fin 2) (i : Fin N) :
    wt sys L (flipAt l i (fieldOf L s)) / wt sys L (fieldOf L s)
      = sys.weight L (flipField s l i) (fun _ _ => 1) / sys.weight L s fun _ _ => 1 := by
  unfold wt
  rw [flipAt_fieldOf hl, weight_congr (by omega) (fun k hk => extend_fieldOf (flipField s l i) k hk) (fun _ _ => rfl),
    weight_congr (by omega) (fun k hk => extend_fieldOf s k hk) fun _ _ => rfl]

/-- one proposal -/
theorem site_follows (hP : sys.rng.Ideal N P) (hpos : ∀ r, 0 < (sys.rng.uniform r).1) (hl : l < L) {ε : ℝ}
    {J : (ℕ → Fin N → Fin 2) × V → Prop} (i : Fin N) (a : (ℕ → Fin N → Fin 2) × V) (ha : J a)
    (hf : |num.factor a.1 l a.2 i - sys.weight L (flipField a.1 l i) (fun _ _ => 1) / sys.weight L a.1 fun _ _ => 1| ≤ ε)
    (hu : 0 < num.factor a.1 l a.2 i → J (flipField a.1 l i, num.update a.1 l a.2 i)) :
    Follows P (orderRun num sys.rng l [i] a) J (fun b => fieldOf L b.1)
      (fun g => mean P (siteStep sys L l i) g (fieldOf L a.1)) ε := by
  classical
  have := hP.prob
  set c := num.factor a.1 l a.2 i with hc
  let h : ℝ → Bool := fun u => Decidable.decide (u < c)
  have hh : Measurable h := by
    refine measurable_to_bool ?_
    have e : h ⁻¹' {true} = {u | u < c} := by
      ext u
      simp [h]
    rw [e]
    exact measurableSet_Iio
  let b : Bool → (ℕ → Fin N → Fin 2) × V := fun w => if w = true ∧ 0 < c then (flipField a.1 l i, num.update a.1 l a.2 i) else a
  have hd : MeasurePreserving (fun r => (h (sys.rng.uniform r).1, (sys.rng.uniform r).2)) P ((unit.map h).prod P) :=
    ((hh.measurePreserving unit).prod (MeasurePreserving.id P)).comp hP.uniform
  have := Measure.isProbabilityMeasure_map (μ := unit) hh.aemeasurable
  have hF : ∀ r, orderRun num sys.rng l [i] a r
      = some (b (h (sys.rng.uniform r).1), (sys.rng.uniform r).2) := by
    intro r
    unfold orderRun roughSite
    simp only [List.foldl_cons, List.foldl_nil]
    by_cases hlt : (sys.rng.uniform r).1 < c
    · have h0 : 0 < c := (hpos r).trans hlt
      simp only [b, h, ← hc, hlt, decide_true, h0, and_self, if_true]
      rfl
    · simp only [b, h, ← hc, hlt, decide_false, Bool.false_eq_true, false_and, if_false]
  have hq := (Spread.of_draw hd b).congr hF
  refine ⟨_, hq, fun p hp => ?_, fun g k hg => ?_⟩
  · obtain ⟨w, -, rfl⟩ := List.mem_map.1 hp
    show J (b w)
    simp only [b]
    split
    · rename_i hw
      exact hu hw.2
    · exact ha
  · have e1 := (hq.rule (fun b _ => g (fieldOf L b.1)) fun p _ => integrable_const _).2
    simp only [integral_const, probReal_univ, one_smul] at e1
    rw [← e1]
    have e2 : ∀ r, ev (fun b _ => g (fieldOf L b.1)) (orderRun num sys.rng l [i] a r)
        = if (sys.rng.uniform r).1 < c then g (flipAt l i (fieldOf L a.1)) else g (fieldOf L a.1) := by
      intro r
      rw [hF, ev_some]
      by_cases hlt : (sys.rng.uniform r).1 < c
      · have h0 : 0 < c := (hpos r).trans hlt
        simp only [b, h, hlt, decide_true, h0, and_self, if_true, flipAt_fieldOf hl]
      · simp only [b, h, hlt, decide_false, Bool.false_eq_true, false_and, if_false]
    have e3 : ∀ (k x y : ℝ), ∫ r, (if (sys.rng.uniform r).1 < k then x else y) ∂P
        = max (min 1 k) 0 * x + (1 - max (min 1 k) 0) * y := by
      intro k x y
      rw [← unit_mean_max]
      have hm : Measurable fun u : ℝ => if u < k then x else y :=
        Measurable.ite measurableSet_Iio measurable_const measurable_const
      have hp1 : MeasurePreserving (fun r => (sys.rng.uniform r).1) P unit := measurePreserving_fst.comp hP.uniform
      rw [← hp1.map_eq, integral_map hp1.measurable.aemeasurable hm.aestronglyMeasurable]
    simp only [e2]
    have e4 : mean P (siteStep sys L l i) g (fieldOf L a.1)
        = ∫ r, (if (sys.rng.uniform r).1 < sys.weight L (flipField a.1 l i) (fun _ _ => 1) / sys.weight L a.1 fun _ _ => 1
          then g (flipAt l i (fieldOf L a.1)) else g (fieldOf L a.1)) ∂P := by
      unfold mean
      rw [siteStep_eq]
      simp only [apply_ite g, quotient_eq hl]
    rw [e4, e3, e3]
    set p1 := max (min 1 c) 0
    set p2 := max (min 1 (sys.weight L (flipField a.1 l i) (fun _ _ => 1) / sys.weight L a.1 fun _ _ => 1)) 0
    have hp : |p1 - p2| ≤ ε := (clip_close _ _).trans hf
    have e5 : p1 * g (flipAt l i (fieldOf L a.1)) + (1 - p1) * g (fieldOf L a.1)
        - (p2 * g (flipAt l i (fieldOf L a.1)) + (1 - p2) * g (fieldOf L a.1))
        = (g (flipAt l i (fieldOf L a.1)) - g (fieldOf L a.1)) * (p1 - p2) := by ring
    rw [e5, abs_mul]
    refine mul_le_mul ((abs_sub _ _).trans ?_) hp (abs_nonneg _) ?_
    · linarith [hg (flipAt l i (fieldOf L a.1)), hg (fieldOf L a.1)]
    · linarith [(abs_nonneg _).trans (hg (fieldOf L a.1))]

/-- property of field and numbers which allows proposals at the given number of sites with error `ε` -/
def Allows (sys : Sys σ N M) (L l : ℕ) (num : Numerics N V) (ε : ℝ) (J : ℕ → (ℕ → Fin N → Fin 2) × V → Prop) : Prop :=
  ∀ k a, J (k + 1) a → J k a ∧ ∀ i,
    |num.factor a.1 l a.2 i - sys.weight L (flipField a.1 l i) (fun _ _ => 1) / sys.weight L a.1 fun _ _ => 1| ≤ ε ∧
    (0 < num.factor a.1 l a.2 i → J k (flipField a.1 l i, num.update a.1 l a.2 i))

theorem order_follows (hP : sys.rng.Ideal N P) (hpos : ∀ r, 0 < (sys.rng.uniform r).1) (hl : l < L) {ε : ℝ}
    {J : ℕ → (ℕ → Fin N → Fin 2) × V → Prop} (hJ : Allows sys L l num ε J) (order : List (Fin N)) (a : (ℕ → Fin N → Fin 2) × V)
    (ha : J order.length a) : Follows P (orderRun num sys.rng l order a) (J 0) (fun b => fieldOf L b.1)
      (fun g => mean P (orderStep sys L l order) g (fieldOf L a.1)) (order.length * ε) := by
  have := hP.prob
  induction order generalizing a with
  | nil =>
    have h := Follows.pure (P := P) a (fun b : (ℕ → Fin N → Fin 2) × V => fieldOf L b.1) ha
    have e : (fun g : Field L N → ℝ => mean P (orderStep sys L l []) g (fieldOf L a.1)) = fun g => g (fieldOf L a.1) := by
      funext g
      show ∫ _, g (fieldOf L a.1) ∂P = _
      simp
    rw [e, List.length_nil, Nat.cast_zero, zero_mul]
    exact h
  | cons i order ih =>
    have hk := hJ order.length a ha
    have h1 := site_follows hP hpos hl i a hk.1 (hk.2 i).1 (hk.2 i).2
    have h2 := h1.bind (κ' := fun y g => mean P (orderStep sys L l order) g y) (fun b hb => ih b hb)
      fun y g c hg => abs_mean_le _ hg y
    have e : (fun g : Field L N → ℝ => mean P (orderStep sys L l (i :: order)) g (fieldOf L a.1))
        = fun g => mean P (siteStep sys L l i) (fun y => mean P (orderStep sys L l order) g y) (fieldOf L a.1) := by
      funext g
      rw [show orderStep sys L l (i :: order) = andThen (siteStep sys L l i) (orderStep sys L l order) from rfl,
        mean_andThen (site_fresh hP i) (order_fresh hP order)]
    rw [e, List.length_cons]
    have e2 : (((order.length + 1 : ℕ) : ℝ)) * ε = ε + order.length * ε := by push_cast; ring
    rw [e2]
    exact h2

/-- field and numbers after the proposals of a time slice -/
noncomputable def visitRun (num : Numerics N V) (rng : Rng σ) (l : ℕ) (a : (ℕ → Fin N → Fin 2) × V) (r : σ) :
    Option (((ℕ → Fin N → Fin 2) × V) × σ) :=
  (roughSlice num rng l ⟨r, a.1, a.2⟩).map fun st => ((st.s, st.num), st.rng)

theorem visit_follows (hP : sys.rng.Ideal N P) (hpos : ∀ r, 0 < (sys.rng.uniform r).1) (hl : l < L) {ε : ℝ}
    {f : σ → Equiv.Perm (Fin N) × σ} (hf : MeasurePreserving f P ((equi (Equiv.Perm (Fin N))).prod P))
    (hfs : ∀ r, sys.rng.shuffle N r = some ((List.finRange N).map (f r).1, (f r).2))
    {J : ℕ → (ℕ → Fin N → Fin 2) × V → Prop} (hJ : Allows sys L l num ε J) (a : (ℕ → Fin N → Fin 2) × V)
    (ha : J N a) : Follows P (visitRun num sys.rng l a) (J 0) (fun b => fieldOf L b.1)
      (fun g => mean P (sliceStep sys f L l) g (fieldOf L a.1)) (N * ε) := by
  have := hP.prob
  have := equi_prob (Equiv.Perm (Fin N))
  have h1 : Follows P (fun r => some ((f r).1, (f r).2)) (fun _ => True) id
      (fun g => ∫ r, g (f r).1 ∂P) 0 := by
    have hq := Spread.of_draw hf id
    refine ⟨_, hq, fun _ _ => trivial, fun g c hg => ?_⟩
    have e1 := (hq.rule (fun b _ => g b) fun p _ => integrable_const _).2
    simp only [integral_const, probReal_univ, one_smul] at e1
    refine le_of_eq ?_
    rw [mul_zero, abs_eq_zero, sub_eq_zero]
    exact e1.symm
  have h2 := h1.bind (G := fun (p : Equiv.Perm (Fin N)) r => orderRun num sys.rng l ((List.finRange N).map p) a r)
    (κ' := fun (p : Equiv.Perm (Fin N)) g => mean P (orderStep sys L l ((List.finRange N).map p)) g (fieldOf L a.1)) (J' := J 0)
    (π' := fun b => fieldOf L b.1) (δ' := N * ε)
    (fun p _ => by
      have := order_follows hP hpos hl hJ ((List.finRange N).map p) a (by rwa [List.length_map, List.length_finRange])
      rwa [List.length_map, List.length_finRange] at this)
    fun y g c hg => abs_mean_le _ hg _
  rw [zero_add] at h2
  have eF : (fun r => (some ((f r).1, (f r).2)).bind fun t => orderRun num sys.rng l ((List.finRange N).map t.1) a t.2)
      = visitRun num sys.rng l a := by
    funext r
    unfold visitRun roughSlice
    simp only [hfs, Option.bind_eq_bind, Option.bind_some]
    rfl
  rw [eF] at h2
  have eκ : (fun g : Field L N → ℝ => mean P (sliceStep sys f L l) g (fieldOf L a.1))
      = fun g => ∫ r, mean P (orderStep sys L l ((List.finRange N).map (f r).1)) g (fieldOf L a.1) ∂P := by
    funext g
    have g1 : Ergodic.Fresh P fun (x : Field L N) r => ((fun x p => (x, p)) x (f r).1, (f r).2) :=
      Fresh.of_draw hf fun x => Measurable.of_discrete
    have g2 : Ergodic.Fresh P fun (q : Field L N × Equiv.Perm (Fin N)) r =>
        orderStep sys L l ((List.finRange N).map q.2) q.1 r := fun q => order_fresh hP ((List.finRange N).map q.2) q.1
    have e : sliceStep sys f L l = andThen (fun x r => ((fun x p => (x, p)) x (f r).1, (f r).2))
      (fun q r => orderStep sys L l ((List.finRange N).map q.2) q.1 r) := rfl
    rw [e, mean_andThen g1 g2]
    rfl
  rw [eκ]
  exact h2

end sites

section runs

variable [MeasurableSpace σ] {P : Measure σ} {sys : Sys σ N M} {cfg : Cfg} {num : Numerics N V} {ε η : ℝ} {acc : V → ℝ}
  {q : ℕ → Field cfg.L N → ℝ} {qu : Field cfg.L N → ℝ} {I : ℕ → (ℕ → Fin N → Fin 2) → V → Prop} {J : ℕ → ℕ → (ℕ → Fin N → Fin 2) → V → Prop} {m : ℕ} [NeZero m]
  {τ : ℕ}

/-- the element of the Markov chain: position in the cycle of iterations, and field -/
def viewOf (L m : ℕ) [NeZero m] (a : Config N V) : Fin m × Field L N := (Fin.ofNat m a.1, fieldOf L a.2.1)

/-- one time slice of a run in inexact arithmetic is one step of the chain, up to `ε` for every site -/
theorem slice_follows (T : Tracking sys cfg num τ ε acc q qu η I J) (hP : sys.rng.Ideal N P)
    (hpos : ∀ r, 0 < (sys.rng.uniform r).1) (hL : 0 < cfg.L) {Q : ℕ} (hm : m = Q * cfg.L)
    {f : σ → Equiv.Perm (Fin N) × σ} (hf : MeasurePreserving f P ((equi (Equiv.Perm (Fin N))).prod P))
    (hfs : ∀ r, sys.rng.shuffle N r = some ((List.finRange N).map (f r).1, (f r).2)) (a : Config N V)
    (hτ : a.1 < τ) (ha : I a.1 a.2.1 a.2.2) :
    Follows P (sliceRun num sys.rng cfg.L a) (fun b => b.1 = a.1 + 1 ∧ I b.1 b.2.1 b.2.2 ∧
        if cfg.nequil ≤ ((a.1 / cfg.L : ℕ) : ℤ) then |acc b.2.2 - acc a.2.2 - gain cfg q qu a.1 (fieldOf cfg.L b.2.1)| ≤ η
        else acc b.2.2 = acc a.2.2) (viewOf cfg.L m)
      (fun g => mean P (cycleStep sys f cfg.L m) g (viewOf cfg.L m a)) (N * ε) := by
  have := hP.prob
  have hl := Nat.mod_lt a.1 hL
  have h1 := visit_follows (num := num) (J := fun k b => J a.1 k b.1 b.2 ∧ acc b.2 = acc a.2.2) (ε := ε) hP hpos hl hf hfs
    (fun k b hb => ⟨⟨T.stay a.1 hτ k b.1 b.2 hb.1, hb.2⟩, fun i => ⟨T.factor a.1 hτ k b.1 b.2 i hb.1, fun h0 =>
      ⟨(T.update a.1 hτ k b.1 b.2 i hb.1 h0).1, (T.update a.1 hτ k b.1 b.2 i hb.1 h0).2.trans hb.2⟩⟩⟩)
    (a.2.1, num.wrap (a.1 % cfg.L) a.2.2) (T.wrap a.1 hτ _ _ ha)
  have h2 := h1.bind (G := fun b r => (endSlice num cfg.L a.1 b.1 b.2).bind fun v => some (((a.1 + 1, b.1, v) : Config N V), r))
    (J' := fun b => b.1 = a.1 + 1 ∧ I b.1 b.2.1 b.2.2 ∧
        if cfg.nequil ≤ ((a.1 / cfg.L : ℕ) : ℤ) then |acc b.2.2 - acc a.2.2 - gain cfg q qu a.1 (fieldOf cfg.L b.2.1)| ≤ η
        else acc b.2.2 = acc a.2.2) (π' := viewOf cfg.L m)
    (κ' := fun y g => g (Fin.ofNat m (a.1 + 1), y)) (δ' := 0) (fun b hb => by
      obtain ⟨v', e1, e2, e3⟩ := T.finish a.1 hτ b.1 b.2 hb.1
      simp only [e1, Option.bind_some]
      refine Follows.pure (P := P) ((a.1 + 1, b.1, v') : Config N V) (viewOf cfg.L m) ⟨rfl, e2, ?_⟩
      rw [hb.2] at e3
      exact e3) fun y g c hg => hg _
  rw [add_zero] at h2
  have eF : sliceRun num sys.rng cfg.L a = fun r => (visitRun num sys.rng (a.1 % cfg.L) (a.2.1, num.wrap (a.1 % cfg.L) a.2.2) r).bind
      fun t => (endSlice num cfg.L a.1 t.1.1 t.1.2).bind fun v => some (((a.1 + 1, t.1.1, v) : Config N V), t.2) := by
    funext r
    unfold sliceRun visitRun
    cases roughSlice num sys.rng (a.1 % cfg.L) ⟨r, a.2.1, num.wrap (a.1 % cfg.L) a.2.2⟩ <;> rfl
  rw [eF]
  have eκ : (fun g => mean P (cycleStep sys f cfg.L m) g (viewOf cfg.L m a)) = fun g : Fin m × Field cfg.L N → ℝ =>
      mean P (sliceStep sys f cfg.L (a.1 % cfg.L)) (fun y => g (Fin.ofNat m (a.1 + 1), y)) (fieldOf cfg.L a.2.1) := by
    funext g
    unfold mean viewOf
    simp only [cycleStep_at hm]
  rw [eκ]
  exact h2

theorem gain_cycle {Q : ℕ} (hm : m = Q * cfg.L) (hQ : 0 < cfg.nuneqlt → Q = cfg.nuneqlt.toNat) (hL : 0 < cfg.L) (t : ℕ)
    (y : Field cfg.L N) : gain cfg q qu (Fin.ofNat m t).val y = gain cfg q qu t y := by
  have e : t = t / cfg.L * cfg.L + t % cfg.L := by
    rw [Nat.mul_comm]
    exact (Nat.div_add_mod t cfg.L).symm
  have h := gain_at (q := q) (qu := qu) hm hQ (t / cfg.L) (t % cfg.L) (Nat.mod_lt t hL) y
  rw [← e] at h
  rw [h]
  unfold gain
  congr 1

/-- the chain of the fields: every function which is not affected by sites on which the field does not act is the sum of its average
and the expected change of another function -/
theorem chain_poisson (hP : sys.rng.Ideal N P)
    (hw : ∀ x : Field cfg.L N, sys.weight cfg.L (Fock.extend x) (fun _ _ => 1) ≠ 0) (hr : Responsive sys cfg.L) (hL : 0 < cfg.L)
    {f : σ → Equiv.Perm (Fin N) × σ} (hf : MeasurePreserving f P ((equi (Equiv.Perm (Fin N))).prod P)) (hm : cfg.L ≤ m)
    (G : ℕ → Field cfg.L N → ℝ) (hG : ∀ c, G c ∈ insensitive sys cfg.L) (a : ℝ)
    (ha : ∑ c : Fin m, wsum sys cfg.L (G c.val) = a * (m * wsum sys cfg.L fun _ => 1)) :
    ∃ g : Fin m × Field cfg.L N → ℝ, ∀ y, g y - mean P (cycleStep sys f cfg.L m) g y
      = mean P (cycleStep sys f cfg.L m) (fun y' => G y.1.val y'.2) y - a := by
  have := hP.prob
  have hK : ∀ c : Fin m, _ := fun c => (slice_contracts hP hw hr (Nat.mod_lt c.val hL) hf).2
  have hmean : ∀ g : Fin m × Field cfg.L N → ℝ, mean P (cycleStep sys f cfg.L m) g
      = cycleMean (fun c => mean P (sliceStep sys f cfg.L (c.val % cfg.L))) g := fun g => rfl
  have hsum : ∑ y : Fin m × Field cfg.L N, wt sys cfg.L y.2 = m * wsum sys cfg.L fun _ => 1 := by
    rw [Fintype.sum_prod_type]
    unfold wsum wt
    simp
  have hpos : 0 < ∑ y : Fin m × Field cfg.L N, wt sys cfg.L y.2 := by
    refine Finset.sum_pos (fun y _ => wt_pos hw _) ?_
    exact ⟨(0, fun _ _ => 0), Finset.mem_univ _⟩
  obtain ⟨K, hKK⟩ := mean_linear (cycle_fresh (m := m) hP hw hr hL hf)
  have hF : (fun y : Fin m × Field cfg.L N => mean P (cycleStep sys f cfg.L m) (fun y' => G y.1.val y'.2) y)
      ∈ cycleV m (insensitive sys cfg.L) := fun c => (hK c).mem _ (hG c.val)
  have h1 : (fun _ => 1) ∈ cycleV m (insensitive sys cfg.L) := fun c l i _ x => rfl
  obtain ⟨g, -, hg⟩ := poisson (cycleV m (insensitive sys cfg.L)) K
    (fun g hg => by rw [hKK, hmean]; exact cycle_mem hK hg) h1 (fun y => wt sys cfg.L y.2) hpos.ne'
    (fun g hg => by simp only [hKK, hmean]; exact cycle_sum hK hg)
    (fun g hg he => by
      rw [hKK, hmean] at he
      refine cycle_const hK (fun g _ hall => const_of_flips g fun l hl i x => ?_) hg he
      refine hall ⟨l, by omega⟩ _ ⟨i, ?_⟩ x
      simp only [Nat.mod_eq_of_lt hl])
    (f := fun y => mean P (cycleStep sys f cfg.L m) (fun y' => G y.1.val y'.2) y - a)
    (Submodule.sub_mem _ hF (by have := Submodule.smul_mem _ a h1; simpa [Pi.smul_def] using this))
    (by
      simp only [mul_sub, Finset.sum_sub_distrib]
      rw [← Finset.sum_mul, hsum, mul_comm (_ * _) a, ← ha, Fintype.sum_prod_type, sub_eq_zero]
      exact Finset.sum_congr rfl fun c _ => (hK c).sum _ (hG c.val))
  exact ⟨g, fun y => by rw [← hKK]; exact hg y⟩

omit [NeZero m] in
theorem equil_spread (T : Tracking sys cfg num τ ε acc q qu η I J) (hP : sys.rng.Ideal N P)
    (hpos : ∀ r, 0 < (sys.rng.uniform r).1) (hL : 0 < cfg.L)
    {f : σ → Equiv.Perm (Fin N) × σ} (hf : MeasurePreserving f P ((equi (Equiv.Perm (Fin N))).prod P))
    (hfs : ∀ r, sys.rng.shuffle N r = some ((List.finRange N).map (f r).1, (f r).2)) {e : ℕ} (he : cfg.nequil = e) (k : ℕ)
    (a : Config N V) (hk : a.1 + k = e * cfg.L) (hτ : e * cfg.L ≤ τ) (ha : I a.1 a.2.1 a.2.2) :
    ∃ l, Spread P (run (sliceRun num sys.rng cfg.L) k a) l ∧
      ∀ p ∈ l, (I p.2.1 p.2.2.1 p.2.2.2 ∧ p.2.1 = e * cfg.L) ∧ acc p.2.2.2 = acc a.2.2 := by
  have := hP.prob
  induction k generalizing a with
  | zero => exact ⟨_, Spread.pure a, fun p hp => by rw [List.mem_singleton.1 hp]; exact ⟨⟨ha, by show a.1 = e * cfg.L; omega⟩, rfl⟩⟩
  | succ k ih =>
    have : NeZero cfg.L := ⟨by omega⟩
    obtain ⟨l, h1, h2, -⟩ := slice_follows (m := cfg.L) T hP hpos hL (Q := 1) (by omega) hf hfs a (by omega) ha
    have hlt : ¬ cfg.nequil ≤ ((a.1 / cfg.L : ℕ) : ℤ) := by
      rw [he]
      have : a.1 / cfg.L < e := Nat.div_lt_of_lt_mul (by rw [Nat.mul_comm]; omega)
      omega
    have ih' : ∀ b : Config N V, (b.1 + k = e * cfg.L ∧ I b.1 b.2.1 b.2.2) → ∃ l, Spread P (run (sliceRun num sys.rng cfg.L) k b) l ∧
      ∀ p ∈ l, (I p.2.1 p.2.2.1 p.2.2.2 ∧ p.2.1 = e * cfg.L) ∧ acc p.2.2.2 = acc b.2.2 := fun b hb => ih b hb.1 hb.2
    choose! q' k1 k2 using ih'
    have hb : ∀ p ∈ l, (p.2.1 + k = e * cfg.L ∧ I p.2.1 p.2.2.1 p.2.2.2) ∧ acc p.2.2.2 = acc a.2.2 := by
      intro p hp
      obtain ⟨b1, b2, b3⟩ := h2 p hp
      rw [if_neg hlt] at b3
      exact ⟨⟨by omega, b2⟩, b3⟩
    refine ⟨_, h1.bind fun p hp => k1 p.2 (hb p hp).1, fun p hp => ?_⟩
    obtain ⟨p1, g1, g2⟩ := List.mem_flatMap.1 hp
    obtain ⟨p2, g3, rfl⟩ := List.mem_map.1 g2
    obtain ⟨c1, c2⟩ := k2 p1.2 (hb p1 g1).1 p2 g3
    exact ⟨c1, c2.trans (hb p1 g1).2⟩

end runs

/-- C113: Long runs in inexact arithmetic.  With computed factors accurate to `ε` and measurements accurate to `η`, a recorded
quantity grows in `n` iterations by `n` times the exact average, up to an error proportional to `n (ε + η)` and deviations of the
order `√n`.  The constant does not depend on the arithmetic, the number of iterations, `ε`, `η` or the initial field: errors
do not accumulate. -/
theorem inexact_long_runs [MeasurableSpace σ] {P : Measure σ} {sys : Sys σ N M} {cfg : Cfg} {q : ℕ → Field cfg.L N → ℝ}
    {qu : Field cfg.L N → ℝ} (hP : sys.rng.Ideal N P) (hpos : ∀ r, 0 < (sys.rng.uniform r).1) (hL : 0 < cfg.L)
    (hne : 0 ≤ cfg.nequil) (hw : ∀ x : Field cfg.L N, sys.weight cfg.L (Fock.extend x) (fun _ _ => 1) ≠ 0)
    (hr : Responsive sys cfg.L) (hq : ∀ l, q l ∈ insensitive sys cfg.L) (hqu : qu ∈ insensitive sys cfg.L) (a : ℝ)
    (ha : ∑ c : Fin (cycleLen cfg * cfg.L), wsum sys cfg.L (gain cfg q qu c.val)
      = a * ((cycleLen cfg * cfg.L : ℕ) * wsum sys cfg.L fun _ => 1)) :
    ∃ C, 0 ≤ C ∧ ∀ (V : Type) (num : Numerics N V) (acc : V → ℝ) (ε η : ℝ) (I : ℕ → (ℕ → Fin N → Fin 2) → V → Prop)
      (J : ℕ → ℕ → (ℕ → Fin N → Fin 2) → V → Prop) (n : ℕ), 0 ≤ ε → 0 ≤ η →
      Tracking sys cfg num ((cfg.nequil.toNat + n) * cfg.L) ε acc q qu η I J →
      ∀ (s : ℕ → Fin N → Fin 2) (v : V), I 0 s v → ∀ (p : Prog) (d : ℝ), 0 < d →
        P.real {r | ¬ ∃ R, simLoop (roughBody num sys.rng cfg.L) (fun _ => false) (cfg.nequil.toNat + n) 0 ⟨r, s, v⟩ p = some R ∧
          |acc R.state.num - acc v - n * (cfg.L * a)| < C * (1 + n * (ε + η)) + d} ≤ C * n * (1 + η) ^ 2 / d ^ 2 := by
  have := hP.prob
  obtain ⟨f, hf, hfs⟩ := hP.shuffle
  have hm0 : cycleLen cfg * cfg.L ≠ 0 := Nat.mul_ne_zero (by unfold cycleLen; omega) (by omega)
  have : NeZero (cycleLen cfg * cfg.L) := ⟨hm0⟩
  have hQ : 0 < cfg.nuneqlt → cycleLen cfg = cfg.nuneqlt.toNat := fun h => by unfold cycleLen; omega
  obtain ⟨e, he⟩ := Int.eq_ofNat_of_zero_le hne
  have hfr := cycle_fresh (m := cycleLen cfg * cfg.L) hP hw hr hL hf
  obtain ⟨g, hg⟩ := chain_poisson (m := cycleLen cfg * cfg.L) hP hw hr hL hf
    (Nat.le_mul_of_pos_left _ (by unfold cycleLen; omega)) (gain cfg q qu) (gain_mem hq hqu) a ha
  obtain ⟨β, hβ0, hβ⟩ := bounded₂ fun y y' : Fin (cycleLen cfg * cfg.L) × Field cfg.L N => gain cfg q qu y.1.val y'.2 - a - g y + g y'
  obtain ⟨γ, hγ0, hγ⟩ := bounded g
  have hL0 : (0 : ℝ) ≤ cfg.L := Nat.cast_nonneg _
  have hN0 : (0 : ℝ) ≤ N := Nat.cast_nonneg _
  have hβN : 0 ≤ 2 * β * N * cfg.L := by positivity
  have hLb : 0 ≤ 4 * cfg.L * (1 + β) ^ 2 := by positivity
  refine ⟨2 * γ + 2 * β * N * cfg.L + cfg.L + 4 * cfg.L * (1 + β) ^ 2, by linarith, ?_⟩
  intro V num acc ε η I J n hε hη T s v h0 p d hd
  let F := sliceRun num sys.rng cfg.L
  have hτ : (cfg.nequil.toNat + n) * cfg.L = e * cfg.L + n * cfg.L := by rw [he, Int.toNat_natCast, Nat.add_mul]
  let I' : ℕ → Config N V → Prop := fun k b => I b.1 b.2.1 b.2.2 ∧ e * cfg.L ≤ b.1 ∧ b.1 + k = e * cfg.L + n * cfg.L
  have ht : Rough.Tracks P F I' (viewOf cfg.L (cycleLen cfg * cfg.L)) (cycleStep sys f cfg.L (cycleLen cfg * cfg.L)) (N * ε)
      (fun b => acc b.2.2) (fun y y' => gain cfg q qu y.1.val y'.2) η := by
    intro k b hb
    have hlt : b.1 < (cfg.nequil.toNat + n) * cfg.L := by rw [hτ]; have := hb.2.2; omega
    refine (slice_follows (m := cycleLen cfg * cfg.L) T hP hpos hL rfl hf hfs b hlt hb.1).mono (fun c hc => ?_) le_rfl
    obtain ⟨c1, c2, c3⟩ := hc
    have hle : cfg.nequil ≤ ((b.1 / cfg.L : ℕ) : ℤ) := by
      rw [he]
      have : e ≤ b.1 / cfg.L := (Nat.le_div_iff_mul_le hL).2 hb.2.1
      exact_mod_cast this
    rw [if_pos hle] at c3
    refine ⟨⟨c2, by have := hb.2.1; omega, by have := hb.2.2; omega⟩, ?_⟩
    show |_ - _ - gain cfg q qu (Fin.ofNat (cycleLen cfg * cfg.L) b.1).val (fieldOf cfg.L c.2.1)| ≤ η
    rw [gain_cycle rfl hQ hL]
    exact c3
  obtain ⟨Z, z1, z2, z3⟩ := long_run_after (F := F) (I := fun b => I b.1 b.2.1 b.2.2 ∧ b.1 = 0)
    (I' := fun b => I b.1 b.2.1 b.2.2 ∧ b.1 = e * cfg.L) (J' := I' 0) (k := e * cfg.L)
    (n := n * cfg.L) (acc := fun b => acc b.2.2) (m := (n * cfg.L : ℕ) * a)
    (fun b hb => equil_spread T hP hpos hL hf hfs he (e * cfg.L) b (by rw [hb.2, Nat.zero_add]) (by omega) hb.1)
    (fun b hb => long_run hfr _ a g hg hβ hγ ht (n * cfg.L) b ⟨hb.1, hb.2.ge, by rw [hb.2]⟩) (0, s, v) ⟨h0, rfl⟩
  have hcheb := chebyshev (S := {r | d ≤ |Z r|}) z1 z2 hd fun r hr => hr
  have hn0 : (0 : ℝ) ≤ n := Nat.cast_nonneg _
  refine (measureReal_mono (fun r hrr => ?_)).trans (hcheb.trans (div_le_div_of_nonneg_right ?_ (by positivity)))
  · by_contra hlt
    have hlt : |Z r| < d := not_le.1 hlt
    refine hrr ?_
    obtain ⟨b, r', k1, -, k3⟩ := z3 r
    rw [← Nat.add_mul] at k1
    have hz : run (sliceRun num sys.rng cfg.L) ((e + n) * cfg.L) (0 * cfg.L, s, v) r = some (b, r') := by
      rw [Nat.zero_mul]
      exact k1
    obtain ⟨p', k4⟩ := run_loop hL (e + n) 0 ⟨r, s, v⟩ p hz
    refine ⟨_, by rw [he]; exact k4, ?_⟩
    have e1 : acc b.2.2 - acc v - n * (cfg.L * a) = (acc b.2.2 - acc v - ((n * cfg.L : ℕ) : ℝ) * a - Z r) + Z r := by
      push_cast
      ring
    show |acc b.2.2 - acc v - n * (cfg.L * a)| < _
    rw [e1]
    refine (abs_add_le _ _).trans_lt (add_lt_add_of_le_of_lt (k3.trans ?_) hlt)
    push_cast
    have t1 : 0 ≤ n * ε := mul_nonneg hn0 hε
    have t2 : 0 ≤ n * η := mul_nonneg hn0 hη
    have e2 : n * cfg.L * (2 * β * (N * ε) + η) + 2 * γ = 2 * β * N * cfg.L * (n * ε) + cfg.L * (n * η) + 2 * γ := by ring
    rw [e2]
    nlinarith [mul_nonneg hβN t2, mul_nonneg hL0 t1, mul_nonneg hγ0 t1, mul_nonneg hγ0 t2, mul_nonneg hLb t1,
      mul_nonneg hLb t2]
  · push_cast
    have b1 : (2 * (β + η)) ^ 2 ≤ 4 * (1 + β) ^ 2 * (1 + η) ^ 2 := by
      have : β + η ≤ (1 + β) * (1 + η) := by nlinarith [mul_nonneg hβ0 hη]
      have := pow_le_pow_left₀ (by linarith) this 2
      nlinarith
    have b2 : 0 ≤ n * (1 + η) ^ 2 := mul_nonneg hn0 (sq_nonneg _)
    nlinarith [mul_le_mul_of_nonneg_left b1 (mul_nonneg hn0 hL0), mul_nonneg hγ0 b2, mul_nonneg hβN b2, mul_nonneg hL0 b2]

/-! ## Instances -/

section instances

variable {sys : Sys σ N M} {cfg : Cfg} {φ : M → ℝ} {q : ℕ → Field cfg.L N → ℝ} {qu : Field cfg.L N → ℝ}

theorem Mid.quotient {E : ℕ → Fin N → ℝ} {L len l : ℕ} {st : State σ N M} (h : Mid sys E L len l st) (hok : sys.Ok len) (hl : l < L)
    (i : Fin N) : sys.weight L (flipField st.s l i) E / sys.weight L st.s E
      = |ratio st.Gu i (sys.hs.delta (st.s l i) (sys.orb i)) * ratio st.Gd i (sys.hs.delta (1 - st.s l i) (sys.orb i))| := by
  have hL : 0 < L := by omega
  have hW : 0 < sys.weight L st.s E := Exact.weight_pos (l := l + 1) ⟨h.up.good, h.down.good⟩ hL
  obtain ⟨eu, ed⟩ := h.accept_eq hok hl i
  rw [div_eq_iff hW.ne', weight_shift L hL _ E (l + 1), weight_shift L hL _ E (l + 1), eu, ed, ← abs_mul]
  congr 1
  ring

/-- the numbers of the model with real numbers belong to the field, before a time slice -/
def ExactBefore (sys : Sys σ N M) (cfg : Cfg) (t : ℕ) (s : ℕ → Fin N → Fin 2) (v : State σ N M) : Prop :=
  Inv sys (fun _ _ => 1) cfg.L cfg.prodBlen (t % cfg.L) { v with s := s }

/-- the same while the sites of a time slice are visited -/
def ExactInside (sys : Sys σ N M) (cfg : Cfg) (t : ℕ) (s : ℕ → Fin N → Fin 2) (v : State σ N M) : Prop :=
  Mid sys (fun _ _ => 1) cfg.L cfg.prodBlen (t % cfg.L) { v with s := s }

theorem exact_update [NeZero N] (hok : sys.Ok cfg.prodBlen) (hL : 0 < cfg.L) (t : ℕ) (s : ℕ → Fin N → Fin 2) (v : State σ N M)
    (i : Fin N) (h : ExactInside sys cfg t s v) (h0 : 0 < (exactNumerics sys cfg).factor s (t % cfg.L) v i) :
    ExactInside sys cfg t (flipField s (t % cfg.L) i) ((exactNumerics sys cfg).update s (t % cfg.L) v i) := by
  have hl := Nat.mod_lt t hL
  have hne := abs_pos.1 h0
  constructor
  · have e := fieldB_flip sys _ s (fun _ _ => 1) (t % cfg.L) i _ ((hok.hs i).flipUp (s (t % cfg.L) i))
    have k := h.up.apply hl i _ (left_ne_zero_of_mul hne)
    show SpinMid (sys.fieldB sys.hs.expVu (flipField s (t % cfg.L) i) fun _ _ => 1) _ _ _ _ _
    rw [e]
    exact k
  · have e := fieldB_flip sys _ s (fun _ _ => 1) (t % cfg.L) i _ ((hok.hs i).flipDown (s (t % cfg.L) i))
    have k := h.down.apply hl i _ (right_ne_zero_of_mul hne)
    show SpinMid (sys.fieldB sys.hs.expVd (flipField s (t % cfg.L) i) fun _ _ => 1) _ _ _ _ _
    rw [e]
    exact k

theorem exact_finish [NeZero N] (hok : sys.Ok cfg.prodBlen) (hL : 0 < cfg.L) (hadd : Adds sys cfg.L cfg.prodBlen φ q qu)
    (hme : ∀ gu gd m, sys.meas.eq gu gd m ≠ none)
    (hmu : 0 < cfg.nuneqlt → ∀ st : State σ N M, Inv sys (fun _ _ => 1) cfg.L cfg.prodBlen 0 st →
      sys.meas.uneq (st.Gu.sgndet * st.Gd.sgndet) st.tsmU st.tsmD st.meas ≠ none)
    (t : ℕ) (s : ℕ → Fin N → Fin 2) (v : State σ N M) (h : ExactInside sys cfg t s v) :
    ∃ v', endSlice (exactNumerics sys cfg) cfg.L t s v = some v' ∧ ExactBefore sys cfg (t + 1) s v' ∧
      φ v'.meas = φ v.meas + if cfg.nequil ≤ ((t / cfg.L : ℕ) : ℤ) then gain cfg q qu t (fieldOf cfg.L s) else 0 := by
  classical
  have hl := Nat.mod_lt t hL
  have i1 := Mid.updateB (st := { v with s := s }) h hok
  generalize hst2 : updateB sys (t % cfg.L) { v with s := s } = st2 at i1
  have hm2 : st2.meas = v.meas := by rw [← hst2]; rfl
  have hs2 : st2.s = s := by rw [← hst2]; rfl
  have e2 : maybeRecompute sys (t % cfg.L) st2 = some st2 := by
    unfold maybeRecompute
    split
    · rename_i hw
      exact i1.recompute_eq (hok.dvd.trans (Nat.dvd_of_mod_eq_zero hw))
    · rfl
  have hdue := due_iff cfg ((t / cfg.L : ℕ) : ℤ) (t % cfg.L)
  obtain ⟨st3, e3, i3, s3, m3⟩ : ∃ st3, measureEq sys (effNeqlt cfg ((t / cfg.L : ℕ) : ℤ)) (t % cfg.L) st2 = some st3 ∧
      Inv sys (fun _ _ => 1) cfg.L cfg.prodBlen (t % cfg.L + 1) st3 ∧ st3.s = s ∧
      φ st3.meas = φ v.meas + if cfg.nequil ≤ ((t / cfg.L : ℕ) : ℤ) ∧ 0 < cfg.neqlt ∧ cfg.neqlt ∣ ((t % cfg.L : ℕ) : ℤ) + 1
        then q (t % cfg.L) (fieldOf cfg.L s) else 0 := by
    unfold measureEq
    split
    · rename_i hc
      obtain ⟨m, hm⟩ := Option.ne_none_iff_exists'.1 (hme st2.Gu st2.Gd st2.meas)
      rw [hm]
      refine ⟨_, rfl, ⟨i1.up, i1.down⟩, hs2, ?_⟩
      have := hadd.eq st2.s (t % cfg.L) st2.Gu st2.Gd st2.meas m hl ⟨i1.up.good, i1.down.good⟩ hm
      rw [if_pos (hdue.1 hc), ← hm2, ← hs2]
      exact this
    · rename_i hc
      refine ⟨st2, rfl, i1, hs2, ?_⟩
      rw [if_neg fun h => hc (hdue.2 h), add_zero, hm2]
  have e4 : (exactNumerics sys cfg).finish ((t / cfg.L : ℕ) : ℤ) s (t % cfg.L) v = some st3 := by
    show (maybeRecompute sys (t % cfg.L) (updateB sys (t % cfg.L) { v with s := s })).bind _ = _
    rw [hst2, e2]
    exact e3
  unfold endSlice
  rw [e4]
  simp only [Option.bind_some]
  by_cases hlast : t % cfg.L + 1 = cfg.L
  · rw [if_pos hlast]
    have i4 : Inv sys (fun _ _ => 1) cfg.L cfg.prodBlen 0 st3 := by
      rw [hlast] at i3
      exact ⟨i3.up.next, i3.down.next⟩
    have hnext : (t + 1) % cfg.L = 0 := by
      rw [← Nat.mod_add_mod, hlast, Nat.mod_self]
    have est : ({ st3 with s := s } : State σ N M) = st3 := by rw [← s3]
    show ∃ v', measureUneq sys cfg ((t / cfg.L : ℕ) : ℤ) { st3 with s := s } = some v' ∧ _
    rw [est]
    unfold measureUneq
    split
    · rename_i hc
      obtain ⟨m, hm⟩ := Option.ne_none_iff_exists'.1 (hmu hc.2.1 st3 i4)
      rw [hm]
      refine ⟨_, rfl, ?_, ?_⟩
      · unfold ExactBefore
        rw [hnext]
        have i4u := i4.up
        have i4d := i4.down
        rw [s3] at i4u i4d
        exact ⟨i4u, i4d⟩
      · have := hadd.uneq st3 m i4 hm
        show φ m = _
        rw [this, m3, s3, if_pos hc.1]
        unfold gain
        have hd : cfg.nuneqlt ∣ ((t / cfg.L : ℕ) : ℤ) := Int.dvd_of_tmod_eq_zero hc.2.2
        rw [if_pos (⟨hlast, hc.2.1, hd⟩ : t % cfg.L + 1 = cfg.L ∧ 0 < cfg.nuneqlt ∧ cfg.nuneqlt ∣ ((t / cfg.L : ℕ) : ℤ)), ← add_assoc]
        congr 2
        exact if_congr (and_iff_right hc.1) rfl rfl
    · rename_i hc
      refine ⟨st3, rfl, ?_, ?_⟩
      · unfold ExactBefore
        rw [hnext, est]
        exact i4
      · rw [m3]
        congr 1
        by_cases hn : cfg.nequil ≤ ((t / cfg.L : ℕ) : ℤ)
        · rw [if_pos hn]
          unfold gain
          rw [if_neg (fun h : t % cfg.L + 1 = cfg.L ∧ 0 < cfg.nuneqlt ∧ cfg.nuneqlt ∣ ((t / cfg.L : ℕ) : ℤ) =>
            hc ⟨hn, h.2.1, Int.tmod_eq_zero_of_dvd h.2.2⟩), add_zero]
          exact if_congr (and_iff_right hn) rfl rfl
        · rw [if_neg hn, if_neg fun h => hn h.1]
  · rw [if_neg hlast]
    have hnext : (t + 1) % cfg.L = t % cfg.L + 1 := by
      rw [← Nat.mod_add_mod]
      exact Nat.mod_eq_of_lt (by omega)
    refine ⟨st3, rfl, ?_, ?_⟩
    · unfold ExactBefore
      rw [hnext]
      have i4u := i3.up
      have i4d := i3.down
      rw [s3] at i4u i4d
      exact ⟨i4u, i4d⟩
    · rw [m3]
      congr 1
      by_cases hn : cfg.nequil ≤ ((t / cfg.L : ℕ) : ℤ)
      · rw [if_pos hn]
        unfold gain
        rw [if_neg (fun h : t % cfg.L + 1 = cfg.L ∧ 0 < cfg.nuneqlt ∧ cfg.nuneqlt ∣ ((t / cfg.L : ℕ) : ℤ) => hlast h.1), add_zero]
        exact if_congr (and_iff_right hn) rfl rfl
      · rw [if_neg hn, if_neg fun h => hn h.1]

/-- the operations of the model with real numbers, except that the factor compared with the random number has a relative error
`θ`, which may depend on everything -/
noncomputable def noisyNumerics [NeZero N] (sys : Sys σ N M) (cfg : Cfg)
    (θ : (ℕ → Fin N → Fin 2) → ℕ → State σ N M → Fin N → ℝ) : Numerics N (State σ N M) :=
  { exactNumerics sys cfg with factor := fun s l v i => (exactNumerics sys cfg).factor s l v i * (1 + θ s l v i) }

/-- Relative errors of the factors: `u` is their bound and `w` one of the quotients of weights. -/
theorem noisy_tracking [NeZero N] (hok : sys.Ok cfg.prodBlen) (hL : 0 < cfg.L) (hadd : Adds sys cfg.L cfg.prodBlen φ q qu)
    (hme : ∀ gu gd m, sys.meas.eq gu gd m ≠ none)
    (hmu : 0 < cfg.nuneqlt → ∀ st : State σ N M, Inv sys (fun _ _ => 1) cfg.L cfg.prodBlen 0 st →
      sys.meas.uneq (st.Gu.sgndet * st.Gd.sgndet) st.tsmU st.tsmD st.meas ≠ none)
    {θ : (ℕ → Fin N → Fin 2) → ℕ → State σ N M → Fin N → ℝ} {u w : ℝ} (hu : u < 1) (hθ : ∀ s l v i, |θ s l v i| ≤ u)
    (hw : ∀ (s : ℕ → Fin N → Fin 2) l i, l < cfg.L →
      sys.weight cfg.L (flipField s l i) (fun _ _ => 1) / sys.weight cfg.L s (fun _ _ => 1) ≤ w) {τ : ℕ} :
    Tracking sys cfg (noisyNumerics sys cfg θ) τ (w * u) (fun v => φ v.meas) q qu 0 (ExactBefore sys cfg)
      (fun t _ => ExactInside sys cfg t) where
  wrap t _ s v h := ⟨Inv.wrap (st := { v with s := s }) h (Nat.mod_lt t hL), rfl⟩
  stay t _ k s v h := h
  factor t _ k s v i h := by
    have hq := Mid.quotient (st := { v with s := s }) h hok (Nat.mod_lt t hL) i
    have hle := hw s (t % cfg.L) i (Nat.mod_lt t hL)
    show |(exactNumerics sys cfg).factor s (t % cfg.L) v i * (1 + θ s (t % cfg.L) v i) - _| ≤ _
    have e : (exactNumerics sys cfg).factor s (t % cfg.L) v i
        = sys.weight cfg.L (flipField s (t % cfg.L) i) (fun _ _ => 1) / sys.weight cfg.L s fun _ _ => 1 := hq.symm
    rw [e, mul_add, mul_one, add_sub_cancel_left, abs_mul, abs_of_nonneg (div_nonneg (abs_nonneg _) (abs_nonneg _))]
    refine mul_le_mul hle (hθ _ _ _ _) (abs_nonneg _) ((div_nonneg (abs_nonneg _) (abs_nonneg _)).trans hle)
  update t _ k s v i h h0 := by
    have h1 : 0 < 1 + θ s (t % cfg.L) v i := by linarith [(abs_le.1 (hθ s (t % cfg.L) v i)).1]
    exact ⟨exact_update hok hL t s v i h ((mul_pos_iff_of_pos_right h1).1 h0), rfl⟩
  finish t _ s v h := by
    obtain ⟨v', e1, e2, e3⟩ := exact_finish hok hL hadd hme hmu t s v h
    refine ⟨v', e1, e2, ?_⟩
    split
    · rename_i hn
      rw [if_pos hn] at e3
      rw [e3]
      simp
    · rename_i hn
      rw [if_neg hn] at e3
      rw [e3, add_zero]

/-- the exact operations have no error -/
theorem exact_tracking [NeZero N] (hok : sys.Ok cfg.prodBlen) (hL : 0 < cfg.L) (hadd : Adds sys cfg.L cfg.prodBlen φ q qu)
    (hme : ∀ gu gd m, sys.meas.eq gu gd m ≠ none)
    (hmu : 0 < cfg.nuneqlt → ∀ st : State σ N M, Inv sys (fun _ _ => 1) cfg.L cfg.prodBlen 0 st →
      sys.meas.uneq (st.Gu.sgndet * st.Gd.sgndet) st.tsmU st.tsmD st.meas ≠ none) {τ : ℕ} :
    Tracking sys cfg (exactNumerics sys cfg) τ 0 (fun v => φ v.meas) q qu 0 (ExactBefore sys cfg)
      (fun t _ => ExactInside sys cfg t) where
  wrap t _ s v h := ⟨Inv.wrap (st := { v with s := s }) h (Nat.mod_lt t hL), rfl⟩
  stay t _ k s v h := h
  factor t _ k s v i h := by
    have e : (exactNumerics sys cfg).factor s (t % cfg.L) v i
        = sys.weight cfg.L (flipField s (t % cfg.L) i) (fun _ _ => 1) / sys.weight cfg.L s fun _ _ => 1 :=
      (Mid.quotient (st := { v with s := s }) h hok (Nat.mod_lt t hL) i).symm
    rw [e, sub_self, abs_zero]
  update t _ k s v i h h0 := ⟨exact_update hok hL t s v i h h0, rfl⟩
  finish t _ s v h := by
    obtain ⟨v', e1, e2, e3⟩ := exact_finish hok hL hadd hme hmu t s v h
    refine ⟨v', e1, e2, ?_⟩
    split
    · rename_i hn
      rw [if_pos hn] at e3
      rw [e3]
      simp
    · rename_i hn
      rw [if_neg hn] at e3
      rw [e3, add_zero]

theorem quotient_bounded (sys : Sys σ N M) (L : ℕ) : ∃ w : ℝ, ∀ (s : ℕ → Fin N → Fin 2) l i, l < L →
    sys.weight L (flipField s l i) (fun _ _ => 1) / sys.weight L s (fun _ _ => 1) ≤ w := by
  obtain ⟨B, -, h⟩ := bounded₂ fun x y : Field L N => wt sys L y / wt sys L x
  refine ⟨B, fun s l i hl => ?_⟩
  rw [← quotient_eq hl]
  exact (le_abs_self _).trans (h _ _)

/-- accuracy of the factor from that of the diagonal entries of the Green's functions -/
theorem factor_close {gu gd gu' gd' a b e : ℝ} (hu : |gu' - gu| ≤ e) (hd : |gd' - gd| ≤ e) :
    |(|(1 + (1 - gu') * a) * (1 + (1 - gd') * b)| - |(1 + (1 - gu) * a) * (1 + (1 - gd) * b)|)|
      ≤ (|a| * |1 + (1 - gd) * b| + |b| * |1 + (1 - gu) * a|) * e + |a| * |b| * e ^ 2 := by
  refine (abs_abs_sub_abs_le_abs_sub _ _).trans ?_
  have he : 0 ≤ e := (abs_nonneg _).trans hu
  have e1 : (1 + (1 - gu') * a) * (1 + (1 - gd') * b) - (1 + (1 - gu) * a) * (1 + (1 - gd) * b)
      = -((gu' - gu) * (a * (1 + (1 - gd) * b))) + (-((gd' - gd) * (b * (1 + (1 - gu) * a))) + (gu' - gu) * (gd' - gd) * (a * b)) := by
    ring
  rw [e1]
  refine (abs_add_le _ _).trans ((add_le_add_right (abs_add_le _ _) _).trans ?_)
  rw [abs_neg, abs_neg, abs_mul, abs_mul (gd' - gd), abs_mul (_ * _) (a * b), abs_mul (gu' - gu) (gd' - gd), abs_mul a, abs_mul b, abs_mul a b]
  have k1 := mul_le_mul_of_nonneg_right hu (mul_nonneg (abs_nonneg a) (abs_nonneg (1 + (1 - gd) * b)))
  have k2 := mul_le_mul_of_nonneg_right hd (mul_nonneg (abs_nonneg b) (abs_nonneg (1 + (1 - gu) * a)))
  have k3 := mul_le_mul_of_nonneg_right (mul_le_mul hu hd (abs_nonneg _) he) (mul_nonneg (abs_nonneg a) (abs_nonneg b))
  nlinarith

end instances

end Verif.MonteCarlo
