import Verif.Lemmas.MeasMap

/-!
# Simulations with related measurements

If the measurements of one system are defined whenever those of another one are, and keep a relation
between their data, then so do whole simulations; everything else is the same in both.
-/

set_option autoImplicit false

namespace Verif.MonteCarlo

open Matrix Verif.Lapack Verif.TimeFlow Verif.Greens Verif.Stratonovich

variable {σ : Type} {N : ℕ} {M M' : Type}

/-- `f` respects the measurement functions where they are defined -/
structure Meas.Fwd (R : Meas N M) (R' : Meas N M') (f : M → M') : Prop where
  eq : ∀ gu gd m m1, R.eq gu gd m = some m1 → R'.eq gu gd (f m) = some (f m1)
  phonon : ∀ gu gd l X m m1, R.phonon gu gd l X m = some m1 → R'.phonon gu gd l X (f m) = some (f m1)
  uneq : ∀ sg tu td m m1, R.uneq sg tu td m = some m1 → R'.uneq sg tu td (f m) = some (f m1)

section fwd

variable {sys : Sys σ N M} {R' : Meas N M'} {f : M → M'} (hf : sys.meas.Fwd R' f) {cfg : Cfg}
include hf

theorem measureEq_fwd (neqlt l : ℕ) {st st' : State σ N M} (h : measureEq sys neqlt l st = some st') :
    measureEq (sys.withMeas R') neqlt l (st.mapMeas f) = some (st'.mapMeas f) := by
  unfold measureEq at h ⊢
  split at h
  · rename_i hc
    simp only [Option.bind_eq_bind] at h ⊢
    obtain ⟨m, e, h⟩ := Option.bind_eq_some_iff.1 h
    rw [if_pos hc, show (sys.withMeas R').meas.eq (st.mapMeas f).Gu (st.mapMeas f).Gd (st.mapMeas f).meas
      = some (f m) from hf.eq _ _ _ _ e, ← Option.some.inj h]
    rfl
  · rename_i hc
    rw [if_neg hc, ← Option.some.inj h]

theorem measureUneq_fwd (it : ℤ) {st st' : State σ N M} (h : measureUneq sys cfg it st = some st') :
    measureUneq (sys.withMeas R') cfg it (st.mapMeas f) = some (st'.mapMeas f) := by
  unfold measureUneq at h ⊢
  split at h
  · rename_i hc
    simp only [Option.bind_eq_bind] at h ⊢
    obtain ⟨m, e, h⟩ := Option.bind_eq_some_iff.1 h
    rw [if_pos hc, show (sys.withMeas R').meas.uneq ((st.mapMeas f).Gu.sgndet * (st.mapMeas f).Gd.sgndet)
      (st.mapMeas f).tsmU (st.mapMeas f).tsmD (st.mapMeas f).meas = some (f m) from hf.uneq _ _ _ _ _ e,
      ← Option.some.inj h]
    rfl
  · rename_i hc
    rw [if_neg hc, ← Option.some.inj h]

theorem measurePh_fwd (neqlt l : ℕ) {st st' : State σ N M} (h : measurePh sys neqlt l st = some st') :
    measurePh (sys.withMeas R') neqlt l (st.mapMeas f) = some (st'.mapMeas f) := by
  unfold measurePh at h ⊢
  split at h
  · rename_i hc
    simp only [Option.bind_eq_bind] at h ⊢
    obtain ⟨m, e, h⟩ := Option.bind_eq_some_iff.1 h
    obtain ⟨m2, e2, h⟩ := Option.bind_eq_some_iff.1 h
    rw [if_pos hc, show (sys.withMeas R').meas.eq (st.mapMeas f).Gu (st.mapMeas f).Gd (st.mapMeas f).meas
      = some (f m) from hf.eq _ _ _ _ e, Option.bind_some,
      show (sys.withMeas R').meas.phonon (st.mapMeas f).Gu (st.mapMeas f).Gd l (st.mapMeas f).X (f m)
      = some (f m2) from hf.phonon _ _ _ _ _ _ e2, ← Option.some.inj h]
    rfl
  · rename_i hc
    rw [if_neg hc, ← Option.some.inj h]

theorem hsTimeSlice_fwd [NeZero N] (neqlt l : ℕ) {st st' : State σ N M}
    (h : hsTimeSlice sys neqlt st l = some st') :
    hsTimeSlice (sys.withMeas R') neqlt (st.mapMeas f) l = some (st'.mapMeas f) := by
  unfold hsTimeSlice at h ⊢
  simp only [Option.bind_eq_bind] at h ⊢
  obtain ⟨st1, e1, h⟩ := Option.bind_eq_some_iff.1 h
  obtain ⟨st2, e2, h⟩ := Option.bind_eq_some_iff.1 h
  rw [show wrap l (st.mapMeas f) = (wrap l st).mapMeas f from rfl, hsSlice_mapMeas, e1]
  simp only [Option.map_some, Option.bind_some]
  rw [show updateB (sys.withMeas R') l (st1.mapMeas f) = (updateB sys l st1).mapMeas f from rfl,
    maybeRecompute_mapMeas, e2]
  simp only [Option.map_some, Option.bind_some]
  exact measureEq_fwd hf neqlt l h

theorem dqmcIteration_fwd [NeZero N] (neqlt : ℕ) {st st' : State σ N M}
    (h : dqmcIteration sys neqlt st = some st') :
    dqmcIteration (sys.withMeas R') neqlt (st.mapMeas f) = some (st'.mapMeas f) := by
  unfold dqmcIteration at h ⊢
  rw [show (st.mapMeas f).tsmU.L = st.tsmU.L from rfl]
  generalize List.range st.tsmU.L = ls at h ⊢
  induction ls generalizing st with
  | nil => rw [← Option.some.inj h]; rfl
  | cons l ls ih =>
    rw [List.foldlM_cons] at h ⊢
    obtain ⟨st1, e1, h⟩ := Option.bind_eq_some_iff.1 h
    rw [hsTimeSlice_fwd hf neqlt l e1]
    exact ih h

theorem phTimeSlice_fwd [NeZero N] (ph : Phonon) (noHS : Bool) (neqlt l : ℕ) {st st' : State σ N M}
    (h : phTimeSlice sys ph noHS neqlt st l = some st') :
    phTimeSlice (sys.withMeas R') ph noHS neqlt (st.mapMeas f) l = some (st'.mapMeas f) := by
  have htail : ∀ t : State σ N M, ((localSlice sys ph l t).bind fun st =>
        (maybeRecompute sys l (updatePhB sys l st)).bind fun st => measurePh sys neqlt l st) = some st' →
      ((localSlice (sys.withMeas R') ph l (t.mapMeas f)).bind fun st =>
        (maybeRecompute (sys.withMeas R') l (updatePhB (sys.withMeas R') l st)).bind fun st =>
          measurePh (sys.withMeas R') neqlt l st) = some (st'.mapMeas f) := by
    intro t h
    obtain ⟨st2, e2, h⟩ := Option.bind_eq_some_iff.1 h
    obtain ⟨st3, e3, h⟩ := Option.bind_eq_some_iff.1 h
    rw [localSlice_mapMeas, e2]
    simp only [Option.map_some, Option.bind_some]
    rw [show updatePhB (sys.withMeas R') l (st2.mapMeas f) = (updatePhB sys l st2).mapMeas f from rfl,
      maybeRecompute_mapMeas, e3]
    simp only [Option.map_some, Option.bind_some]
    exact measurePh_fwd hf neqlt l h
  unfold phTimeSlice at h ⊢
  simp only [Option.bind_eq_bind] at h ⊢
  rw [show wrap l (st.mapMeas f) = (wrap l st).mapMeas f from rfl]
  cases noHS with
  | true =>
    simp only [if_true, Option.bind_some] at h ⊢
    exact htail _ h
  | false =>
    simp only [Bool.false_eq_true, if_false] at h ⊢
    obtain ⟨st1, e1, h⟩ := Option.bind_eq_some_iff.1 h
    rw [hsSlice_mapMeas, e1]
    simp only [Option.map_some, Option.bind_some]
    exact htail _ h

theorem phIteration_fwd [NeZero N] (ph : Phonon) (noHS : Bool) (neqlt : ℕ) {st st' : State σ N M}
    (h : phIteration sys ph noHS neqlt st = some st') :
    phIteration (sys.withMeas R') ph noHS neqlt (st.mapMeas f) = some (st'.mapMeas f) := by
  have hfold : ∀ (ls : List ℕ) (st st' : State σ N M),
      ls.foldlM (phTimeSlice sys ph noHS neqlt) st = some st' →
      ls.foldlM (phTimeSlice (sys.withMeas R') ph noHS neqlt) (st.mapMeas f) = some (st'.mapMeas f) := by
    intro ls
    induction ls with
    | nil => intro st st' h; rw [← Option.some.inj h]; rfl
    | cons l ls ih =>
      intro st st' h
      rw [List.foldlM_cons] at h ⊢
      obtain ⟨st1, e1, h⟩ := Option.bind_eq_some_iff.1 h
      rw [phTimeSlice_fwd hf ph noHS neqlt l e1]
      exact ih _ _ h
  unfold phIteration at h ⊢
  simp only [Option.bind_eq_bind] at h ⊢
  obtain ⟨st1, e1, h⟩ := Option.bind_eq_some_iff.1 h
  obtain ⟨st2, e2, h⟩ := Option.bind_eq_some_iff.1 h
  rw [show (st.mapMeas f).tsmU.L = st.tsmU.L from rfl, hfold _ _ _ e1, Option.bind_some,
    iterateM_map _ _ _ (blockUpdate_mapMeas ph), e2]
  simp only [Option.map_some, Option.bind_some]
  rw [iterateM_map _ _ _ (flipUpdate_mapMeas ph), h]
  rfl

theorem simBody_fwd [NeZero N] (ph : Phonon) (it : ℤ) {st st' : State σ N M}
    (h : simBody sys ph cfg it st = some st') :
    simBody (sys.withMeas R') ph cfg it (st.mapMeas f) = some (st'.mapMeas f) := by
  unfold simBody at h ⊢
  simp only [Option.bind_eq_bind] at h ⊢
  cases hc : cfg.usePhonons with
  | true =>
    simp only [hc, if_true] at h ⊢
    obtain ⟨st1, e1, h⟩ := Option.bind_eq_some_iff.1 h
    exact Option.bind_eq_some_iff.2 ⟨st1.mapMeas f, phIteration_fwd hf ph _ _ e1, measureUneq_fwd hf it h⟩
  | false =>
    simp only [hc, Bool.false_eq_true, if_false] at h ⊢
    obtain ⟨st1, e1, h⟩ := Option.bind_eq_some_iff.1 h
    exact Option.bind_eq_some_iff.2 ⟨st1.mapMeas f, dqmcIteration_fwd hf _ e1, measureUneq_fwd hf it h⟩

theorem simLoop_fwd [NeZero N] (ph : Phonon) (stop : ℤ → Bool) (k : ℕ) (it : ℤ) (st : State σ N M)
    (p : Progress.Prog) {r : LoopResult (State σ N M)}
    (h : simLoop (simBody sys ph cfg) stop k it st p = some r) :
    simLoop (simBody (sys.withMeas R') ph cfg) stop k it (st.mapMeas f) p
      = some ⟨r.iteration, r.state.mapMeas f, r.prog, r.broke⟩ := by
  induction k generalizing it st p with
  | zero => rw [← Option.some.inj h]; rfl
  | succ k ih =>
    unfold simLoop at h ⊢
    split at h
    · rename_i hc
      rw [if_pos hc, ← Option.some.inj h]
    · rename_i hc
      rw [if_neg hc]
      obtain ⟨st1, e1, h⟩ := Option.bind_eq_some_iff.1 h
      simp only [Option.bind_eq_bind]
      rw [simBody_fwd hf ph it e1]
      exact ih _ _ _ h

theorem simulate_fwd [NeZero N] (ph : Phonon) (stop : ℤ → Bool) (it : ℤ) (rng : σ)
    (s : ℕ → Fin N → Fin 2) (X expX : ℕ → Fin N → ℝ) (cnt : Counters) (meas : M)
    {r : LoopResult (State σ N M)} (h : simulate sys ph cfg stop it rng s X expX cnt meas = some r) :
    simulate (sys.withMeas R') ph cfg stop it rng s X expX cnt (f meas)
      = some ⟨r.iteration, r.state.mapMeas f, r.prog, r.broke⟩ := by
  unfold simulate at h ⊢
  simp only [Option.bind_eq_bind] at h ⊢
  obtain ⟨st, e, h⟩ := Option.bind_eq_some_iff.1 h
  rw [startState_mapMeas, e]
  exact simLoop_fwd hf ph stop _ _ _ _ h

end fwd

/-! ## Relations -/

/-- the measurements `R'` are defined whenever `R` are, and keep the relation -/
structure Meas.Follows (R : Meas N M) (R' : Meas N M') (Rel : M → M' → Prop) : Prop where
  eq : ∀ gu gd m m' m1, Rel m m' → R.eq gu gd m = some m1 → ∃ m1', R'.eq gu gd m' = some m1' ∧ Rel m1 m1'
  phonon : ∀ gu gd l X m m' m1, Rel m m' → R.phonon gu gd l X m = some m1 →
    ∃ m1', R'.phonon gu gd l X m' = some m1' ∧ Rel m1 m1'
  uneq : ∀ sg tu td m m' m1, Rel m m' → R.uneq sg tu td m = some m1 →
    ∃ m1', R'.uneq sg tu td m' = some m1' ∧ Rel m1 m1'

open Classical in
/-- pairs of related data, measured by both -/
noncomputable def pairUp {Rel : M → M' → Prop} (g : M → Option M) (g' : M' → Option M')
    (h : ∀ m m' m1, Rel m m' → g m = some m1 → ∃ m1', g' m' = some m1' ∧ Rel m1 m1')
    (x : {x : M × M' // Rel x.1 x.2}) : Option {x : M × M' // Rel x.1 x.2} :=
  if e : ∃ m1, g x.1.1 = some m1 then
    some ⟨(e.choose, (h _ _ _ x.2 e.choose_spec).choose), (h _ _ _ x.2 e.choose_spec).choose_spec.2⟩
  else none

theorem pairUp_fst {Rel : M → M' → Prop} {g : M → Option M} {g' : M' → Option M'}
    (h : ∀ m m' m1, Rel m m' → g m = some m1 → ∃ m1', g' m' = some m1' ∧ Rel m1 m1')
    (x : {x : M × M' // Rel x.1 x.2}) : g x.1.1 = (pairUp g g' h x).map fun y => y.1.1 := by
  unfold pairUp
  split
  · rename_i e
    exact e.choose_spec
  · rename_i e
    push Not at e
    exact Option.eq_none_iff_forall_ne_some.2 e

theorem pairUp_snd {Rel : M → M' → Prop} {g : M → Option M} {g' : M' → Option M'}
    (h : ∀ m m' m1, Rel m m' → g m = some m1 → ∃ m1', g' m' = some m1' ∧ Rel m1 m1')
    (x y : {x : M × M' // Rel x.1 x.2}) (e : pairUp g g' h x = some y) : g' x.1.2 = some y.1.2 := by
  unfold pairUp at e
  split at e
  · rename_i e'
    rw [← Option.some.inj e]
    exact (h _ _ _ x.2 e'.choose_spec).choose_spec.1
  · cases e

/-- If a simulation is defined, the same simulation with measurements that follow those of the first is
defined too. It ends at the same iteration with the same fields, matrices, Green's functions, random
numbers and counters, and with related data. -/
theorem simulate_follows [NeZero N] {sys : Sys σ N M} {R' : Meas N M'} {Rel : M → M' → Prop}
    (hf : sys.meas.Follows R' Rel) (ph : Phonon) (cfg : Cfg) (stop : ℤ → Bool) (it : ℤ) (rng : σ)
    (s : ℕ → Fin N → Fin 2) (X expX : ℕ → Fin N → ℝ) (cnt : Counters) (meas : M) (meas' : M')
    (hr : Rel meas meas') {r : LoopResult (State σ N M)}
    (h : simulate sys ph cfg stop it rng s X expX cnt meas = some r) :
    ∃ m', Rel r.state.meas m' ∧ simulate (sys.withMeas R') ph cfg stop it rng s X expX cnt meas'
      = some ⟨r.iteration, r.state.mapMeas fun _ => m', r.prog, r.broke⟩ := by
  let Q : Meas N {x : M × M' // Rel x.1 x.2} :=
    { eq := fun gu gd => pairUp (sys.meas.eq gu gd) (R'.eq gu gd) (hf.eq gu gd)
      phonon := fun gu gd l X => pairUp (sys.meas.phonon gu gd l X) (R'.phonon gu gd l X) (hf.phonon gu gd l X)
      uneq := fun sg tu td => pairUp (sys.meas.uneq sg tu td) (R'.uneq sg tu td) (hf.uneq sg tu td) }
  have h1 : (sys.withMeas Q).meas.Maps sys.meas fun y => y.1.1 :=
    ⟨fun gu gd x => pairUp_fst (hf.eq gu gd) x, fun gu gd l X x => pairUp_fst (hf.phonon gu gd l X) x,
      fun sg tu td x => pairUp_fst (hf.uneq sg tu td) x⟩
  have h2 : (sys.withMeas Q).meas.Fwd R' fun y => y.1.2 :=
    ⟨fun gu gd x y e => pairUp_snd (hf.eq gu gd) x y e, fun gu gd l X x y e => pairUp_snd (hf.phonon gu gd l X) x y e,
      fun sg tu td x y e => pairUp_snd (hf.uneq sg tu td) x y e⟩
  have h3 := simulate_mapMeas h1 cfg ph stop it rng s X expX cnt ⟨(meas, meas'), hr⟩
  rw [show (sys.withMeas Q).withMeas sys.meas = sys from rfl, h] at h3
  obtain ⟨q, hq, e⟩ := Option.map_eq_some_iff.1 h3.symm
  have h4 := simulate_fwd h2 ph stop it rng s X expX cnt ⟨(meas, meas'), hr⟩ hq
  subst e
  exact ⟨q.state.meas.1.2, q.state.meas.2, h4⟩

end Verif.MonteCarlo
