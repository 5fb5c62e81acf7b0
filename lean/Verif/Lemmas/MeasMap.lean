import Verif.Lemmas.RngMap

/-!
# A simulation does not look at the sums of the measurements

A map between measurement data which respects the measurement functions carries a simulation to a
simulation.  Applied to the addition of constants this shows that the sums at the end are those at the
beginning plus terms which do not depend on them.
-/

set_option autoImplicit false

namespace Verif.MonteCarlo

open Matrix Verif.Lapack Verif.TimeFlow Verif.Greens Verif.Stratonovich

variable {σ : Type} {N : ℕ} {M M' : Type}

/-- `f` respects the measurement functions -/
structure Meas.Maps (R : Meas N M) (R' : Meas N M') (f : M → M') : Prop where
  eq : ∀ gu gd m, R'.eq gu gd (f m) = (R.eq gu gd m).map f
  phonon : ∀ gu gd l X m, R'.phonon gu gd l X (f m) = (R.phonon gu gd l X m).map f
  uneq : ∀ sg tu td m, R'.uneq sg tu td (f m) = (R.uneq sg tu td m).map f

/-- the same system with other measurements -/
def Sys.withMeas (sys : Sys σ N M) (R' : Meas N M') : Sys σ N M' :=
  { rng := sys.rng, lp := sys.lp, Ncell := sys.Ncell, expK := sys.expK, invExpK := sys.invExpK,
    hs := sys.hs, nwraps := sys.nwraps, meas := R', W0 := sys.W0, junk := sys.junk }

/-- change the measurement data -/
def State.mapMeas (f : M → M') (st : State σ N M) : State σ N M' :=
  { rng := st.rng, s := st.s, X := st.X, expX := st.expX, tsmU := st.tsmU, tsmD := st.tsmD,
    Gu := st.Gu, Gd := st.Gd, cnt := st.cnt, meas := f st.meas }

variable {sys : Sys σ N M} {R' : Meas N M'} {f : M → M'} (hf : sys.meas.Maps R' f) (cfg : Cfg)

include hf

omit hf in
theorem hsSite_mapMeas (l : ℕ) (st : State σ N M) (i : Fin N) :
    hsSite (sys.withMeas R') l (st.mapMeas f) i = (hsSite sys l st i).mapMeas f := by
  unfold hsSite
  simp only
  have e : ∀ (c : Prop) [Decidable c] (a b : State σ N M),
      (if c then a else b).mapMeas f = if c then a.mapMeas f else b.mapMeas f := by
    intro c _ a b
    split <;> rfl
  rw [e]
  rfl

omit hf in
theorem hsSlice_mapMeas (l : ℕ) (st : State σ N M) :
    hsSlice (sys.withMeas R') l (st.mapMeas f) = (hsSlice sys l st).map (State.mapMeas f) := by
  unfold hsSlice
  simp only [Option.bind_eq_bind]
  show (sys.rng.shuffle N st.rng).bind _ = _
  cases h : sys.rng.shuffle N st.rng with
  | none => rfl
  | some r =>
    have key : ∀ (l' : List (Fin N)) (t : State σ N M),
        l'.foldl (hsSite (sys.withMeas R') l) (t.mapMeas f) = (l'.foldl (hsSite sys l) t).mapMeas f := by
      intro l'
      induction l' with
      | nil => intro t; rfl
      | cons i l' ih =>
        intro t
        rw [List.foldl_cons, List.foldl_cons, hsSite_mapMeas, ih]
    exact congrArg some (key r.1 { st with rng := r.2 })

omit hf in
theorem maybeRecompute_mapMeas [NeZero N] (l : ℕ) (st : State σ N M) :
    maybeRecompute (sys.withMeas R') l (st.mapMeas f) =
      (maybeRecompute sys l st).map (State.mapMeas f) := by
  unfold maybeRecompute
  by_cases h : (l + 1) % sys.nwraps = 0
  · rw [if_pos h, if_pos (show (l + 1) % (sys.withMeas R').nwraps = 0 from h)]
    unfold recompute
    simp only [Option.bind_eq_bind]
    show (greenConstruct sys.lp st.tsmU ((l + 1) % st.tsmU.L)).bind _ = _
    cases greenConstruct sys.lp st.tsmU ((l + 1) % st.tsmU.L) with
    | none => rfl
    | some gu =>
      simp only [Option.bind_some]
      show (greenConstruct sys.lp st.tsmD ((l + 1) % st.tsmU.L)).bind _ = _
      cases greenConstruct sys.lp st.tsmD ((l + 1) % st.tsmU.L) <;> rfl
  · rw [if_neg h, if_neg (show ¬ (l + 1) % (sys.withMeas R').nwraps = 0 from h)]
    rfl

theorem measureEq_mapMeas (neqlt l : ℕ) (st : State σ N M) :
    measureEq (sys.withMeas R') neqlt l (st.mapMeas f) =
      (measureEq sys neqlt l st).map (State.mapMeas f) := by
  unfold measureEq
  split
  · simp only [Option.bind_eq_bind]
    show (R'.eq st.Gu st.Gd (f st.meas)).bind _ = _
    rw [hf.eq]
    cases sys.meas.eq st.Gu st.Gd st.meas <;> rfl
  · rfl

theorem measureUneq_mapMeas (it : ℤ) (st : State σ N M) :
    measureUneq (sys.withMeas R') cfg it (st.mapMeas f) =
      (measureUneq sys cfg it st).map (State.mapMeas f) := by
  unfold measureUneq
  split
  · simp only [Option.bind_eq_bind]
    show (R'.uneq (st.Gu.sgndet * st.Gd.sgndet) st.tsmU st.tsmD (f st.meas)).bind _ = _
    rw [hf.uneq]
    cases sys.meas.uneq (st.Gu.sgndet * st.Gd.sgndet) st.tsmU st.tsmD st.meas <;> rfl
  · rfl

theorem hsTimeSlice_mapMeas [NeZero N] (neqlt l : ℕ) (st : State σ N M) :
    hsTimeSlice (sys.withMeas R') neqlt (st.mapMeas f) l =
      (hsTimeSlice sys neqlt st l).map (State.mapMeas f) := by
  unfold hsTimeSlice
  simp only [Option.bind_eq_bind]
  rw [show wrap l (st.mapMeas f) = (wrap l st).mapMeas f from rfl, hsSlice_mapMeas]
  cases hsSlice sys l (wrap l st) with
  | none => rfl
  | some st1 =>
    simp only [Option.map_some, Option.bind_some]
    rw [show updateB (sys.withMeas R') l (st1.mapMeas f) = (updateB sys l st1).mapMeas f from rfl,
      maybeRecompute_mapMeas]
    cases maybeRecompute sys l (updateB sys l st1) with
    | none => rfl
    | some st2 =>
      simp only [Option.map_some, Option.bind_some]
      exact measureEq_mapMeas hf neqlt l st2

theorem dqmcIteration_mapMeas [NeZero N] (neqlt : ℕ) (st : State σ N M) :
    dqmcIteration (sys.withMeas R') neqlt (st.mapMeas f) =
      (dqmcIteration sys neqlt st).map (State.mapMeas f) := by
  unfold dqmcIteration
  show (List.range st.tsmU.L).foldlM _ _ = _
  generalize List.range st.tsmU.L = ls
  induction ls generalizing st with
  | nil => rfl
  | cons l ls ih =>
    rw [List.foldlM_cons, List.foldlM_cons, hsTimeSlice_mapMeas hf]
    cases hsTimeSlice sys neqlt st l with
    | none => rfl
    | some st1 => exact ih st1

omit hf in
theorem mapMeas_ite (c : Prop) [Decidable c] (a b : State σ N M) :
    (if c then a else b).mapMeas f = if c then a.mapMeas f else b.mapMeas f := by
  split <;> rfl

omit hf in
theorem localSite_mapMeas (ph : Phonon) (l : ℕ) (st : State σ N M) (i : Fin N) :
    localSite (sys.withMeas R') ph l (st.mapMeas f) i = (localSite sys ph l st i).mapMeas f := by
  unfold localSite
  simp only
  rw [mapMeas_ite, mapMeas_ite]
  rfl

omit hf in
theorem localSlice_mapMeas (ph : Phonon) (l : ℕ) (st : State σ N M) :
    localSlice (sys.withMeas R') ph l (st.mapMeas f) = (localSlice sys ph l st).map (State.mapMeas f) := by
  unfold localSlice
  simp only [Option.bind_eq_bind]
  show (sys.rng.shuffle N st.rng).bind _ = _
  cases h : sys.rng.shuffle N st.rng with
  | none => rfl
  | some r =>
    simp only [Option.bind_some]
    cases localOrder r.1 ph.nLocal with
    | none => rfl
    | some o =>
      have key : ∀ (l' : List (Fin N)) (t : State σ N M),
          l'.foldl (localSite (sys.withMeas R') ph l) (t.mapMeas f) =
            (l'.foldl (localSite sys ph l) t).mapMeas f := by
        intro l'
        induction l' with
        | nil => intro t; rfl
        | cons i l' ih =>
          intro t
          rw [List.foldl_cons, List.foldl_cons, localSite_mapMeas, ih]
      exact congrArg some (key o { st with rng := r.2 })

theorem measurePh_mapMeas (neqlt l : ℕ) (st : State σ N M) :
    measurePh (sys.withMeas R') neqlt l (st.mapMeas f) =
      (measurePh sys neqlt l st).map (State.mapMeas f) := by
  unfold measurePh
  split
  · simp only [Option.bind_eq_bind]
    show (R'.eq st.Gu st.Gd (f st.meas)).bind _ = _
    rw [hf.eq]
    cases sys.meas.eq st.Gu st.Gd st.meas with
    | none => rfl
    | some m =>
      simp only [Option.map_some, Option.bind_some]
      show (R'.phonon st.Gu st.Gd l st.X (f m)).bind _ = _
      rw [hf.phonon]
      cases sys.meas.phonon st.Gu st.Gd l st.X m <;> rfl
  · rfl

theorem phTimeSlice_mapMeas [NeZero N] (ph : Phonon) (noHS : Bool) (neqlt l : ℕ) (st : State σ N M) :
    phTimeSlice (sys.withMeas R') ph noHS neqlt (st.mapMeas f) l =
      (phTimeSlice sys ph noHS neqlt st l).map (State.mapMeas f) := by
  have htail : ∀ t : State σ N M,
      ((localSlice (sys.withMeas R') ph l (t.mapMeas f)).bind fun st =>
        (maybeRecompute (sys.withMeas R') l (updatePhB (sys.withMeas R') l st)).bind fun st =>
          measurePh (sys.withMeas R') neqlt l st) =
      ((localSlice sys ph l t).bind fun st => (maybeRecompute sys l (updatePhB sys l st)).bind fun st =>
          measurePh sys neqlt l st).map (State.mapMeas f) := by
    intro t
    rw [localSlice_mapMeas]
    cases localSlice sys ph l t with
    | none => rfl
    | some st1 =>
      simp only [Option.map_some, Option.bind_some]
      rw [show updatePhB (sys.withMeas R') l (st1.mapMeas f) = (updatePhB sys l st1).mapMeas f from rfl,
        maybeRecompute_mapMeas]
      cases maybeRecompute sys l (updatePhB sys l st1) with
      | none => rfl
      | some st2 =>
        simp only [Option.map_some, Option.bind_some]
        exact measurePh_mapMeas hf neqlt l st2
  unfold phTimeSlice
  simp only [Option.bind_eq_bind]
  rw [show wrap l (st.mapMeas f) = (wrap l st).mapMeas f from rfl]
  cases noHS with
  | true =>
    simp only [if_true, Option.bind_some]
    exact htail _
  | false =>
    simp only [Bool.false_eq_true, if_false]
    rw [hsSlice_mapMeas]
    cases hsSlice sys l (wrap l st) with
    | none => rfl
    | some st1 =>
      simp only [Option.map_some, Option.bind_some]
      exact htail _

omit hf in
theorem decide_mapMeas [NeZero N] (ph : Phonon) (kind : Kind) (i : Fin N) (X_i expX_i : ℕ → ℝ) (dE : ℝ)
    (st : State σ N M) :
    decide (sys.withMeas R') ph kind i X_i expX_i dE (st.mapMeas f) =
      (decide sys ph kind i X_i expX_i dE st).map (State.mapMeas f) := by
  unfold decide
  simp only [Option.bind_eq_bind]
  show (greenConstruct sys.lp (initWith (sys.phB sys.hs.expVu st.s st.expX)
    (sys.phInvB sys.hs.expVu st.s st.expX) sys.W0 (allocate st.tsmU.L st.tsmU.prodBlen sys.junk)) 0).bind _
    = _
  cases greenConstruct sys.lp (initWith (sys.phB sys.hs.expVu st.s st.expX)
    (sys.phInvB sys.hs.expVu st.s st.expX) sys.W0 (allocate st.tsmU.L st.tsmU.prodBlen sys.junk)) 0 with
  | none => rfl
  | some gu =>
    simp only [Option.bind_some]
    show (greenConstruct sys.lp (initWith (sys.phB sys.hs.expVd st.s st.expX)
      (sys.phInvB sys.hs.expVd st.s st.expX) sys.W0 (allocate st.tsmU.L st.tsmD.prodBlen sys.junk)) 0).bind _
      = _
    cases greenConstruct sys.lp (initWith (sys.phB sys.hs.expVd st.s st.expX)
      (sys.phInvB sys.hs.expVd st.s st.expX) sys.W0 (allocate st.tsmU.L st.tsmD.prodBlen sys.junk)) 0 with
    | none => rfl
    | some gd =>
      simp only [Option.bind_some]
      by_cases hc : (sys.rng.uniform st.rng).1 < Real.exp ((st.Gu.logdet + st.Gd.logdet)
          - (gu.logdet + gd.logdet) - ph.dt * dE)
      · rw [if_pos hc]
        exact if_pos hc
      · rw [if_neg hc]
        exact if_neg hc

omit hf in
theorem blockUpdate_mapMeas [NeZero N] (ph : Phonon) (st : State σ N M) :
    blockUpdate (sys.withMeas R') ph (st.mapMeas f) = (blockUpdate sys ph st).map (State.mapMeas f) := by
  unfold blockUpdate
  simp only [Option.bind_eq_bind]
  show (sys.rng.site N st.rng).bind _ = _
  cases sys.rng.site N st.rng with
  | none => rfl
  | some r =>
    simp only [Option.bind_some]
    by_cases hg : ph.g (sys.orb r.1) = 0
    · rw [if_pos hg]
      exact if_pos hg
    · rw [if_neg hg, ← decide_mapMeas]
      exact if_neg hg

omit hf in
theorem flipUpdate_mapMeas [NeZero N] (ph : Phonon) (st : State σ N M) :
    flipUpdate (sys.withMeas R') ph (st.mapMeas f) = (flipUpdate sys ph st).map (State.mapMeas f) := by
  unfold flipUpdate
  simp only [Option.bind_eq_bind]
  show (sys.rng.site N st.rng).bind _ = _
  cases sys.rng.site N st.rng with
  | none => rfl
  | some r =>
    simp only [Option.bind_some]
    by_cases hg : ph.g (sys.orb r.1) = 0
    · rw [if_pos hg]
      exact if_pos hg
    · rw [if_neg hg, ← decide_mapMeas]
      exact if_neg hg

theorem phIteration_mapMeas [NeZero N] (ph : Phonon) (noHS : Bool) (neqlt : ℕ) (st : State σ N M) :
    phIteration (sys.withMeas R') ph noHS neqlt (st.mapMeas f) =
      (phIteration sys ph noHS neqlt st).map (State.mapMeas f) := by
  have hfold : ∀ (ls : List ℕ) (st : State σ N M),
      ls.foldlM (phTimeSlice (sys.withMeas R') ph noHS neqlt) (st.mapMeas f) =
        (ls.foldlM (phTimeSlice sys ph noHS neqlt) st).map (State.mapMeas f) := by
    intro ls
    induction ls with
    | nil => intro st; rfl
    | cons l ls ih =>
      intro st
      rw [List.foldlM_cons, List.foldlM_cons, phTimeSlice_mapMeas hf]
      cases phTimeSlice sys ph noHS neqlt st l with
      | none => rfl
      | some st1 => exact ih st1
  unfold phIteration
  simp only [Option.bind_eq_bind]
  rw [show (st.mapMeas f).tsmU.L = st.tsmU.L from rfl, hfold]
  cases (List.range st.tsmU.L).foldlM (phTimeSlice sys ph noHS neqlt) st with
  | none => rfl
  | some st1 =>
    simp only [Option.map_some, Option.bind_some]
    rw [iterateM_map _ _ _ (blockUpdate_mapMeas ph)]
    cases iterateM (blockUpdate sys ph) ph.nBlock st1 with
    | none => rfl
    | some st2 =>
      simp only [Option.map_some, Option.bind_some]
      exact iterateM_map _ _ _ (flipUpdate_mapMeas ph) _ _

theorem simBody_mapMeas [NeZero N] (ph : Phonon) (it : ℤ) (st : State σ N M) :
    simBody (sys.withMeas R') ph cfg it (st.mapMeas f) =
      (simBody sys ph cfg it st).map (State.mapMeas f) := by
  unfold simBody
  simp only [Option.bind_eq_bind]
  cases cfg.usePhonons with
  | true =>
    simp only [if_true]
    rw [phIteration_mapMeas hf]
    cases phIteration sys ph cfg.noHS (effNeqlt cfg it) st with
    | none => rfl
    | some st1 =>
      simp only [Option.map_some, Option.bind_some]
      exact measureUneq_mapMeas hf cfg it st1
  | false =>
    simp only [Bool.false_eq_true, if_false]
    rw [dqmcIteration_mapMeas hf]
    cases dqmcIteration sys (effNeqlt cfg it) st with
    | none => rfl
    | some st1 =>
      simp only [Option.map_some, Option.bind_some]
      exact measureUneq_mapMeas hf cfg it st1

theorem simLoop_mapMeas [NeZero N] (ph : Phonon) (stop : ℤ → Bool)
    (k : ℕ) (it : ℤ) (st : State σ N M) (p : Progress.Prog) :
    simLoop (simBody (sys.withMeas R') ph cfg) stop k it (st.mapMeas f) p =
      (simLoop (simBody sys ph cfg) stop k it st p).map
        fun r => ⟨r.iteration, r.state.mapMeas f, r.prog, r.broke⟩ := by
  induction k generalizing it st p with
  | zero => rfl
  | succ k ih =>
    unfold simLoop
    by_cases h : stop it = true
    · rw [if_pos h, if_pos h]
      rfl
    · rw [if_neg h, if_neg h]
      simp only [Option.bind_eq_bind]
      rw [simBody_mapMeas hf cfg ph]
      cases simBody sys ph cfg it st with
      | none => rfl
      | some st1 => exact ih _ _ _

omit hf in
theorem startState_mapMeas [NeZero N] (rng : σ) (s : ℕ → Fin N → Fin 2) (X expX : ℕ → Fin N → ℝ)
    (cnt : Counters) (meas : M) :
    startState (sys.withMeas R') cfg rng s X expX cnt (f meas) =
      (startState sys cfg rng s X expX cnt meas).map (State.mapMeas f) := by
  unfold startState
  simp only [Option.bind_eq_bind]
  show (greenConstruct sys.lp (startMatrices sys cfg sys.hs.expVu s expX) 0).bind _ = _
  cases greenConstruct sys.lp (startMatrices sys cfg sys.hs.expVu s expX) 0 with
  | none => rfl
  | some gu =>
    simp only [Option.bind_some]
    show (greenConstruct sys.lp (startMatrices sys cfg sys.hs.expVd s expX) 0).bind _ = _
    cases greenConstruct sys.lp (startMatrices sys cfg sys.hs.expVd s expX) 0 <;> rfl

theorem simulate_mapMeas [NeZero N] (ph : Phonon) (stop : ℤ → Bool)
    (it : ℤ) (rng : σ) (s : ℕ → Fin N → Fin 2) (X expX : ℕ → Fin N → ℝ) (cnt : Counters) (meas : M) :
    simulate (sys.withMeas R') ph cfg stop it rng s X expX cnt (f meas) =
      (simulate sys ph cfg stop it rng s X expX cnt meas).map
        fun r => ⟨r.iteration, r.state.mapMeas f, r.prog, r.broke⟩ := by
  unfold simulate
  simp only [Option.bind_eq_bind]
  rw [startState_mapMeas]
  cases startState sys cfg rng s X expX cnt meas with
  | none => rfl
  | some st => exact simLoop_mapMeas hf cfg ph stop _ _ _ _


end Verif.MonteCarlo
