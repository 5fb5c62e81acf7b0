import Verif.Props.Files
import Verif.Props.Random
import Verif.Model.Simulation

/-!
# A simulation depends only on the numbers which the generator produces

A map between the states of two generators which respects all operations carries a simulation with
the first generator to a simulation with the second one.  Applied to the words of the generator in
the order of their use, this shows that generators which produce the same numbers give the same
simulation, although the position in the array may differ.
-/

set_option autoImplicit false

namespace Verif.MonteCarlo

open Matrix Verif.Lapack Verif.TimeFlow Verif.Greens Verif.Stratonovich Verif.Random Verif.Files

variable {σ σ' : Type} {N : ℕ} {M : Type}

/-- `f` respects the operations of the generators -/
structure Rng.Maps (R : Rng σ) (R' : Rng σ') (f : σ → σ') : Prop where
  uniform : ∀ a, R'.uniform (f a) = ((R.uniform a).1, f (R.uniform a).2)
  shuffle : ∀ N a, R'.shuffle N (f a) = (R.shuffle N a).map fun r => (r.1, f r.2)
  site : ∀ N a, R'.site N (f a) = (R.site N a).map fun r => (r.1, f r.2)

/-- the same system with another generator -/
def Sys.withRng (sys : Sys σ N M) (R' : Rng σ') : Sys σ' N M :=
  { rng := R', lp := sys.lp, Ncell := sys.Ncell, expK := sys.expK, invExpK := sys.invExpK,
    hs := sys.hs, nwraps := sys.nwraps, meas := sys.meas, W0 := sys.W0, junk := sys.junk }

/-- change the state of the generator -/
def State.mapRng (f : σ → σ') (st : State σ N M) : State σ' N M :=
  { rng := f st.rng, s := st.s, X := st.X, expX := st.expX, tsmU := st.tsmU, tsmD := st.tsmD,
    Gu := st.Gu, Gd := st.Gd, cnt := st.cnt, meas := st.meas }

variable {sys : Sys σ N M} {R' : Rng σ'} {f : σ → σ'} (hf : sys.rng.Maps R' f) (cfg : Cfg)

include hf

theorem hsSite_mapRng (l : ℕ) (st : State σ N M) (i : Fin N) :
    hsSite (sys.withRng R') l (st.mapRng f) i = (hsSite sys l st i).mapRng f := by
  have hu : (sys.withRng R').rng.uniform (st.mapRng f).rng =
      ((sys.rng.uniform st.rng).1, f (sys.rng.uniform st.rng).2) := hf.uniform st.rng
  unfold hsSite
  simp only [hu]
  have e : ∀ (c : Prop) [Decidable c] (a b : State σ N M),
      (if c then a else b).mapRng f = if c then a.mapRng f else b.mapRng f := by
    intro c _ a b
    split <;> rfl
  rw [e]
  rfl

theorem hsSlice_mapRng (l : ℕ) (st : State σ N M) :
    hsSlice (sys.withRng R') l (st.mapRng f) = (hsSlice sys l st).map (State.mapRng f) := by
  have hs : (sys.withRng R').rng.shuffle N (st.mapRng f).rng =
      (sys.rng.shuffle N st.rng).map fun r => (r.1, f r.2) := hf.shuffle N st.rng
  unfold hsSlice
  rw [hs]
  cases h : sys.rng.shuffle N st.rng with
  | none => rfl
  | some r =>
    have key : ∀ (l' : List (Fin N)) (t : State σ N M),
        l'.foldl (hsSite (sys.withRng R') l) (t.mapRng f) = (l'.foldl (hsSite sys l) t).mapRng f := by
      intro l'
      induction l' with
      | nil => intro t; rfl
      | cons i l' ih =>
        intro t
        rw [List.foldl_cons, List.foldl_cons, hsSite_mapRng hf, ih]
    exact congrArg some (key r.1 { st with rng := r.2 })

omit hf in
theorem maybeRecompute_mapRng [NeZero N] (l : ℕ) (st : State σ N M) :
    maybeRecompute (sys.withRng R') l (st.mapRng f) =
      (maybeRecompute sys l st).map (State.mapRng f) := by
  unfold maybeRecompute
  by_cases h : (l + 1) % sys.nwraps = 0
  · rw [if_pos h, if_pos (show (l + 1) % (sys.withRng R').nwraps = 0 from h)]
    unfold recompute
    simp only [Option.bind_eq_bind]
    show (greenConstruct sys.lp st.tsmU ((l + 1) % st.tsmU.L)).bind _ = _
    cases greenConstruct sys.lp st.tsmU ((l + 1) % st.tsmU.L) with
    | none => rfl
    | some gu =>
      simp only [Option.bind_some]
      show (greenConstruct sys.lp st.tsmD ((l + 1) % st.tsmU.L)).bind _ = _
      cases greenConstruct sys.lp st.tsmD ((l + 1) % st.tsmU.L) <;> rfl
  · rw [if_neg h, if_neg (show ¬ (l + 1) % (sys.withRng R').nwraps = 0 from h)]
    rfl

omit hf in
theorem measureEq_mapRng (neqlt l : ℕ) (st : State σ N M) :
    measureEq (sys.withRng R') neqlt l (st.mapRng f) =
      (measureEq sys neqlt l st).map (State.mapRng f) := by
  unfold measureEq
  split
  · simp only [Option.bind_eq_bind]
    show (sys.meas.eq st.Gu st.Gd st.meas).bind _ = _
    cases sys.meas.eq st.Gu st.Gd st.meas <;> rfl
  · rfl

omit hf in
theorem measureUneq_mapRng (it : ℤ) (st : State σ N M) :
    measureUneq (sys.withRng R') cfg it (st.mapRng f) =
      (measureUneq sys cfg it st).map (State.mapRng f) := by
  unfold measureUneq
  split
  · simp only [Option.bind_eq_bind]
    show (sys.meas.uneq (st.Gu.sgndet * st.Gd.sgndet) st.tsmU st.tsmD st.meas).bind _ = _
    cases sys.meas.uneq (st.Gu.sgndet * st.Gd.sgndet) st.tsmU st.tsmD st.meas <;> rfl
  · rfl

theorem hsTimeSlice_mapRng [NeZero N] (neqlt l : ℕ) (st : State σ N M) :
    hsTimeSlice (sys.withRng R') neqlt (st.mapRng f) l =
      (hsTimeSlice sys neqlt st l).map (State.mapRng f) := by
  unfold hsTimeSlice
  simp only [Option.bind_eq_bind]
  rw [show wrap l (st.mapRng f) = (wrap l st).mapRng f from rfl, hsSlice_mapRng hf]
  cases hsSlice sys l (wrap l st) with
  | none => rfl
  | some st1 =>
    simp only [Option.map_some, Option.bind_some]
    rw [show updateB (sys.withRng R') l (st1.mapRng f) = (updateB sys l st1).mapRng f from rfl,
      maybeRecompute_mapRng]
    cases maybeRecompute sys l (updateB sys l st1) with
    | none => rfl
    | some st2 =>
      simp only [Option.map_some, Option.bind_some]
      exact measureEq_mapRng neqlt l st2

theorem dqmcIteration_mapRng [NeZero N] (neqlt : ℕ) (st : State σ N M) :
    dqmcIteration (sys.withRng R') neqlt (st.mapRng f) =
      (dqmcIteration sys neqlt st).map (State.mapRng f) := by
  unfold dqmcIteration
  show (List.range st.tsmU.L).foldlM _ _ = _
  generalize List.range st.tsmU.L = ls
  induction ls generalizing st with
  | nil => rfl
  | cons l ls ih =>
    rw [List.foldlM_cons, List.foldlM_cons, hsTimeSlice_mapRng hf]
    cases hsTimeSlice sys neqlt st l with
    | none => rfl
    | some st1 => exact ih st1

omit hf in
theorem mapRng_ite (c : Prop) [Decidable c] (a b : State σ N M) :
    (if c then a else b).mapRng f = if c then a.mapRng f else b.mapRng f := by
  split <;> rfl

theorem localSite_mapRng (ph : Phonon) (l : ℕ) (st : State σ N M) (i : Fin N) :
    localSite (sys.withRng R') ph l (st.mapRng f) i = (localSite sys ph l st i).mapRng f := by
  have h1 : (sys.withRng R').rng.uniform (st.mapRng f).rng =
      ((sys.rng.uniform st.rng).1, f (sys.rng.uniform st.rng).2) := hf.uniform st.rng
  have h2 : (sys.withRng R').rng.uniform (f (sys.rng.uniform st.rng).2) =
      ((sys.rng.uniform (sys.rng.uniform st.rng).2).1,
        f (sys.rng.uniform (sys.rng.uniform st.rng).2).2) := hf.uniform _
  unfold localSite
  simp only [h1, h2]
  rw [mapRng_ite, mapRng_ite]
  rfl

theorem localSlice_mapRng (ph : Phonon) (l : ℕ) (st : State σ N M) :
    localSlice (sys.withRng R') ph l (st.mapRng f) = (localSlice sys ph l st).map (State.mapRng f) := by
  have hs : (sys.withRng R').rng.shuffle N (st.mapRng f).rng =
      (sys.rng.shuffle N st.rng).map fun r => (r.1, f r.2) := hf.shuffle N st.rng
  unfold localSlice
  rw [hs]
  cases h : sys.rng.shuffle N st.rng with
  | none => rfl
  | some r =>
    simp only [Option.map_some, Option.bind_eq_bind, Option.bind_some]
    cases localOrder r.1 ph.nLocal with
    | none => rfl
    | some o =>
      have key : ∀ (l' : List (Fin N)) (t : State σ N M),
          l'.foldl (localSite (sys.withRng R') ph l) (t.mapRng f) =
            (l'.foldl (localSite sys ph l) t).mapRng f := by
        intro l'
        induction l' with
        | nil => intro t; rfl
        | cons i l' ih =>
          intro t
          rw [List.foldl_cons, List.foldl_cons, localSite_mapRng hf, ih]
      exact congrArg some (key o { st with rng := r.2 })

omit hf in
theorem measurePh_mapRng (neqlt l : ℕ) (st : State σ N M) :
    measurePh (sys.withRng R') neqlt l (st.mapRng f) =
      (measurePh sys neqlt l st).map (State.mapRng f) := by
  unfold measurePh
  split
  · simp only [Option.bind_eq_bind]
    show (sys.meas.eq st.Gu st.Gd st.meas).bind _ = _
    cases sys.meas.eq st.Gu st.Gd st.meas with
    | none => rfl
    | some m =>
      simp only [Option.bind_some]
      show (sys.meas.phonon st.Gu st.Gd l st.X m).bind _ = _
      cases sys.meas.phonon st.Gu st.Gd l st.X m <;> rfl
  · rfl

theorem phTimeSlice_mapRng [NeZero N] (ph : Phonon) (noHS : Bool) (neqlt l : ℕ) (st : State σ N M) :
    phTimeSlice (sys.withRng R') ph noHS neqlt (st.mapRng f) l =
      (phTimeSlice sys ph noHS neqlt st l).map (State.mapRng f) := by
  have htail : ∀ t : State σ N M,
      ((localSlice (sys.withRng R') ph l (t.mapRng f)).bind fun st =>
        (maybeRecompute (sys.withRng R') l (updatePhB (sys.withRng R') l st)).bind fun st =>
          measurePh (sys.withRng R') neqlt l st) =
      ((localSlice sys ph l t).bind fun st => (maybeRecompute sys l (updatePhB sys l st)).bind fun st =>
          measurePh sys neqlt l st).map (State.mapRng f) := by
    intro t
    rw [localSlice_mapRng hf]
    cases localSlice sys ph l t with
    | none => rfl
    | some st1 =>
      simp only [Option.map_some, Option.bind_some]
      rw [show updatePhB (sys.withRng R') l (st1.mapRng f) = (updatePhB sys l st1).mapRng f from rfl,
        maybeRecompute_mapRng]
      cases maybeRecompute sys l (updatePhB sys l st1) with
      | none => rfl
      | some st2 =>
        simp only [Option.map_some, Option.bind_some]
        exact measurePh_mapRng neqlt l st2
  unfold phTimeSlice
  simp only [Option.bind_eq_bind]
  rw [show wrap l (st.mapRng f) = (wrap l st).mapRng f from rfl]
  cases noHS with
  | true =>
    simp only [if_true, Option.bind_some]
    exact htail _
  | false =>
    simp only [Bool.false_eq_true, if_false]
    rw [hsSlice_mapRng hf]
    cases hsSlice sys l (wrap l st) with
    | none => rfl
    | some st1 =>
      simp only [Option.map_some, Option.bind_some]
      exact htail _

theorem decide_mapRng [NeZero N] (ph : Phonon) (kind : Kind) (i : Fin N) (X_i expX_i : ℕ → ℝ) (dE : ℝ)
    (st : State σ N M) :
    decide (sys.withRng R') ph kind i X_i expX_i dE (st.mapRng f) =
      (decide sys ph kind i X_i expX_i dE st).map (State.mapRng f) := by
  have h1 : (sys.withRng R').rng.uniform (st.mapRng f).rng =
      ((sys.rng.uniform st.rng).1, f (sys.rng.uniform st.rng).2) := hf.uniform st.rng
  unfold decide
  simp only [Option.bind_eq_bind, h1]
  show (greenConstruct sys.lp (initWith (sys.phB sys.hs.expVu st.s st.expX)
    (sys.phInvB sys.hs.expVu st.s st.expX) sys.W0 (allocate st.tsmU.L st.tsmU.prodBlen sys.junk)) 0).bind _
    = _
  cases greenConstruct sys.lp (initWith (sys.phB sys.hs.expVu st.s st.expX)
    (sys.phInvB sys.hs.expVu st.s st.expX) sys.W0 (allocate st.tsmU.L st.tsmU.prodBlen sys.junk)) 0 with
  | none => rfl
  | some gu =>
    simp only [Option.bind_some]
    show (greenConstruct sys.lp (initWith (sys.phB sys.hs.expVd st.s st.expX)
      (sys.phInvB sys.hs.expVd st.s st.expX) sys.W0 (allocate st.tsmU.L st.tsmD.prodBlen sys.junk)) 0).bind _
      = _
    cases greenConstruct sys.lp (initWith (sys.phB sys.hs.expVd st.s st.expX)
      (sys.phInvB sys.hs.expVd st.s st.expX) sys.W0 (allocate st.tsmU.L st.tsmD.prodBlen sys.junk)) 0 with
    | none => rfl
    | some gd =>
      simp only [Option.bind_some]
      by_cases hc : (sys.rng.uniform st.rng).1 < Real.exp ((st.Gu.logdet + st.Gd.logdet)
          - (gu.logdet + gd.logdet) - ph.dt * dE)
      · rw [if_pos hc]
        exact if_pos hc
      · rw [if_neg hc]
        exact if_neg hc

theorem blockUpdate_mapRng [NeZero N] (ph : Phonon) (st : State σ N M) :
    blockUpdate (sys.withRng R') ph (st.mapRng f) = (blockUpdate sys ph st).map (State.mapRng f) := by
  have hs : (sys.withRng R').rng.site N (st.mapRng f).rng =
      (sys.rng.site N st.rng).map fun r => (r.1, f r.2) := hf.site N st.rng
  unfold blockUpdate
  rw [hs]
  simp only [Option.bind_eq_bind]
  cases sys.rng.site N st.rng with
  | none => rfl
  | some r =>
    simp only [Option.map_some, Option.bind_some]
    have h1 : (sys.withRng R').rng.uniform (f r.2) =
      ((sys.rng.uniform r.2).1, f (sys.rng.uniform r.2).2) := hf.uniform r.2
    simp only [h1]
    by_cases hg : ph.g (sys.orb r.1) = 0
    · rw [if_pos hg]
      exact if_pos hg
    · rw [if_neg hg, ← decide_mapRng hf]
      exact if_neg hg

theorem flipUpdate_mapRng [NeZero N] (ph : Phonon) (st : State σ N M) :
    flipUpdate (sys.withRng R') ph (st.mapRng f) = (flipUpdate sys ph st).map (State.mapRng f) := by
  have hs : (sys.withRng R').rng.site N (st.mapRng f).rng =
      (sys.rng.site N st.rng).map fun r => (r.1, f r.2) := hf.site N st.rng
  unfold flipUpdate
  rw [hs]
  simp only [Option.bind_eq_bind]
  cases sys.rng.site N st.rng with
  | none => rfl
  | some r =>
    simp only [Option.map_some, Option.bind_some]
    by_cases hg : ph.g (sys.orb r.1) = 0
    · rw [if_pos hg]
      exact if_pos hg
    · rw [if_neg hg, ← decide_mapRng hf]
      exact if_neg hg

omit hf in
theorem iterateM_map {α β : Type} (h : α → β) (F : α → Option α) (G : β → Option β)
    (hFG : ∀ a, G (h a) = (F a).map h) (n : ℕ) (a : α) :
    iterateM G n (h a) = (iterateM F n a).map h := by
  induction n generalizing a with
  | zero => rfl
  | succ n ih =>
    unfold iterateM
    simp only [Option.bind_eq_bind, hFG]
    cases F a with
    | none => rfl
    | some b => exact ih b

theorem phIteration_mapRng [NeZero N] (ph : Phonon) (noHS : Bool) (neqlt : ℕ) (st : State σ N M) :
    phIteration (sys.withRng R') ph noHS neqlt (st.mapRng f) =
      (phIteration sys ph noHS neqlt st).map (State.mapRng f) := by
  have hfold : ∀ (ls : List ℕ) (st : State σ N M),
      ls.foldlM (phTimeSlice (sys.withRng R') ph noHS neqlt) (st.mapRng f) =
        (ls.foldlM (phTimeSlice sys ph noHS neqlt) st).map (State.mapRng f) := by
    intro ls
    induction ls with
    | nil => intro st; rfl
    | cons l ls ih =>
      intro st
      rw [List.foldlM_cons, List.foldlM_cons, phTimeSlice_mapRng hf]
      cases phTimeSlice sys ph noHS neqlt st l with
      | none => rfl
      | some st1 => exact ih st1
  unfold phIteration
  simp only [Option.bind_eq_bind]
  rw [show (st.mapRng f).tsmU.L = st.tsmU.L from rfl, hfold]
  cases (List.range st.tsmU.L).foldlM (phTimeSlice sys ph noHS neqlt) st with
  | none => rfl
  | some st1 =>
    simp only [Option.map_some, Option.bind_some]
    rw [iterateM_map _ _ _ (blockUpdate_mapRng hf ph)]
    cases iterateM (blockUpdate sys ph) ph.nBlock st1 with
    | none => rfl
    | some st2 =>
      simp only [Option.map_some, Option.bind_some]
      exact iterateM_map _ _ _ (flipUpdate_mapRng hf ph) _ _

theorem simBody_mapRng [NeZero N] (ph : Phonon) (it : ℤ) (st : State σ N M) :
    simBody (sys.withRng R') ph cfg it (st.mapRng f) =
      (simBody sys ph cfg it st).map (State.mapRng f) := by
  unfold simBody
  simp only [Option.bind_eq_bind]
  cases cfg.usePhonons with
  | true =>
    simp only [if_true]
    rw [phIteration_mapRng hf]
    cases phIteration sys ph cfg.noHS (effNeqlt cfg it) st with
    | none => rfl
    | some st1 =>
      simp only [Option.map_some, Option.bind_some]
      exact measureUneq_mapRng cfg it st1
  | false =>
    simp only [Bool.false_eq_true, if_false]
    rw [dqmcIteration_mapRng hf]
    cases dqmcIteration sys (effNeqlt cfg it) st with
    | none => rfl
    | some st1 =>
      simp only [Option.map_some, Option.bind_some]
      exact measureUneq_mapRng cfg it st1

theorem simLoop_mapRng [NeZero N] (ph : Phonon) (stop : ℤ → Bool)
    (k : ℕ) (it : ℤ) (st : State σ N M) (p : Progress.Prog) :
    simLoop (simBody (sys.withRng R') ph cfg) stop k it (st.mapRng f) p =
      (simLoop (simBody sys ph cfg) stop k it st p).map
        fun r => ⟨r.iteration, r.state.mapRng f, r.prog, r.broke⟩ := by
  induction k generalizing it st p with
  | zero => rfl
  | succ k ih =>
    unfold simLoop
    by_cases h : stop it = true
    · rw [if_pos h, if_pos h]
      rfl
    · rw [if_neg h, if_neg h]
      simp only [Option.bind_eq_bind]
      rw [simBody_mapRng hf cfg ph]
      cases simBody sys ph cfg it st with
      | none => rfl
      | some st1 => exact ih _ _ _

omit hf in
theorem startState_mapRng [NeZero N] (rng : σ) (s : ℕ → Fin N → Fin 2) (X expX : ℕ → Fin N → ℝ)
    (cnt : Counters) (meas : M) :
    startState (sys.withRng R') cfg (f rng) s X expX cnt meas =
      (startState sys cfg rng s X expX cnt meas).map (State.mapRng f) := by
  unfold startState
  simp only [Option.bind_eq_bind]
  show (greenConstruct sys.lp (startMatrices sys cfg sys.hs.expVu s expX) 0).bind _ = _
  cases greenConstruct sys.lp (startMatrices sys cfg sys.hs.expVu s expX) 0 with
  | none => rfl
  | some gu =>
    simp only [Option.bind_some]
    show (greenConstruct sys.lp (startMatrices sys cfg sys.hs.expVd s expX) 0).bind _ = _
    cases greenConstruct sys.lp (startMatrices sys cfg sys.hs.expVd s expX) 0 <;> rfl

theorem simulate_mapRng [NeZero N] (ph : Phonon) (stop : ℤ → Bool)
    (it : ℤ) (rng : σ) (s : ℕ → Fin N → Fin 2) (X expX : ℕ → Fin N → ℝ) (cnt : Counters) (meas : M) :
    simulate (sys.withRng R') ph cfg stop it (f rng) s X expX cnt meas =
      (simulate sys ph cfg stop it rng s X expX cnt meas).map
        fun r => ⟨r.iteration, r.state.mapRng f, r.prog, r.broke⟩ := by
  unfold simulate
  simp only [Option.bind_eq_bind]
  rw [startState_mapRng]
  cases startState sys cfg rng s X expX cnt meas with
  | none => rfl
  | some st => exact simLoop_mapRng hf cfg ph stop _ _ _ _

omit hf

/-! ## The generator of random.c by its words in the order of use -/

theorem stateAt_p (sd : Seed) (n : ℕ) : (stateAt sd n).p = sd.p + Fin.ofNat 16 n := by
  induction n with
  | zero => exact (add_zero _).symm
  | succ n ih =>
    show (stateAt sd n).p + 1 = _
    rw [ih, add_assoc]
    congr 1
    apply Fin.ext
    simp only [Fin.val_add, Fin.val_ofNat, Fin.val_one]
    omega

/-- generators with the same words in the order of use give the same number and go on alike, after
the same number of steps -/
theorem boundedUint_view (bound : BitVec 64) (a b : Seed) (h : view a = view b) :
    (boundedUint bound a).map (fun r => (r.1, view r.2, r.2.p - a.p)) =
      (boundedUint bound b).map fun r => (r.1, view r.2, r.2.p - b.p) := by
  have key : ∀ a b : Seed, view a = view b → ∀ r, boundedUint bound a = some r →
      ∃ r', boundedUint bound b = some r' ∧ r'.1 = r.1 ∧ view r'.2 = view r.2 ∧
        r'.2.p - b.p = r.2.p - a.p := by
    intro a b h r hr
    obtain ⟨n, h1, h2, h3, h4⟩ := (boundedUint_iff bound a r.2 r.1).1 hr
    refine ⟨(r.1, stateAt b (n + 1)), (boundedUint_iff bound b _ _).2 ⟨n, ?_, ?_, ?_, rfl⟩, rfl, ?_,
      ?_⟩
    · intro m hm
      rw [← outputAt_of_view a b h]
      exact h1 m hm
    · rw [← outputAt_of_view a b h]
      exact h2
    · rw [← outputAt_of_view a b h]
      exact h3
    · rw [h4]
      exact view_stateAt b a h.symm _
    · rw [h4, stateAt_p, stateAt_p, add_sub_cancel_left, add_sub_cancel_left]
  cases ha : boundedUint bound a with
  | some r =>
    obtain ⟨r', e, e1, e2, e3⟩ := key a b h r ha
    rw [e]
    simp only [Option.map_some, e1, e2, e3]
  | none =>
    cases hb : boundedUint bound b with
    | none => rfl
    | some r =>
      obtain ⟨r', e, -, -⟩ := key b a h.symm r hb
      rw [ha] at e
      exact absurd e (by simp)

theorem shuffleLoop_view (k i : ℕ) (a b : Seed) (h : view a = view b) (seq : ℕ → ℤ) :
    (shuffleLoop k i a seq).map (fun r => (r.1, view r.2, r.2.p - a.p)) =
      (shuffleLoop k i b seq).map fun r => (r.1, view r.2, r.2.p - b.p) := by
  induction k generalizing i a b seq with
  | zero => simp only [shuffleLoop, Option.map_some, h, sub_self]
  | succ k ih =>
    unfold shuffleLoop
    simp only [Option.bind_eq_bind]
    have hb := boundedUint_view (BitVec.ofNat 64 (i + 1)) a b h
    cases ha : boundedUint (BitVec.ofNat 64 (i + 1)) a with
    | none =>
      rw [ha] at hb
      cases hb' : boundedUint (BitVec.ofNat 64 (i + 1)) b with
      | none => rfl
      | some r =>
        rw [hb'] at hb
        exact absurd hb (by simp)
    | some r =>
      rw [ha] at hb
      cases hb' : boundedUint (BitVec.ofNat 64 (i + 1)) b with
      | none =>
        rw [hb'] at hb
        exact absurd hb (by simp)
      | some r' =>
        rw [hb'] at hb
        simp only [Option.map_some, Option.some.injEq, Prod.mk.injEq] at hb
        obtain ⟨e1, e2, e3⟩ := hb
        simp only [Option.bind_some]
        rw [e1]
        have hc := ih (i + 1) r.2 r'.2 e2 (shuffleStep seq i r'.1.toNat)
        have hs : ∀ (x y c : Seed), x.p - c.p = (x.p - y.p) + (y.p - c.p) := fun x y c => by abel
        have ht := congrArg (Option.map fun q : (ℕ → ℤ) × (Fin 16 → BitVec 64) × Fin 16 =>
          (q.1, q.2.1, q.2.2 + (r.2.p - a.p))) hc
        rw [Option.map_map, Option.map_map] at ht
        refine Eq.trans ?_ (ht.trans ?_)
        · congr 1
          funext q
          exact Prod.ext rfl (Prod.ext rfl (hs q.2 r.2 a))
        · congr 1
          funext q
          refine Prod.ext rfl (Prod.ext rfl ?_)
          show q.2.p - r'.2.p + (r.2.p - a.p) = q.2.p - b.p
          rw [e3]
          exact (hs q.2 r'.2 b).symm

/-- what a checkpoint keeps of a generator: the words in the order of use, and the position up to
half the length of the array -/
def key (sd : Seed) : (Fin 16 → BitVec 64) × Fin 16 := (view sd, sd.p + sd.p)

/-- the generator acting on the words in the order of their use -/
noncomputable def xorshiftKey (rnd : ℝ → ℝ) (junk : ℕ → ℤ) : Rng ((Fin 16 → BitVec 64) × Fin 16) where
  uniform v := let r := (xorshift rnd junk).uniform ⟨v.1, 0⟩; (r.1, view r.2, v.2 + (r.2.p + r.2.p))
  shuffle N v := ((xorshift rnd junk).shuffle N ⟨v.1, 0⟩).map
    fun r => (r.1, view r.2, v.2 + (r.2.p + r.2.p))
  site N v := ((xorshift rnd junk).site N ⟨v.1, 0⟩).map
    fun r => (r.1, view r.2, v.2 + (r.2.p + r.2.p))

theorem view_mk (v : Fin 16 → BitVec 64) : view ⟨v, 0⟩ = v := by
  funext i
  show v (0 + i) = v i
  rw [zero_add]

theorem key_eq (a r r' : Seed) (h1 : view r' = view r) (h2 : r'.p - 0 = r.p - a.p) :
    (view r', a.p + a.p + (r'.p + r'.p)) = key r := by
  rw [sub_zero] at h2
  unfold key
  rw [h1, h2]
  congr 1
  abel

theorem xorshift_maps (rnd : ℝ → ℝ) (junk : ℕ → ℤ) :
    (xorshift rnd junk).Maps (xorshiftKey rnd junk) key where
  uniform a := by
    have hv : view (⟨view a, 0⟩ : Seed) = view a := view_mk _
    have h1 : (getUint ⟨view a, 0⟩).1 = (getUint a).1 := by rw [getUint_out, getUint_out, hv]
    have h2 : view (getUint ⟨view a, 0⟩).2 = view (getUint a).2 := by
      funext i
      rw [view_getUint, view_getUint, hv]
    have h3 : (getUint ⟨view a, 0⟩).2.p - 0 = (getUint a).2.p - a.p := by
      show (0 + 1 : Fin 16) - 0 = a.p + 1 - a.p
      abel
    exact Prod.ext (congrArg (uniformOf rnd) h1) (key_eq a _ _ h2 h3)
  shuffle N a := by
    have h := shuffleLoop_view N 0 ⟨view a, 0⟩ a (view_mk _) junk
    show Option.map _ ((shuffleLoop N 0 ⟨view a, 0⟩ junk).bind _) =
      Option.map _ ((shuffleLoop N 0 a junk).bind _)
    cases ha : shuffleLoop N 0 ⟨view a, 0⟩ junk with
    | none =>
      rw [ha] at h
      cases hb : shuffleLoop N 0 a junk with
      | none => rfl
      | some r =>
        rw [hb] at h
        exact absurd h (by simp)
    | some r =>
      rw [ha] at h
      cases hb : shuffleLoop N 0 a junk with
      | none =>
        rw [hb] at h
        exact absurd h (by simp)
      | some r' =>
        rw [hb] at h
        simp only [Option.map_some, Option.some.injEq, Prod.mk.injEq] at h
        simp only [Option.bind_some]
        rw [h.1]
        cases (List.range N).mapM fun j => toSite N (r'.1 j) with
        | none => rfl
        | some l => exact congrArg some (Prod.ext rfl (key_eq a _ _ h.2.1 h.2.2))
  site N a := by
    have h := boundedUint_view (BitVec.ofNat 64 N) ⟨view a, 0⟩ a (view_mk _)
    show Option.map _ ((boundedUint (BitVec.ofNat 64 N) ⟨view a, 0⟩).bind _) =
      Option.map _ ((boundedUint (BitVec.ofNat 64 N) a).bind _)
    cases ha : boundedUint (BitVec.ofNat 64 N) ⟨view a, 0⟩ with
    | none =>
      rw [ha] at h
      cases hb : boundedUint (BitVec.ofNat 64 N) a with
      | none => rfl
      | some r =>
        rw [hb] at h
        exact absurd h (by simp)
    | some r =>
      rw [ha] at h
      cases hb : boundedUint (BitVec.ofNat 64 N) a with
      | none =>
        rw [hb] at h
        exact absurd h (by simp)
      | some r' =>
        rw [hb] at h
        simp only [Option.map_some, Option.some.injEq, Prod.mk.injEq] at h
        simp only [Option.bind_some]
        rw [h.1]
        cases toSite N (r'.1.toNat : ℤ) with
        | none => rfl
        | some l => exact congrArg some (Prod.ext rfl (key_eq a _ _ h.2.1 h.2.2))

/-- the words written to a checkpoint depend only on the key -/
theorem savedWords_key (a b : Seed) (h : key a = key b) : savedWords a = savedWords b := by
  have e : ∀ (sd : Seed) (i : Fin 16), savedWords sd i = (key sd).1 (i - (key sd).2) := by
    intro sd i
    show sd.s (i - sd.p) = sd.s (sd.p + (i - (sd.p + sd.p)))
    congr 1
    abel
  funext i
  rw [e, e, h]

/-- a generator written at position 0 or 8 and read again has the same key -/
theorem key_restored (sd : Seed) (hp : sd.p = 0 ∨ sd.p = 8) : key (restored sd) = key sd := by
  have h2 : sd.p + sd.p = 0 := by
    rcases hp with h | h <;> rw [h] <;> decide
  have h3 : -sd.p = sd.p := neg_eq_of_add_eq_zero_left h2
  unfold key
  refine Prod.ext ?_ ?_
  · funext i
    show sd.s (0 + i - sd.p) = sd.s (sd.p + i)
    congr 1
    rw [zero_add, sub_eq_add_neg, h3, add_comm]
  · show (0 : Fin 16) + 0 = sd.p + sd.p
    rw [h2, add_zero]

/-- states which differ at most in the position of the generator in its array, by half its length -/
def State.Same (a b : State Seed N M) : Prop := a.mapRng key = b.mapRng key

theorem State.Same.refl (a : State Seed N M) : a.Same a := rfl

theorem State.Same.stream {a b : State Seed N M} (h : a.Same b) (n : ℕ) :
    outputAt a.rng n = outputAt b.rng n :=
  outputAt_of_view _ _ (congrArg Prod.fst (congrArg State.rng h)) n

/-- simulations whose generators produce the same numbers are the same -/
theorem simulate_same [NeZero N] {sys : Sys Seed N M} {rnd : ℝ → ℝ} {junk : ℕ → ℤ}
    (hr : sys.rng = xorshift rnd junk) (ph : Phonon) (stop : ℤ → Bool)
    (it : ℤ) (a b : Seed) (h : key a = key b) (s : ℕ → Fin N → Fin 2) (X expX : ℕ → Fin N → ℝ)
    (cnt : Counters) (meas : M) (r : LoopResult (State Seed N M))
    (hs : simulate sys ph cfg stop it a s X expX cnt meas = some r) :
    ∃ r', simulate sys ph cfg stop it b s X expX cnt meas = some r' ∧ r'.iteration = r.iteration ∧
      r'.state.Same r.state ∧ r'.prog = r.prog ∧ r'.broke = r.broke := by
  have hm : sys.rng.Maps (xorshiftKey rnd junk) key := hr ▸ xorshift_maps rnd junk
  have h1 := simulate_mapRng hm cfg ph stop it a s X expX cnt meas
  have h2 := simulate_mapRng hm cfg ph stop it b s X expX cnt meas
  rw [h] at h1
  rw [h1, hs] at h2
  cases hb : simulate sys ph cfg stop it b s X expX cnt meas with
  | none =>
    rw [hb] at h2
    exact absurd h2 (by simp)
  | some r' =>
    rw [hb] at h2
    simp only [Option.map_some, Option.some.injEq, LoopResult.mk.injEq] at h2
    exact ⟨r', rfl, h2.1.symm, h2.2.1.symm, h2.2.2.1.symm, h2.2.2.2.symm⟩

end Verif.MonteCarlo
