import Verif.Model.Debug
import Verif.Props.Program

/-! # Property C130: debug builds never warn in exact arithmetic, and do not change the results -/

set_option autoImplicit false

namespace Verif.MonteCarlo

open Matrix Verif.Lapack Verif.TimeFlow Verif.Greens Verif.Progress

variable {σ : Type} {N : ℕ} {M : Type}

/-! ## The warnings -/

theorem foldl_max_le_iff (l : List ℝ) (a ε : ℝ) : l.foldl max a ≤ ε ↔ a ≤ ε ∧ ∀ x ∈ l, x ≤ ε := by
  induction l generalizing a with
  | nil => simp
  | cons x l ih => simp only [List.foldl_cons, ih, max_le_iff, List.mem_cons, forall_eq_or_imp, and_assoc]

/-- the distance is the largest difference of the entries -/
theorem uniformDistance_le_iff (A B : Mat N) {ε : ℝ} (hε : 0 ≤ ε) : uniformDistance A B ≤ ε ↔ ∀ i j, |A i j - B i j| ≤ ε := by
  unfold uniformDistance
  rw [foldl_max_le_iff]
  constructor
  · exact fun h i j => h.2 _ (List.mem_flatMap.2 ⟨j, List.mem_finRange j, List.mem_map.2 ⟨i, List.mem_finRange i, rfl⟩⟩)
  · refine fun h => ⟨hε, fun x hx => ?_⟩
    obtain ⟨j, -, hx⟩ := List.mem_flatMap.1 hx
    obtain ⟨i, -, rfl⟩ := List.mem_map.1 hx
    exact h i j

theorem uniformDistance_self (A : Mat N) : uniformDistance A A ≤ 0 :=
  (uniformDistance_le_iff A A le_rfl).2 fun i j => by simp

/-- specification: the recomputed Green's functions agree with the former ones up to the tolerances -/
structure AgreeWithin (st st' : State σ N M) : Prop where
  matU : ∀ i j, |st.Gu.mat i j - st'.Gu.mat i j| ≤ 1e-8 * N
  matD : ∀ i j, |st.Gd.mat i j - st'.Gd.mat i j| ≤ 1e-8 * N
  detU : |st.Gu.logdet - st'.Gu.logdet| ≤ 1e-8
  detD : |st.Gd.logdet - st'.Gd.logdet| ≤ 1e-8
  sgnU : st.Gu.sgndet = st'.Gu.sgndet
  sgnD : st.Gd.sgndet = st'.Gd.sgndet

/-- C130: there is no warning if and only if matrices, determinants and signs of both spins agree -/
theorem warnings_nil_iff (st st' : State σ N M) : warnings st st' = [] ↔ AgreeWithin st st' := by
  have hε : (0 : ℝ) ≤ 1e-8 * N := by positivity
  unfold warnings
  simp only [List.append_eq_nil_iff, ite_eq_right_iff, reduceCtorEq, imp_false, not_or, gt_iff_lt, not_lt, not_not,
    uniformDistance_le_iff _ _ hε]
  constructor
  · rintro ⟨⟨⟨a, b⟩, c, d⟩, e, f⟩
    exact ⟨a, b, c, d, e, f⟩
  · rintro ⟨a, b, c, d, e, f⟩
    exact ⟨⟨⟨a, b⟩, c, d⟩, e, f⟩

/-- C130: which message is printed, and with which numbers, those of the spin up first -/
theorem warnings_mem (st st' : State σ N M) :
    (∀ a b, Warning.matrices a b ∈ warnings st st' ↔ a = uniformDistance st.Gu.mat st'.Gu.mat ∧
      b = uniformDistance st.Gd.mat st'.Gd.mat ∧ (1e-8 * N < a ∨ 1e-8 * N < b)) ∧
    (∀ a b, Warning.determinants a b ∈ warnings st st' ↔ a = |st.Gu.logdet - st'.Gu.logdet| ∧
      b = |st.Gd.logdet - st'.Gd.logdet| ∧ (1e-8 < a ∨ 1e-8 < b)) ∧
    (Warning.signs ∈ warnings st st' ↔ ¬(st.Gu.sgndet = st'.Gu.sgndet ∧ st.Gd.sgndet = st'.Gd.sgndet)) := by
  have key : ∀ (p : Prop) [Decidable p] (w v : Warning), v ∈ (if p then [w] else []) ↔ p ∧ v = w := by
    intro p _ w v
    split <;> simp_all
  unfold warnings
  simp only [List.mem_append, key, gt_iff_lt, reduceCtorEq, and_false, or_false, false_or, Warning.matrices.injEq,
    Warning.determinants.injEq, and_true]
  refine ⟨fun a b => ⟨?_, ?_⟩, fun a b => ⟨?_, ?_⟩, by tauto⟩
  · rintro ⟨h, rfl, rfl⟩
    exact ⟨rfl, rfl, h⟩
  · rintro ⟨rfl, rfl, h⟩
    exact ⟨h, rfl, rfl⟩
  · rintro ⟨h, rfl, rfl⟩
    exact ⟨rfl, rfl, h⟩
  · rintro ⟨rfl, rfl, h⟩
    exact ⟨h, rfl, rfl⟩

theorem warnings_self (st : State σ N M) : warnings st st = [] := by
  refine (warnings_nil_iff st st).2 ⟨fun i j => ?_, fun i j => ?_, ?_, ?_, rfl, rfl⟩ <;> simp only [sub_self, abs_zero] <;> positivity

/-- a change of the sign is reported -/
example (st : State σ N M) (h : st.Gu.sgndet = 1) : warnings st { st with Gu := { st.Gu with sgndet := -1 } } ≠ [] := by
  intro hw
  have := ((warnings_nil_iff _ _).1 hw).sgnU
  rw [h] at this
  exact absurd (show (1 : ℤ) = -1 from this) (by decide)

/-- a single entry which is wrong by `0.1` in a system with a hundred sites is reported -/
example (st : State σ 100 M) (A : Mat 100) (i j : Fin 100) (h : A i j = st.Gd.mat i j + 1 / 10) :
    warnings st { st with Gd := { st.Gd with mat := A } } ≠ [] := by
  intro hw
  have := ((warnings_nil_iff _ _).1 hw).matD i j
  simp only [h, sub_add_cancel_left, abs_neg] at this
  norm_num at this

/-! ## Debug code changes no result, whatever it reports -/

theorem debugRecompute_fst [NeZero N] (sys : Sys σ N M) (l : ℕ) (st : State σ N M) :
    debugRecompute sys l st = (maybeRecompute sys l st).map fun st' => (st', warnings st st') := by
  unfold debugRecompute maybeRecompute
  split
  · simp only [Option.bind_eq_bind]
    cases recompute sys ((l + 1) % st.tsmU.L) st <;> rfl
  · simp [warnings_self]

/-- specification: state before and after the recomputation in a time slice of the release build -/
noncomputable def aroundRecompute [NeZero N] (sys : Sys σ N M) (l : ℕ) (st : State σ N M) : Option (State σ N M × State σ N M) :=
  (hsSlice sys l (wrap l st)).bind fun a => (maybeRecompute sys l (updateB sys l a)).map fun b => (updateB sys l a, b)

/-- specification: the same with phonons -/
noncomputable def aroundPhRecompute [NeZero N] (sys : Sys σ N M) (ph : Phonon) (noHS : Bool) (l : ℕ) (st : State σ N M) :
    Option (State σ N M × State σ N M) :=
  (if noHS then some (wrap l st) else hsSlice sys l (wrap l st)).bind fun a => (localSlice sys ph l a).bind fun b =>
    (maybeRecompute sys l (updatePhB sys l b)).map fun c => (updatePhB sys l b, c)

/-- C130: a time slice reports the comparison of the states before and after the recomputation -/
theorem debugTimeSlice_log [NeZero N] (sys : Sys σ N M) (neqlt l : ℕ) (x : State σ N M × List Warning) :
    debugTimeSlice sys neqlt x l = (aroundRecompute sys l x.1).bind fun ab =>
      (hsTimeSlice sys neqlt x.1 l).map fun st => (st, x.2 ++ warnings ab.1 ab.2) := by
  unfold debugTimeSlice hsTimeSlice aroundRecompute
  simp only [Option.bind_eq_bind]
  cases hsSlice sys l (wrap l x.1) with
  | none => rfl
  | some a =>
    simp only [Option.bind_some, debugRecompute_fst]
    cases maybeRecompute sys l (updateB sys l a) with
    | none => rfl
    | some b =>
      simp only [Option.map_some, Option.bind_some]
      cases measureEq sys neqlt l b <;> rfl

theorem phTimeSlice_form [NeZero N] (sys : Sys σ N M) (ph : Phonon) (noHS : Bool) (neqlt l : ℕ) (st : State σ N M) :
    phTimeSlice sys ph noHS neqlt st l = (if noHS then some (wrap l st) else hsSlice sys l (wrap l st)).bind fun a =>
      (localSlice sys ph l a).bind fun b => (maybeRecompute sys l (updatePhB sys l b)).bind fun c => measurePh sys neqlt l c := by
  cases noHS <;> rfl

theorem debugPhTimeSlice_form [NeZero N] (sys : Sys σ N M) (ph : Phonon) (noHS : Bool) (neqlt l : ℕ)
    (x : State σ N M × List Warning) :
    debugPhTimeSlice sys ph noHS neqlt x l = (if noHS then some (wrap l x.1) else hsSlice sys l (wrap l x.1)).bind fun a =>
      (localSlice sys ph l a).bind fun b => (debugRecompute sys l (updatePhB sys l b)).bind fun y =>
        (measurePh sys neqlt l y.1).bind fun st => some (st, x.2 ++ y.2) := by
  cases noHS <;> rfl

/-- C130: the same with phonons -/
theorem debugPhTimeSlice_log [NeZero N] (sys : Sys σ N M) (ph : Phonon) (noHS : Bool) (neqlt l : ℕ)
    (x : State σ N M × List Warning) :
    debugPhTimeSlice sys ph noHS neqlt x l = (aroundPhRecompute sys ph noHS l x.1).bind fun ab =>
      (phTimeSlice sys ph noHS neqlt x.1 l).map fun st => (st, x.2 ++ warnings ab.1 ab.2) := by
  rw [debugPhTimeSlice_form, phTimeSlice_form]
  unfold aroundPhRecompute
  cases (if noHS = true then some (wrap l x.1) else hsSlice sys l (wrap l x.1)) with
  | none => rfl
  | some a =>
    simp only [Option.bind_some, debugRecompute_fst]
    cases localSlice sys ph l a with
    | none => rfl
    | some b =>
      simp only [Option.bind_some]
      cases maybeRecompute sys l (updatePhB sys l b) with
      | none => rfl
      | some c =>
        simp only [Option.map_some, Option.bind_some]
        cases measurePh sys neqlt l c <;> rfl

/-- a step of the debug build: the state of the release build, and `log` is appended to the warnings -/
def Logs {S W : Type} (f : S → Option S) (log : S → List W) (g : S × List W → Option (S × List W)) : Prop :=
  ∀ x, g x = (f x.1).map fun st => (st, x.2 ++ log x.1)

/-- warnings of the slices `ls` from the state `st` on: those of every slice, one after the other -/
def sweepLog {S W : Type} (f : S → ℕ → Option S) (log : ℕ → S → List W) : List ℕ → S → List W
  | [], _ => []
  | l :: ls, st => log l st ++ ((f st l).map (sweepLog f log ls)).getD []

theorem sweep_logs {S W : Type} (f : S → ℕ → Option S) (log : ℕ → S → List W) (g : S × List W → ℕ → Option (S × List W))
    (h : ∀ l, Logs (fun st => f st l) (log l) fun x => g x l) (ls : List ℕ) :
    Logs (fun st => ls.foldlM f st) (sweepLog f log ls) fun x => ls.foldlM g x := by
  intro x
  induction ls generalizing x with
  | nil => simp [sweepLog]
  | cons l ls ih =>
    have e := h l x
    simp only at e
    simp only [List.foldlM_cons, e, Option.bind_eq_bind, sweepLog]
    cases f x.1 l with
    | none => rfl
    | some st => simpa using ih (st, x.2 ++ log l x.1)

/-- specification: what is printed in one time slice -/
noncomputable def sliceLog [NeZero N] (sys : Sys σ N M) (l : ℕ) (st : State σ N M) : List Warning :=
  ((aroundRecompute sys l st).map fun ab => warnings ab.1 ab.2).getD []

/-- specification: the same with phonons -/
noncomputable def phSliceLog [NeZero N] (sys : Sys σ N M) (ph : Phonon) (noHS : Bool) (l : ℕ) (st : State σ N M) : List Warning :=
  ((aroundPhRecompute sys ph noHS l st).map fun ab => warnings ab.1 ab.2).getD []

theorem debugTimeSlice_logs [NeZero N] (sys : Sys σ N M) (neqlt l : ℕ) :
    Logs (fun st => hsTimeSlice sys neqlt st l) (sliceLog sys l) fun x => debugTimeSlice sys neqlt x l := by
  intro x
  simp only [debugTimeSlice_log, sliceLog]
  cases e : aroundRecompute sys l x.1 with
  | some ab => rfl
  | none =>
    have : hsTimeSlice sys neqlt x.1 l = none := by
      unfold aroundRecompute at e
      unfold hsTimeSlice
      simp only [Option.bind_eq_bind]
      cases e1 : hsSlice sys l (wrap l x.1) with
      | none => rfl
      | some a =>
        rw [e1, Option.bind_some, Option.map_eq_none_iff] at e
        rw [Option.bind_some, e, Option.bind_none]
    rw [this]
    rfl

theorem debugPhTimeSlice_logs [NeZero N] (sys : Sys σ N M) (ph : Phonon) (noHS : Bool) (neqlt l : ℕ) :
    Logs (fun st => phTimeSlice sys ph noHS neqlt st l) (phSliceLog sys ph noHS l) fun x => debugPhTimeSlice sys ph noHS neqlt x l := by
  intro x
  simp only [debugPhTimeSlice_log, phSliceLog]
  cases e : aroundPhRecompute sys ph noHS l x.1 with
  | some ab => rfl
  | none =>
    have : phTimeSlice sys ph noHS neqlt x.1 l = none := by
      unfold aroundPhRecompute at e
      rw [phTimeSlice_form]
      cases e1 : (if noHS = true then some (wrap l x.1) else hsSlice sys l (wrap l x.1)) with
      | none => rfl
      | some a =>
        rw [e1, Option.bind_some] at e
        rw [Option.bind_some]
        cases e2 : localSlice sys ph l a with
        | none => rfl
        | some b =>
          rw [e2, Option.bind_some, Option.map_eq_none_iff] at e
          rw [Option.bind_some, e, Option.bind_none]
    rw [this]
    rfl

/-- specification: what is printed in one iteration, in the order of the slices -/
noncomputable def bodyLog [NeZero N] (sys : Sys σ N M) (ph : Phonon) (cfg : Cfg) (it : ℤ) (st : State σ N M) : List Warning :=
  if cfg.usePhonons then sweepLog (phTimeSlice sys ph cfg.noHS (effNeqlt cfg it)) (phSliceLog sys ph cfg.noHS) (List.range st.tsmU.L) st
  else sweepLog (hsTimeSlice sys (effNeqlt cfg it)) (sliceLog sys) (List.range st.tsmU.L) st

/-- C130: an iteration of the main loop prints the reports of all its slices, and is otherwise that of the release build -/
theorem debugBody_logs [NeZero N] (sys : Sys σ N M) (ph : Phonon) (cfg : Cfg) (it : ℤ) :
    Logs (simBody sys ph cfg it) (bodyLog sys ph cfg it) (debugBody sys ph cfg it) := by
  intro x
  unfold debugBody simBody bodyLog
  by_cases hu : cfg.usePhonons = true
  · have e := sweep_logs _ _ _ (debugPhTimeSlice_logs sys ph cfg.noHS (effNeqlt cfg it)) (List.range x.1.tsmU.L) x
    simp only at e
    simp only [Option.bind_eq_bind, if_pos hu, debugPhIteration, phIteration, e]
    cases (List.range x.1.tsmU.L).foldlM (phTimeSlice sys ph cfg.noHS (effNeqlt cfg it)) x.1 with
    | none => rfl
    | some st1 =>
      simp only [Option.map_some, Option.bind_some]
      cases iterateM (blockUpdate sys ph) ph.nBlock st1 with
      | none => rfl
      | some st2 =>
        simp only [Option.bind_some]
        cases iterateM (flipUpdate sys ph) ph.nBlock st2 with
        | none => rfl
        | some st3 =>
          simp only [Option.bind_some, Option.pure_def]
          cases measureUneq sys cfg it st3 <;> rfl
  · have e := sweep_logs _ _ _ (debugTimeSlice_logs sys (effNeqlt cfg it)) (List.range x.1.tsmU.L) x
    simp only at e
    simp only [Option.bind_eq_bind, if_neg hu, debugIteration, dqmcIteration, e]
    cases (List.range x.1.tsmU.L).foldlM (hsTimeSlice sys (effNeqlt cfg it)) x.1 with
    | none => rfl
    | some st1 =>
      simp only [Option.map_some, Option.bind_some]
      cases measureUneq sys cfg it st1 <;> rfl

/-- the result of a run with the warnings of the run -/
def LoopResult.logged {S W : Type} (w : W) (r : LoopResult S) : LoopResult (S × W) := ⟨r.iteration, (r.state, w), r.prog, r.broke⟩

/-- specification: what is printed in a run, the warnings of one iteration after the other until the run is stopped -/
def runLog {S W : Type} (body : ℤ → S → Option S) (log : ℤ → S → List W) (stop : ℤ → Bool) : ℕ → ℤ → S → List W
  | 0, _, _ => []
  | k + 1, it, st => if stop it then [] else log it st ++ ((body it st).map (runLog body log stop k (it + 1))).getD []

theorem simLoop_logs {S W : Type} (body : ℤ → S → Option S) (log : ℤ → S → List W) (body' : ℤ → S × List W → Option (S × List W))
    (h : ∀ it, Logs (body it) (log it) (body' it)) (stop : ℤ → Bool) (k : ℕ) (it : ℤ) (x : S × List W) (p : Prog) :
    simLoop body' stop k it x p
      = (simLoop body stop k it x.1 p).map (LoopResult.logged (x.2 ++ runLog body log stop k it x.1)) := by
  induction k generalizing it x p with
  | zero => simp [simLoop, runLog, LoopResult.logged]
  | succ k ih =>
    unfold simLoop runLog
    split
    · simp [LoopResult.logged]
    · rw [h it x]
      cases body it x.1 with
      | none => rfl
      | some b => simpa using ih (it + 1) (b, x.2 ++ log it x.1) _

/-- C130: debug code never changes the result of a run, for any tables, also wrong ones, and prints the comparisons of all
slices of all iterations -/
theorem debug_results [NeZero N] (sys : Sys σ N M) (ph : Phonon) (cfg : Cfg) (stop : ℤ → Bool) (it : ℤ)
    (rng : σ) (s : ℕ → Fin N → Fin 2) (X expX : ℕ → Fin N → ℝ) (cnt : Counters) (meas : M) :
    debugSimulate sys ph cfg stop it rng s X expX cnt meas
      = (startState sys cfg rng s X expX cnt meas).bind fun st =>
        (simulate sys ph cfg stop it rng s X expX cnt meas).map (LoopResult.logged
          (runLog (simBody sys ph cfg) (bodyLog sys ph cfg) stop (cfg.nequil + cfg.nsampl - it).toNat it st)) := by
  unfold debugSimulate simulate
  simp only [Option.bind_eq_bind]
  cases startState sys cfg rng s X expX cnt meas with
  | none => rfl
  | some st => exact simLoop_logs _ _ _ (debugBody_logs sys ph cfg) stop _ it (st, []) _

/-! ## Runs -/

variable {sys : Sys σ N M} {ph : Phonon} {cfg : Cfg} {E : ℕ → Fin N → ℝ} {L len l : ℕ}

theorem debugRecompute_eq [NeZero N] {st : State σ N M} (h : Inv sys E L len (l + 1) st) (hok : sys.Ok len) :
    debugRecompute sys l st = some (st, []) ∧ maybeRecompute sys l st = some st := by
  unfold debugRecompute maybeRecompute
  split
  · rename_i hw
    have hd : len ∣ l + 1 := hok.dvd.trans (Nat.dvd_of_mod_eq_zero hw)
    rw [h.recompute_eq hd]
    simp [warnings_self]
  · exact ⟨rfl, rfl⟩

theorem debugTimeSlice_eq [NeZero N] (hok : sys.Ok len) (hl : l < L) (neqlt : ℕ) {st : State σ N M}
    (h : Inv sys (fun _ _ => 1) L len l st) (w : List Warning) :
    debugTimeSlice sys neqlt (st, w) l = (hsTimeSlice sys neqlt st l).map fun st => (st, w) := by
  unfold debugTimeSlice hsTimeSlice
  simp only [Option.bind_eq_bind]
  cases e : hsSlice sys l (wrap l st) with
  | none => rfl
  | some st1 =>
    obtain ⟨h1, h2⟩ := debugRecompute_eq (((h.wrap hl).hsSlice hok hl e).updateB hok) hok
    simp only [Option.bind_some, h1, h2, List.append_nil]
    cases measureEq sys neqlt l (updateB sys l st1) <;> rfl

theorem debugPhTimeSlice_eq [NeZero N] (hok : sys.Ok len) (hl : l < L) (noHS : Bool) (neqlt : ℕ) {st : State σ N M}
    (h : PhInv sys ph L len l st) (w : List Warning) :
    debugPhTimeSlice sys ph noHS neqlt (st, w) l = (phTimeSlice sys ph noHS neqlt st l).map fun st => (st, w) := by
  have hm : PhMid sys ph L len l (MonteCarlo.wrap l st) := ⟨h.inv.wrap hl, h.coh⟩
  have key : ∀ st1, PhMid sys ph L len l st1 →
      ((localSlice sys ph l st1).bind fun st => (debugRecompute sys l (updatePhB sys l st)).bind fun y =>
        (measurePh sys neqlt l y.1).bind fun st => some (st, w ++ y.2)) =
      ((localSlice sys ph l st1).bind fun st => (maybeRecompute sys l (updatePhB sys l st)).bind fun st =>
        measurePh sys neqlt l st).map fun st => (st, w) := by
    intro st1 hm1
    cases e : localSlice sys ph l st1 with
    | none => rfl
    | some st2 =>
      obtain ⟨h1, h2⟩ := debugRecompute_eq ((hm1.localSlice hok hl e).1.updatePhB hok hl).inv hok
      simp only [Option.bind_some, h1, h2, List.append_nil]
      cases measurePh sys neqlt l (updatePhB sys l st2) <;> rfl
  unfold debugPhTimeSlice phTimeSlice
  cases noHS
  · simp only [Option.bind_eq_bind, Bool.false_eq_true, if_false]
    cases e : hsSlice sys l (wrap l st) with
    | none => rfl
    | some st1 => exact key st1 (hm.hsSlice hok hl e).1
  · simp only [Option.bind_eq_bind, if_true, Option.bind_some]
    exact key _ hm

/-- loops over the slices -/
theorem foldlM_range_logged {α W : Type} (f : α → ℕ → Option α) (g : α × W → ℕ → Option (α × W)) (Q : ℕ → α → Prop) (w : W) (L : ℕ)
    (hg : ∀ l a, l < L → Q l a → g (a, w) l = (f a l).map fun a => (a, w))
    (hQ : ∀ l a a', l < L → Q l a → f a l = some a' → Q (l + 1) a') (a : α) (ha : Q 0 a) :
    (List.range L).foldlM g (a, w) = ((List.range L).foldlM f a).map fun a => (a, w) := by
  have gen : ∀ k ≤ L, ((List.range k).foldlM g (a, w) = ((List.range k).foldlM f a).map fun a => (a, w)) ∧
      ∀ b, (List.range k).foldlM f a = some b → Q k b := by
    intro k
    induction k with
    | zero =>
      intro _
      refine ⟨rfl, fun b hb => ?_⟩
      rw [List.range_zero, List.foldlM_nil] at hb
      cases hb
      exact ha
    | succ k ih =>
      intro hk
      obtain ⟨h1, h2⟩ := ih (by omega)
      rw [List.range_succ, List.foldlM_append, List.foldlM_append, h1]
      cases e : (List.range k).foldlM f a with
      | none => exact ⟨rfl, fun b hb => by cases hb⟩
      | some b =>
        have hb := h2 b e
        simp only [Option.map_some, Option.bind_eq_bind, Option.bind_some, List.foldlM_cons, List.foldlM_nil,
          hg k b (by omega) hb]
        refine ⟨by cases f b k <;> rfl, fun c hc => ?_⟩
        obtain ⟨d, hd, hc⟩ := Option.bind_eq_some_iff.1 hc
        cases hc
        exact hQ k b _ (by omega) hb hd
  exact (gen L le_rfl).1

theorem debugIteration_eq [NeZero N] (hok : sys.Ok len) (neqlt : ℕ) {st : State σ N M} (h : Inv sys (fun _ _ => 1) L len 0 st)
    (w : List Warning) : debugIteration sys neqlt (st, w) = (dqmcIteration sys neqlt st).map fun st => (st, w) := by
  unfold debugIteration dqmcIteration
  simp only
  rw [h.up.td.hL]
  exact foldlM_range_logged _ _ (fun l st => Inv sys (fun _ _ => 1) L len l st) w L
    (fun l a hl ha => debugTimeSlice_eq hok hl neqlt ha w)
    (fun l a a' hl ha he => (hsTimeSlice_inv hok hl neqlt (fun _ => True) (fun _ _ _ _ _ _ _ _ _ _ _ _ => trivial) ha trivial he).1) st h

theorem debugPhIteration_eq [NeZero N] (hok : sys.Ok len) (noHS : Bool) (neqlt : ℕ) {st : State σ N M} (h : PhInv sys ph L len 0 st)
    (w : List Warning) :
    debugPhIteration sys ph noHS neqlt (st, w) = (phIteration sys ph noHS neqlt st).map fun st => (st, w) := by
  unfold debugPhIteration phIteration
  simp only [Option.bind_eq_bind]
  rw [h.inv.up.td.hL, foldlM_range_logged (phTimeSlice sys ph noHS neqlt) _ (fun l st => PhInv sys ph L len l st) w L
    (fun l a hl ha => debugPhTimeSlice_eq hok hl noHS neqlt ha w)
    (fun l a a' hl ha he => (phTimeSlice_inv hok hl noHS neqlt (fun _ => True)
      (fun _ _ _ _ _ _ _ _ _ _ _ _ _ _ _ => trivial) ha trivial he).1) st h]
  cases (List.range L).foldlM (phTimeSlice sys ph noHS neqlt) st with
  | none => rfl
  | some st1 =>
    simp only [Option.map_some, Option.bind_some]
    cases iterateM (blockUpdate sys ph) ph.nBlock st1 with
    | none => rfl
    | some st2 =>
      simp only [Option.bind_some]
      cases iterateM (flipUpdate sys ph) ph.nBlock st2 <;> rfl

theorem debugBody_eq [NeZero N] (hok : sys.Ok cfg.prodBlen) (it : ℤ) {st : State σ N M} (h : AtRest sys ph cfg st) (w : List Warning) :
    debugBody sys ph cfg it (st, w) = (simBody sys ph cfg it st).map fun st => (st, w) := by
  unfold debugBody simBody
  unfold AtRest at h
  by_cases hu : cfg.usePhonons = true
  · rw [if_pos hu] at h
    simp only [Option.bind_eq_bind, if_pos hu, debugPhIteration_eq hok _ _ h w]
    cases phIteration sys ph cfg.noHS (effNeqlt cfg it) st with
    | none => rfl
    | some st1 =>
      simp only [Option.map_some, Option.bind_some]
      cases measureUneq sys cfg it st1 <;> rfl
  · rw [if_neg hu] at h
    simp only [Option.bind_eq_bind, if_neg hu, debugIteration_eq hok _ h w]
    cases dqmcIteration sys (effNeqlt cfg it) st with
    | none => rfl
    | some st1 =>
      simp only [Option.map_some, Option.bind_some]
      cases measureUneq sys cfg it st1 <;> rfl

theorem simLoop_logged {S W : Type} (body : ℤ → S → Option S) (body' : ℤ → S × W → Option (S × W)) (Q : S → Prop) (w : W)
    (hb : ∀ it a, Q a → body' it (a, w) = (body it a).map fun a => (a, w)) (hQ : ∀ it a b, Q a → body it a = some b → Q b)
    (stop : ℤ → Bool) (k : ℕ) (it : ℤ) (a : S) (p : Prog) (ha : Q a) :
    simLoop body' stop k it (a, w) p = (simLoop body stop k it a p).map (LoopResult.logged w) := by
  induction k generalizing it a p with
  | zero => rfl
  | succ k ih =>
    unfold simLoop
    split
    · rfl
    · rw [hb it a ha]
      cases e : body it a with
      | none => rfl
      | some b => exact ih (it + 1) b _ (hQ it a b ha e)

/-- C130: with exact arithmetic a debug build does the same as a release build, and prints no warning: in particular all
Green's functions with their determinants and signs are the same before and after every recomputation -/
theorem debug_silent [NeZero N] (hok : sys.Ok cfg.prodBlen) (hL : 0 < cfg.L) (hd : cfg.prodBlen ∣ cfg.L) (stop : ℤ → Bool) (it : ℤ)
    (rng : σ) (s : ℕ → Fin N → Fin 2) (X expX : ℕ → Fin N → ℝ) (cnt : Counters) (meas : M)
    (hX : cfg.usePhonons = true → ∀ l < cfg.L, ∀ i, expX l i = sys.expOf ph X l i) :
    debugSimulate sys ph cfg stop it rng s X expX cnt meas
      = (simulate sys ph cfg stop it rng s X expX cnt meas).map (LoopResult.logged []) := by
  unfold debugSimulate simulate
  simp only [Option.bind_eq_bind]
  cases e : startState sys cfg rng s X expX cnt meas with
  | none => rfl
  | some st =>
    have hP : MeasInv sys ph cfg fun _ : M => True :=
      ⟨fun _ _ _ _ _ _ _ _ _ _ _ _ _ _ => trivial, fun _ _ _ _ _ _ _ _ _ _ _ _ _ _ _ _ _ => trivial, fun _ _ _ _ _ => trivial⟩
    refine simLoop_logged (simBody sys ph cfg) _ (AtRest sys ph cfg) [] (fun it a ha => debugBody_eq hok it ha [])
      (fun it a b ha hb => (simBody_inv hok (fun _ => True) hP it a b ha trivial hb).1) stop _ it st _ ?_
    unfold AtRest
    split
    · rename_i hu
      exact startState_phInv hok hL hd hu rng s X expX cnt meas (hX hu) st e
    · rename_i hu
      exact startState_inv hok hL hd (by simpa using hu) rng s X expX cnt meas st e

end Verif.MonteCarlo

namespace Verif.Main

open Verif.Random Verif.Measurement Verif.MonteCarlo Verif.Params

variable {mc : Machine} {p : SimParams ℝ}

/-- C130 for the program with all admissible parameters, with and without phonons -/
theorem program_debug_silent [NeZero (sites p)] (hmc : mc.Rounds) (hv : Admissible p) (hg : Guards p) (hN : sites p < 2 ^ 31)
    (fnbase : String) (stop : ℤ → Bool) (it : ℤ) (seed : Seed) (s : ℕ → Fin (sites p) → Fin 2) (meas : MeasData) :
    debugPerform (mkSetup mc p fnbase) stop it seed s meas
      = (perform (mkSetup mc p fnbase) stop it seed s meas).map (LoopResult.logged []) := by
  obtain ⟨sys, h1, h2, -, -⟩ := sys_defined hmc hv hg.U hg.shift hN fnbase
  have hL : 0 < (mkSetup mc p fnbase).cfg.L := by
    have := hv.l
    show 0 < p.L.toNat
    omega
  have hncell : sys.Ncell = p.Nx.toNat * p.Ny.toNat := by
    unfold sysOf at h1
    simp only [Option.bind_eq_bind] at h1
    obtain ⟨a, -, h1⟩ := Option.bind_eq_some_iff.1 h1
    obtain ⟨b, -, h1⟩ := Option.bind_eq_some_iff.1 h1
    obtain rfl := Option.some.inj h1
    rfl
  have e2 : (mkSetup mc p fnbase).sys = some sys := h1
  unfold debugPerform perform
  simp only [e2, Option.bind_eq_bind, Option.bind_some]
  refine debug_silent h2 hL (toNat_dvd hv.prodBlen hv.l hv.dvdL) stop it _ s _ _ _ meas fun _ l hl i => ?_
  unfold expPhonons Sys.expOf Sys.orb
  rw [if_pos hl, hncell]
  rfl

/-- if the run of the release build is defined, then so is the run of the debug build, without warnings -/
theorem program_debug_run [NeZero (sites p)] (hmc : mc.Rounds) (hv : Admissible p) (hg : Guards p) (hN : sites p < 2 ^ 31)
    (fnbase : String) (stop : ℤ → Bool) (it : ℤ) (seed : Seed) (s : ℕ → Fin (sites p) → Fin 2) (meas : MeasData)
    (res : LoopResult (State Seed (sites p) MeasData)) (h : perform (mkSetup mc p fnbase) stop it seed s meas = some res) :
    ∃ r, debugPerform (mkSetup mc p fnbase) stop it seed s meas = some r ∧ r.state = (res.state, []) ∧
      r.iteration = res.iteration ∧ r.prog = res.prog ∧ r.broke = res.broke := by
  rw [program_debug_silent hmc hv hg hN, h]
  exact ⟨_, rfl, rfl, rfl, rfl, rfl⟩

/-- the hypotheses hold for parameters without and with phonons -/
example : Admissible exP ∧ Guards exP ∧ sites exP < 2 ^ 31 ∧ Admissible exPph ∧ Guards exPph ∧ sites exPph < 2 ^ 31 ∧
    exPph.usePhonons = true :=
  ⟨exP_admissible, exP_guards, by show (1 : ℕ) * (1 * 1) < _; norm_num, exPph_admissible, exPph_guards,
    by show (1 : ℕ) * (1 * 1) < _; norm_num, rfl⟩

end Verif.Main
