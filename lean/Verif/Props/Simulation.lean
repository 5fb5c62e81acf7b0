import Verif.Model.Simulation
import Verif.Props.Phonon
import Mathlib.Order.Interval.Finset.SuccPred
import Mathlib.Data.Int.Interval
import Mathlib.Logic.Relation

/-! # Whole simulations: C30 (start), C38, C39, C54, C56, C63 -/

set_option autoImplicit false

namespace Verif.MonteCarlo

open Matrix Verif.Lapack Verif.TimeFlow Verif.Greens Verif.Stratonovich Verif.Progress

variable {σ : Type} {N : ℕ} {M : Type}

/-! ## C56: progress -/

/-- specification: the phase when `it` iterations are done -/
def phaseOf (nequil nsampl it : ℤ) : Phase :=
  if it < nequil then .equilib else if it < nequil + nsampl then .measure else .output

/-- the progress after `k` iterations of a run started at iteration `it0` -/
def progAfter (nequil nsampl it0 : ℤ) (k : ℕ) : Prog :=
  (List.range k).foldl (fun p (j : ℕ) => update (it0 + j) p) (update it0 (start nequil nsampl))

theorem progAfter_succ (nequil nsampl it0 : ℤ) (k : ℕ) :
    progAfter nequil nsampl it0 (k + 1) = update (it0 + k) (progAfter nequil nsampl it0 k) := by
  unfold progAfter
  rw [List.range_succ, List.foldl_append]
  rfl

/-- C56 for at least one sample: the phase is the true one and the count is that of the iterations
done in this phase by this run -/
theorem progress_partial (nequil nsampl it0 : ℤ) (hn : 1 ≤ nsampl) (h0 : it0 < nequil + nsampl) (k : ℕ)
    (hk : it0 + k ≤ nequil + nsampl) :
    let p := progAfter nequil nsampl it0 k
    p.nequil = nequil ∧ p.nsampl = nsampl ∧ p.phase = phaseOf nequil nsampl (it0 + k) ∧
    p.niter = if it0 + k < nequil then (k : ℤ) else it0 + k - max it0 nequil := by
  induction k with
  | zero =>
    simp only [progAfter, List.range_zero, List.foldl_nil, update, start, phaseOf]
    refine ⟨trivial, trivial, ?_, ?_⟩
    · simp only [Nat.cast_zero, add_zero, h0, if_true]
      by_cases h : it0 < nequil <;> simp [h]
    · by_cases h : it0 < nequil
      · simp [h]
      · simp only [Nat.cast_zero, add_zero, h, if_false]
        rw [max_eq_left (by omega)]
        omega
  | succ k ih =>
    push_cast at hk
    obtain ⟨a1, a2, a3, a4⟩ := ih (by omega)
    simp only [progAfter_succ]
    generalize progAfter nequil nsampl it0 k = p at *
    obtain ⟨ph, ne, ns, ni⟩ := p
    simp only at a1 a2 a3 a4
    subst a1 a2 a3 a4
    push_cast
    by_cases c1 : it0 + k < ne
    · simp only [phaseOf, c1, if_true, update]
      by_cases c2 : it0 + k + 1 = ne
      · have c3 : ¬ it0 + (k + 1) < ne := by omega
        have c4 : it0 + (k + 1 : ℤ) < ne + ns := by omega
        simp only [c2, if_true, c3, if_false, c4]
        refine ⟨trivial, trivial, trivial, ?_⟩
        rw [max_eq_right (by omega)]
        omega
      · have c3 : it0 + (k + 1 : ℤ) < ne := by omega
        simp only [c2, if_false, c3, if_true, and_self]
    · have c5 : it0 + (k : ℤ) < ne + ns := by omega
      simp only [phaseOf, c1, if_false, c5, if_true, update]
      have c3 : ¬ it0 + (k + 1 : ℤ) < ne := by omega
      by_cases c2 : it0 + k + 1 = ne + ns
      · have c4 : ¬ it0 + (k + 1 : ℤ) < ne + ns := by omega
        simp only [c2, if_true, c3, if_false, c4]
        exact ⟨trivial, trivial, trivial, by omega⟩
      · have c4 : it0 + (k + 1 : ℤ) < ne + ns := by omega
        simp only [c2, if_false, c3, c4, if_true]
        exact ⟨trivial, trivial, trivial, by omega⟩

/-- C56 fails without samples: a finished run with `nsampl = 0` reports MEASURE, not OUTPUT -/
theorem not_progress : ¬ ∀ (nequil nsampl it0 : ℤ) (k : ℕ), 0 ≤ nequil → 0 ≤ nsampl → 0 ≤ it0 →
    it0 < nequil + nsampl → it0 + k ≤ nequil + nsampl →
    (progAfter nequil nsampl it0 k).phase = phaseOf nequil nsampl (it0 + k) := by
  intro h
  have := h 1 0 0 1 (by decide) (by decide) (by decide) (by decide) (by decide)
  revert this
  decide

/-- a resumed run: 3 of 4 equilibration iterations done before -/
example : (progAfter 4 2 3 0).phase = .equilib ∧ (progAfter 4 2 3 1).phase = .measure ∧
    (progAfter 4 2 3 3).phase = .output ∧ (progAfter 4 2 3 3).niter = 2 := by decide

/-! ## C54: the loop -/

/-- specification: `m` complete iterations, starting with number `it` -/
def runs {S : Type} (body : ℤ → S → Option S) (it : ℤ) : ℕ → S → Option S
  | 0, s => some s
  | m + 1, s => runs body it m s >>= body (it + m)

theorem runs_succ' {S : Type} (body : ℤ → S → Option S) (it : ℤ) (m : ℕ) (s : S) :
    runs body it (m + 1) s = body it s >>= runs body (it + 1) m := by
  induction m with
  | zero =>
    show (some s >>= body (it + ((0 : ℕ) : ℤ))) = _
    simp only [Nat.cast_zero, add_zero, Option.bind_eq_bind, Option.bind_some]
    cases body it s <;> rfl
  | succ m ih =>
    show (runs body it (m + 1) s >>= body (it + ((m + 1 : ℕ) : ℤ))) = _
    rw [ih]
    simp only [Option.bind_eq_bind, Option.bind_assoc]
    congr 1
    funext x
    show _ = (runs body (it + 1) m x >>= body (it + 1 + (m : ℤ)))
    rw [show it + ((m + 1 : ℕ) : ℤ) = it + 1 + m by push_cast; ring]
    rfl

/-- C54: the loop performs a number of complete iterations, the counter tells how many, it ends
before the first iteration at which a request to stop is seen and otherwise when all are done -/
theorem simLoop_spec {S : Type} (body : ℤ → S → Option S) (stop : ℤ → Bool) (k : ℕ) (it : ℤ) (st : S)
    (p : Prog) (r : LoopResult S) (h : simLoop body stop k it st p = some r) :
    ∃ m ≤ k, r.iteration = it + m ∧ runs body it m st = some r.state ∧
      r.prog = (List.range m).foldl (fun p (j : ℕ) => update (it + j) p) p ∧
      (∀ j : ℕ, j < m → stop (it + j) = false) ∧
      (r.broke = true → m < k ∧ stop (it + m) = true) ∧ (r.broke = false → m = k) := by
  induction k generalizing it st p with
  | zero =>
    cases h
    exact ⟨0, le_rfl, by simp, rfl, rfl, by simp, by simp, by simp⟩
  | succ k ih =>
    unfold simLoop at h
    by_cases hs : stop it = true
    · rw [if_pos hs] at h
      cases h
      exact ⟨0, by omega, by simp, rfl, rfl, by simp, by simp [hs], by simp⟩
    · rw [if_neg hs] at h
      simp only [Option.bind_eq_bind] at h
      obtain ⟨st1, e1, h⟩ := Option.bind_eq_some_iff.1 h
      obtain ⟨m, a1, a2, a3, a4, a5, a6, a7⟩ := ih _ _ _ h
      refine ⟨m + 1, by omega, by rw [a2]; push_cast; ring, ?_, ?_, ?_, ?_, ?_⟩
      · rw [runs_succ', e1]
        exact a3
      · rw [a4, List.range_succ_eq_map, List.foldl_cons, List.foldl_map]
        simp only [Nat.cast_zero, add_zero]
        congr 1
        funext p j
        rw [show it + ((j.succ : ℕ) : ℤ) = it + 1 + j by push_cast; ring]
      · intro j hj
        rcases j with _ | j
        · simpa using hs
        · have := a5 j (by omega)
          rwa [show it + ((j + 1 : ℕ) : ℤ) = it + 1 + j by push_cast; ring]
      · intro hb
        obtain ⟨b1, b2⟩ := a6 hb
        refine ⟨by omega, ?_⟩
        rwa [show it + ((m + 1 : ℕ) : ℤ) = it + 1 + m by push_cast; ring]
      · intro hb
        rw [a7 hb]

/-- without requests to stop all iterations are done -/
theorem simLoop_all {S : Type} (body : ℤ → S → Option S) (k : ℕ) (it : ℤ) (st : S) (p : Prog)
    (r : LoopResult S) (h : simLoop body (fun _ => false) k it st p = some r) :
    r.iteration = it + k ∧ r.broke = false ∧ runs body it k st = some r.state := by
  obtain ⟨m, -, a2, a3, -, -, a6, a7⟩ := simLoop_spec body _ k it st p r h
  cases hb : r.broke with
  | true => exact absurd (a6 hb).2 (by simp)
  | false =>
    rw [a7 hb] at a2 a3
    exact ⟨a2, rfl, a3⟩

/-- stopping before some iteration and going on from the state kept is the same as not stopping -/
theorem runs_add {S : Type} (body : ℤ → S → Option S) (it : ℤ) (m n : ℕ) (s : S) :
    runs body it (m + n) s = runs body it m s >>= runs body (it + m) n := by
  induction n with
  | zero =>
    show runs body it m s = _
    cases runs body it m s <;> rfl
  | succ n ih =>
    show (runs body it (m + n) s >>= body (it + ((m + n : ℕ) : ℤ))) = _
    rw [ih, Option.bind_eq_bind, Option.bind_assoc]
    congr 1
    funext x
    show _ = (runs body (it + m) n x >>= body (it + m + (n : ℤ)))
    rw [show it + ((m + n : ℕ) : ℤ) = it + m + n by push_cast; ring]
    rfl

/-! ## C38, C39: numbers of samples -/

/-- a count in the measurement data that grows by `a` with every equal time sample, by `b` with every
phonon sample and by `d` with every unequal time sample -/
structure CountsBy (sys : Sys σ N M) (c : M → ℕ) (a b d : ℕ) : Prop where
  eq : ∀ gu gd m m', sys.meas.eq gu gd m = some m' → c m' = c m + a
  phonon : ∀ gu gd l X m m', sys.meas.phonon gu gd l X m = some m' → c m' = c m + b
  uneq : ∀ sgn tu td m m', sys.meas.uneq sgn tu td m = some m' → c m' = c m + d

/-- neither the number of slices nor the measurement data change -/
structure Frame (st st' : State σ N M) : Prop where
  L : st'.tsmU.L = st.tsmU.L
  meas : st'.meas = st.meas

theorem Frame.rfl' (st : State σ N M) : Frame st st := ⟨rfl, rfl⟩

theorem Frame.trans {a b c : State σ N M} (h : Frame a b) (h' : Frame b c) : Frame a c :=
  ⟨h'.L.trans h.L, h'.meas.trans h.meas⟩

theorem Frame.foldl {f : State σ N M → Fin N → State σ N M} (hf : ∀ t i, Frame t (f t i))
    (l : List (Fin N)) (t : State σ N M) : Frame t (l.foldl f t) := by
  induction l generalizing t with
  | nil => exact Frame.rfl' t
  | cons i l ih => exact (hf t i).trans (ih _)

section
variable {sys : Sys σ N M} {ph : Phonon}

theorem hsSlice_frame (l : ℕ) (st st' : State σ N M) (h : hsSlice sys l st = some st') :
    Frame st st' := by
  unfold hsSlice at h
  simp only [Option.bind_eq_bind] at h
  obtain ⟨r, -, h⟩ := Option.bind_eq_some_iff.1 h
  simp only [Option.pure_def, Option.some.injEq] at h
  rw [← h]
  refine Frame.trans (b := { st with rng := r.2 }) ⟨rfl, rfl⟩ (Frame.foldl (fun t i => ?_) _ _)
  unfold hsSite
  simp only
  split <;> exact ⟨rfl, rfl⟩

theorem localSlice_frame (l : ℕ) (st st' : State σ N M) (h : localSlice sys ph l st = some st') :
    Frame st st' := by
  unfold localSlice at h
  simp only [Option.bind_eq_bind] at h
  obtain ⟨r, -, h⟩ := Option.bind_eq_some_iff.1 h
  obtain ⟨sites, -, h⟩ := Option.bind_eq_some_iff.1 h
  simp only [Option.pure_def, Option.some.injEq] at h
  rw [← h]
  refine Frame.trans (b := { st with rng := r.2 }) ⟨rfl, rfl⟩ (Frame.foldl (fun t i => ?_) _ _)
  unfold localSite
  simp only
  split
  · exact ⟨rfl, rfl⟩
  · split <;> exact ⟨rfl, rfl⟩

theorem maybeRecompute_frame [NeZero N] (l : ℕ) (st st' : State σ N M)
    (h : maybeRecompute sys l st = some st') : Frame st st' := by
  unfold maybeRecompute at h
  split at h
  · unfold recompute at h
    simp only [Option.bind_eq_bind] at h
    obtain ⟨gu, -, h⟩ := Option.bind_eq_some_iff.1 h
    obtain ⟨gd, -, h⟩ := Option.bind_eq_some_iff.1 h
    simp only [Option.pure_def, Option.some.injEq] at h
    rw [← h]
    exact ⟨rfl, rfl⟩
  · rw [← Option.some.inj h]
    exact Frame.rfl' st

theorem updateWith_L (mk mkInv : ℕ → Mat N) (W0 : Mat N) (l : ℕ) (tsm : TSM N) :
    (updateWith mk mkInv W0 l tsm).L = tsm.L := by
  unfold updateWith
  simp only
  split <;> rfl

theorem updateB_frame (l : ℕ) (st : State σ N M) : Frame st (updateB sys l st) :=
  ⟨updateWith_L _ _ _ _ _, rfl⟩

theorem updatePhB_frame (l : ℕ) (st : State σ N M) : Frame st (updatePhB sys l st) :=
  ⟨updateWith_L _ _ _ _ _, rfl⟩

theorem initWith_L (mk mkInv : ℕ → Mat N) (W0 : Mat N) (tsm : TSM N) :
    (initWith mk mkInv W0 tsm).L = tsm.L := by
  unfold initWith
  simp only
  have h1 : ∀ (ls : List ℕ) (t : TSM N),
      (ls.foldl (fun t l => t.setB l (mk l) (mkInv l)) t).L = t.L := by
    intro ls
    induction ls with
    | nil => intro t; rfl
    | cons l ls ih => intro t; rw [List.foldl_cons, ih]; rfl
  have h2 : ∀ (ls : List ℕ) (t : TSM N),
      (ls.foldl (fun t l => t.setProd (l * t.prodBlen) W0) t).L = t.L := by
    intro ls
    induction ls with
    | nil => intro t; rfl
    | cons l ls ih => intro t; rw [List.foldl_cons, ih]; rfl
  rw [h2, h1]

theorem decide_frame [NeZero N] (kind : Kind) (i : Fin N) (x y : ℕ → ℝ) (dE : ℝ)
    (st st' : State σ N M) (h : MonteCarlo.decide sys ph kind i x y dE st = some st') :
    Frame st st' := by
  unfold MonteCarlo.decide at h
  simp only [Option.bind_eq_bind] at h
  obtain ⟨gu, -, h⟩ := Option.bind_eq_some_iff.1 h
  obtain ⟨gd, -, h⟩ := Option.bind_eq_some_iff.1 h
  split at h
  · simp only [Option.pure_def, Option.some.injEq] at h
    rw [← h]
    exact ⟨rfl, rfl⟩
  · simp only [Option.pure_def, Option.some.injEq] at h
    rw [← h]
    exact ⟨rfl, rfl⟩

theorem blockUpdate_frame [NeZero N] (st st' : State σ N M) (h : blockUpdate sys ph st = some st') :
    Frame st st' := by
  unfold blockUpdate at h
  simp only [Option.bind_eq_bind] at h
  obtain ⟨⟨i, r⟩, -, h⟩ := Option.bind_eq_some_iff.1 h
  simp only at h
  split at h
  · simp only [Option.pure_def, Option.some.injEq] at h
    rw [← h]
    exact ⟨rfl, rfl⟩
  · have := decide_frame _ _ _ _ _ _ _ h
    exact ⟨this.L.trans rfl, this.meas.trans rfl⟩

theorem flipUpdate_frame [NeZero N] (st st' : State σ N M) (h : flipUpdate sys ph st = some st') :
    Frame st st' := by
  unfold flipUpdate at h
  simp only [Option.bind_eq_bind] at h
  obtain ⟨⟨i, r⟩, -, h⟩ := Option.bind_eq_some_iff.1 h
  simp only at h
  split at h
  · simp only [Option.pure_def, Option.some.injEq] at h
    rw [← h]
    exact ⟨rfl, rfl⟩
  · have := decide_frame _ _ _ _ _ _ _ h
    exact ⟨this.L.trans rfl, this.meas.trans rfl⟩

/-- number of samples at slice `l` -/
def hit (neqlt l : ℕ) : ℕ := if neqlt > 0 ∧ (l + 1) % neqlt = 0 then 1 else 0

theorem sum_hit (neqlt L : ℕ) : ((List.range L).map (hit neqlt)).sum = L / neqlt := by
  induction L with
  | zero => simp
  | succ L ih =>
    rw [List.range_succ, List.map_append, List.sum_append, ih, Nat.succ_div]
    simp only [List.map_cons, List.map_nil, List.sum_cons, List.sum_nil, add_zero, hit]
    congr 1
    by_cases h : neqlt = 0
    · subst h
      simp
    · simp only [Nat.pos_of_ne_zero h, Nat.dvd_iff_mod_eq_zero, true_and]

variable {c : M → ℕ} {a b d : ℕ}

theorem hsTimeSlice_count [NeZero N] (hc : CountsBy sys c a b d) (neqlt l : ℕ) (st st' : State σ N M)
    (h : hsTimeSlice sys neqlt st l = some st') :
    st'.tsmU.L = st.tsmU.L ∧ c st'.meas = c st.meas + a * hit neqlt l := by
  unfold hsTimeSlice at h
  simp only [Option.bind_eq_bind] at h
  obtain ⟨st1, e1, h⟩ := Option.bind_eq_some_iff.1 h
  obtain ⟨st2, e2, h⟩ := Option.bind_eq_some_iff.1 h
  have f0 : Frame st (wrap l st) := ⟨rfl, rfl⟩
  have f := ((f0.trans (hsSlice_frame l _ _ e1)).trans (updateB_frame (sys := sys) l st1)).trans
    (maybeRecompute_frame l _ _ e2)
  unfold measureEq at h
  unfold hit
  split at h
  · rename_i hn
    simp only [Option.bind_eq_bind] at h
    obtain ⟨m, e3, h⟩ := Option.bind_eq_some_iff.1 h
    simp only [Option.pure_def, Option.some.injEq] at h
    subst h
    rw [if_pos hn, mul_one]
    exact ⟨f.L, by rw [hc.eq _ _ _ _ e3, f.meas]⟩
  · rename_i hn
    rw [← Option.some.inj h, if_neg hn, mul_zero]
    exact ⟨f.L, by rw [f.meas, add_zero]⟩

theorem phTimeSlice_count [NeZero N] (hc : CountsBy sys c a b d) (noHS : Bool) (neqlt l : ℕ)
    (st st' : State σ N M) (h : phTimeSlice sys ph noHS neqlt st l = some st') :
    st'.tsmU.L = st.tsmU.L ∧ c st'.meas = c st.meas + (a + b) * hit neqlt l := by
  unfold phTimeSlice at h
  have hstep : ∃ st1, Frame st st1 ∧
      ((localSlice sys ph l st1).bind fun st =>
        (maybeRecompute sys l (MonteCarlo.updatePhB sys l st)).bind fun st =>
          measurePh sys neqlt l st) = some st' := by
    have f0 : Frame st (wrap l st) := ⟨rfl, rfl⟩
    cases noHS
    · simp only [Option.bind_eq_bind, Bool.false_eq_true, if_false] at h
      obtain ⟨st1, e1, h⟩ := Option.bind_eq_some_iff.1 h
      exact ⟨st1, f0.trans (hsSlice_frame l _ _ e1), h⟩
    · simp only [Option.bind_eq_bind, if_true, Option.bind_some] at h
      exact ⟨_, f0, h⟩
  obtain ⟨st1, f1, h⟩ := hstep
  obtain ⟨st2, e2, h⟩ := Option.bind_eq_some_iff.1 h
  obtain ⟨st3, e3, h⟩ := Option.bind_eq_some_iff.1 h
  have f := ((f1.trans (localSlice_frame l _ _ e2)).trans (updatePhB_frame (sys := sys) l st2)).trans
    (maybeRecompute_frame l _ _ e3)
  unfold measurePh at h
  unfold hit
  split at h
  · rename_i hn
    simp only [Option.bind_eq_bind] at h
    obtain ⟨m1, g1, h⟩ := Option.bind_eq_some_iff.1 h
    obtain ⟨m2, g2, h⟩ := Option.bind_eq_some_iff.1 h
    simp only [Option.pure_def, Option.some.injEq] at h
    subst h
    rw [if_pos hn, mul_one]
    exact ⟨f.L, by rw [hc.phonon _ _ _ _ _ _ g2, hc.eq _ _ _ _ g1, f.meas, add_assoc]⟩
  · rename_i hn
    rw [← Option.some.inj h, if_neg hn, mul_zero]
    exact ⟨f.L, by rw [f.meas, add_zero]⟩

theorem slices_count (f : State σ N M → ℕ → Option (State σ N M)) (w neqlt : ℕ)
    (hf : ∀ l st st', f st l = some st' →
      st'.tsmU.L = st.tsmU.L ∧ c st'.meas = c st.meas + w * hit neqlt l)
    (ls : List ℕ) (st st' : State σ N M) (h : ls.foldlM f st = some st') :
    st'.tsmU.L = st.tsmU.L ∧ c st'.meas = c st.meas + w * (ls.map (hit neqlt)).sum := by
  induction ls generalizing st with
  | nil => cases h; simp
  | cons l ls ih =>
    rw [List.foldlM_cons] at h
    obtain ⟨st1, e1, e2⟩ := Option.bind_eq_some_iff.1 h
    obtain ⟨a1, a2⟩ := hf l _ _ e1
    obtain ⟨b1, b2⟩ := ih _ e2
    refine ⟨b1.trans a1, ?_⟩
    rw [b2, a2, List.map_cons, List.sum_cons]
    ring

theorem dqmcIteration_count [NeZero N] (hc : CountsBy sys c a b d) (neqlt : ℕ) (st st' : State σ N M)
    (h : dqmcIteration sys neqlt st = some st') :
    st'.tsmU.L = st.tsmU.L ∧ c st'.meas = c st.meas + a * (st.tsmU.L / neqlt) := by
  have := slices_count _ a neqlt (fun l s s' => hsTimeSlice_count hc neqlt l s s') _ _ _ h
  rwa [sum_hit] at this

theorem phIteration_count [NeZero N] (hc : CountsBy sys c a b d) (noHS : Bool) (neqlt : ℕ)
    (st st' : State σ N M) (h : phIteration sys ph noHS neqlt st = some st') :
    st'.tsmU.L = st.tsmU.L ∧ c st'.meas = c st.meas + (a + b) * (st.tsmU.L / neqlt) := by
  unfold phIteration at h
  simp only [Option.bind_eq_bind] at h
  obtain ⟨st1, e1, h⟩ := Option.bind_eq_some_iff.1 h
  obtain ⟨st2, e2, e3⟩ := Option.bind_eq_some_iff.1 h
  have h1 := slices_count _ (a + b) neqlt
    (fun l s s' => phTimeSlice_count (ph := ph) hc noHS neqlt l s s') _ _ _ e1
  rw [sum_hit] at h1
  have f2 := iterateM_inv _ (Frame st1) (fun x y hx hy => hx.trans (blockUpdate_frame x y hy)) _ _ _
    (Frame.rfl' st1) e2
  have f3 := iterateM_inv _ (Frame st1) (fun x y hx hy => hx.trans (flipUpdate_frame x y hy)) _ _ _
    f2 e3
  exact ⟨f3.L.trans h1.1, by rw [f3.meas, h1.2]⟩

/-- specification: the iterations in which unequal time samples are taken -/
def Cfg.uneqAt (cfg : Cfg) (it : ℤ) : Prop := cfg.nequil ≤ it ∧ 0 < cfg.nuneqlt ∧ cfg.nuneqlt ∣ it

instance (cfg : Cfg) : DecidablePred cfg.uneqAt := fun it => by unfold Cfg.uneqAt; infer_instance

/-- weight of the samples taken in one iteration -/
def Cfg.samples (cfg : Cfg) (a b d : ℕ) (it : ℤ) : ℕ :=
  (if cfg.nequil ≤ it then (if cfg.usePhonons then a + b else a) * (cfg.L / cfg.neqlt.toNat) else 0)
    + if cfg.uneqAt it then d else 0

variable (cfg : Cfg)

theorem simBody_count [NeZero N] (hc : CountsBy sys c a b d) (it : ℤ) (st st' : State σ N M)
    (hL : st.tsmU.L = cfg.L) (h : simBody sys ph cfg it st = some st') :
    st'.tsmU.L = cfg.L ∧ c st'.meas = c st.meas + cfg.samples a b d it := by
  have heff : (effNeqlt cfg it = 0 ∧ ¬ cfg.nequil ≤ it) ∨
      (effNeqlt cfg it = cfg.neqlt.toNat ∧ cfg.nequil ≤ it) := by
    unfold effNeqlt
    by_cases hi : cfg.nequil ≤ it
    · exact Or.inr ⟨by rw [if_pos hi], hi⟩
    · exact Or.inl ⟨by rw [if_neg hi]; rfl, hi⟩
  have key : ∀ st1, (if cfg.usePhonons then phIteration sys ph cfg.noHS (effNeqlt cfg it) st
      else dqmcIteration sys (effNeqlt cfg it) st) = some st1 →
      st1.tsmU.L = cfg.L ∧ c st1.meas = c st.meas + if cfg.nequil ≤ it then
        (if cfg.usePhonons then a + b else a) * (cfg.L / cfg.neqlt.toNat) else 0 := by
    intro st1 e1
    by_cases hp : cfg.usePhonons = true
    · rw [if_pos hp] at e1
      obtain ⟨g1, g2⟩ := phIteration_count hc _ _ _ _ e1
      rw [hL] at g1 g2
      refine ⟨g1, ?_⟩
      rw [g2, if_pos hp]
      rcases heff with ⟨h1, h2⟩ | ⟨h1, h2⟩
      · rw [h1, if_neg h2, Nat.div_zero, mul_zero]
      · rw [h1, if_pos h2]
    · rw [if_neg hp] at e1
      obtain ⟨g1, g2⟩ := dqmcIteration_count hc _ _ _ e1
      rw [hL] at g1 g2
      refine ⟨g1, ?_⟩
      rw [g2, if_neg hp]
      rcases heff with ⟨h1, h2⟩ | ⟨h1, h2⟩
      · rw [h1, if_neg h2, Nat.div_zero, mul_zero]
      · rw [h1, if_pos h2]
  have h' : ((if cfg.usePhonons then phIteration sys ph cfg.noHS (effNeqlt cfg it) st
      else dqmcIteration sys (effNeqlt cfg it) st).bind (measureUneq sys cfg it)) = some st' := by
    unfold simBody at h
    simp only [Option.bind_eq_bind] at h
    split
    · rename_i hp
      rw [if_pos hp] at h
      exact h
    · rename_i hp
      rw [if_neg hp] at h
      exact h
  obtain ⟨st1, e1, e2⟩ := Option.bind_eq_some_iff.1 h'
  obtain ⟨g1, g2⟩ := key st1 e1
  unfold measureUneq at e2
  unfold Cfg.samples
  have hiff : (it ≥ cfg.nequil ∧ cfg.nuneqlt > 0 ∧ it.tmod cfg.nuneqlt = 0) ↔ cfg.uneqAt it := by
    unfold Cfg.uneqAt
    rw [Int.dvd_iff_tmod_eq_zero]
  rw [← add_assoc, ← g2]
  by_cases hu : cfg.uneqAt it
  · rw [if_pos (hiff.2 hu)] at e2
    simp only [Option.bind_eq_bind] at e2
    obtain ⟨m, e3, e2⟩ := Option.bind_eq_some_iff.1 e2
    simp only [Option.pure_def, Option.some.injEq] at e2
    subst e2
    rw [if_pos hu]
    exact ⟨g1, hc.uneq _ _ _ _ _ e3⟩
  · rw [if_neg (fun h => hu (hiff.1 h))] at e2
    rw [← Option.some.inj e2, if_neg hu, add_zero]
    exact ⟨g1, rfl⟩

/-- the samples of the iterations `it`, …, `it' - 1` -/
noncomputable def Cfg.totalSamples (cfg : Cfg) (a b d : ℕ) (it it' : ℤ) : ℕ :=
  ∑ i ∈ Finset.Ico it it', cfg.samples a b d i

theorem totalSamples_succ (a b d : ℕ) (it : ℤ) (m : ℕ) :
    cfg.totalSamples a b d it (it + (m + 1 : ℕ))
      = cfg.totalSamples a b d it (it + m) + cfg.samples a b d (it + m) := by
  unfold Cfg.totalSamples
  have : Finset.Ico it (it + (m + 1 : ℕ)) = insert (it + (m : ℤ)) (Finset.Ico it (it + m)) := by
    ext x
    simp only [Finset.mem_Ico, Finset.mem_insert]
    push_cast
    omega
  rw [this, Finset.sum_insert (by simp), add_comm]

theorem totalSamples_split (a b d : ℕ) (i j k : ℤ) (h1 : i ≤ j) (h2 : j ≤ k) :
    cfg.totalSamples a b d i k = cfg.totalSamples a b d i j + cfg.totalSamples a b d j k := by
  unfold Cfg.totalSamples
  have : Finset.Ico i k = Finset.Ico i j ∪ Finset.Ico j k := by
    ext x
    simp only [Finset.mem_Ico, Finset.mem_union]
    omega
  rw [this, Finset.sum_union]
  rw [Finset.disjoint_left]
  intro x hx hx'
  simp only [Finset.mem_Ico] at hx hx'
  omega

theorem runs_count [NeZero N] (hc : CountsBy sys c a b d) (it : ℤ) (m : ℕ) (st st' : State σ N M)
    (hL : st.tsmU.L = cfg.L) (h : runs (simBody sys ph cfg) it m st = some st') :
    st'.tsmU.L = cfg.L ∧ c st'.meas = c st.meas + cfg.totalSamples a b d it (it + m) := by
  induction m generalizing st' with
  | zero =>
    cases h
    exact ⟨hL, by simp [Cfg.totalSamples]⟩
  | succ m ih =>
    obtain ⟨st1, e1, e2⟩ := Option.bind_eq_some_iff.1 h
    obtain ⟨a1, a2⟩ := ih _ e1
    obtain ⟨b1, b2⟩ := simBody_count cfg hc _ _ _ a1 e2
    exact ⟨b1, by rw [b2, a2, totalSamples_succ, add_assoc]⟩

theorem startState_frame [NeZero N] (rng : σ) (s : ℕ → Fin N → Fin 2) (X expX : ℕ → Fin N → ℝ)
    (cnt : Counters) (meas : M) (st : State σ N M)
    (h : startState sys cfg rng s X expX cnt meas = some st) :
    st.tsmU.L = cfg.L ∧ st.meas = meas ∧ st.s = s ∧ st.X = X ∧ st.cnt = cnt ∧ st.rng = rng := by
  unfold startState at h
  simp only [Option.bind_eq_bind] at h
  obtain ⟨gu, -, h⟩ := Option.bind_eq_some_iff.1 h
  obtain ⟨gd, -, h⟩ := Option.bind_eq_some_iff.1 h
  simp only [Option.pure_def, Option.some.injEq] at h
  subst h
  refine ⟨?_, rfl, rfl, rfl, rfl, rfl⟩
  unfold startMatrices
  simp only
  split <;> rw [initWith_L] <;> rfl

/-- C38, C39 for one run: counts grow exactly with the samples of the iterations done -/
theorem simulate_count [NeZero N] (hc : CountsBy sys c a b d) (stop : ℤ → Bool) (it : ℤ) (rng : σ)
    (s : ℕ → Fin N → Fin 2) (X expX : ℕ → Fin N → ℝ) (cnt : Counters) (meas : M)
    (r : LoopResult (State σ N M))
    (h : simulate sys ph cfg stop it rng s X expX cnt meas = some r) :
    it ≤ r.iteration ∧ c r.state.meas = c meas + cfg.totalSamples a b d it r.iteration := by
  unfold simulate at h
  simp only [Option.bind_eq_bind] at h
  obtain ⟨st, e1, h⟩ := Option.bind_eq_some_iff.1 h
  obtain ⟨m, -, a2, a3, -⟩ := simLoop_spec _ _ _ _ _ _ _ h
  obtain ⟨f1, f2, -⟩ := startState_frame cfg _ _ _ _ _ _ _ e1
  obtain ⟨-, g⟩ := runs_count cfg hc _ _ _ _ f1 a3
  rw [a2, g, f2]
  exact ⟨by omega, rfl⟩

/-- one run: from (iteration, count) to (iteration, count) -/
def Session (sys : Sys σ N M) (ph : Phonon) (cfg : Cfg) [NeZero N] (c : M → ℕ) (p q : ℤ × ℕ) : Prop :=
  ∃ stop rng s X expX cnt meas r, c meas = p.2 ∧
    simulate sys ph cfg stop p.1 rng s X expX cnt meas = some r ∧ r.iteration = q.1 ∧
    c r.state.meas = q.2

/-- C39 (and C38), stopped and resumed any number of times: the samples are those of the iterations
done -/
theorem sessions_count [NeZero N] (hc : CountsBy sys c a b d) (p q : ℤ × ℕ)
    (h : Relation.ReflTransGen (Session sys ph cfg c) p q) :
    p.1 ≤ q.1 ∧ q.2 = p.2 + cfg.totalSamples a b d p.1 q.1 := by
  induction h with
  | refl => exact ⟨le_rfl, by simp [Cfg.totalSamples]⟩
  | tail _ h2 ih =>
    obtain ⟨stop, rng, s, X, expX, cnt, meas, r, h3, h4, h5, h6⟩ := h2
    obtain ⟨g1, g2⟩ := simulate_count cfg hc _ _ _ _ _ _ _ _ _ h4
    rw [h5] at g1 g2
    refine ⟨ih.1.trans g1, ?_⟩
    rw [← h6, g2, h3, ih.2, add_assoc, ← totalSamples_split cfg _ _ _ _ _ _ ih.1 g1]

/-- equal time samples of a range of iterations -/
theorem totalSamples_eq (it it' : ℤ) :
    cfg.totalSamples 1 0 0 it it' = (it' - max it cfg.nequil).toNat * (cfg.L / cfg.neqlt.toNat) := by
  unfold Cfg.totalSamples Cfg.samples
  simp only [add_zero, ite_self, one_mul]
  rw [← Finset.sum_filter, Finset.sum_const, smul_eq_mul]
  congr 1
  have : (Finset.Ico it it').filter (fun i => cfg.nequil ≤ i) = Finset.Ico (max it cfg.nequil) it' := by
    ext x
    simp only [Finset.mem_filter, Finset.mem_Ico, max_le_iff]
    tauto
  rw [this, Int.card_Ico]

/-- unequal time samples of a range of iterations -/
theorem totalSamples_uneq (it it' : ℤ) :
    cfg.totalSamples 0 0 1 it it' = ((Finset.Ico it it').filter cfg.uneqAt).card := by
  unfold Cfg.totalSamples Cfg.samples
  simp only [add_zero, ite_self, zero_mul, zero_add]
  rw [← Finset.sum_filter, Finset.sum_const, smul_eq_mul, mul_one]

/-- C38: an uninterrupted run takes `nsampl * (L / neqlt)` equal time samples (with `neqlt ≤ 0` none),
with or without phonons -/
theorem equal_time_samples [NeZero N] (hc : CountsBy sys c 1 0 0) (h0 : 0 ≤ cfg.nequil)
    (hs : 0 ≤ cfg.nsampl) (rng : σ) (s : ℕ → Fin N → Fin 2) (X expX : ℕ → Fin N → ℝ) (cnt : Counters)
    (meas : M) (r : LoopResult (State σ N M))
    (h : simulate sys ph cfg (fun _ => false) 0 rng s X expX cnt meas = some r) :
    r.iteration = cfg.nequil + cfg.nsampl ∧
    c r.state.meas = c meas + cfg.nsampl.toNat * (cfg.L / cfg.neqlt.toNat) := by
  have h1 := (simulate_count cfg hc _ _ _ _ _ _ _ _ _ h).2
  unfold simulate at h
  simp only [Option.bind_eq_bind] at h
  obtain ⟨st, e1, h⟩ := Option.bind_eq_some_iff.1 h
  have h2 := (simLoop_all _ _ _ _ _ _ h).1
  have h3 : r.iteration = cfg.nequil + cfg.nsampl := by rw [h2]; omega
  refine ⟨h3, ?_⟩
  rw [h1, h3, totalSamples_eq, max_eq_right h0]
  congr 3
  omega

/-- C38: no samples during equilibration, whenever the run is stopped -/
theorem no_samples_before [NeZero N] (hc : CountsBy sys c 1 0 0) (stop : ℤ → Bool) (rng : σ) (it : ℤ)
    (s : ℕ → Fin N → Fin 2) (X expX : ℕ → Fin N → ℝ) (cnt : Counters)
    (meas : M) (r : LoopResult (State σ N M))
    (h : simulate sys ph cfg stop it rng s X expX cnt meas = some r) (hr : r.iteration ≤ cfg.nequil) :
    c r.state.meas = c meas := by
  rw [(simulate_count cfg hc _ _ _ _ _ _ _ _ _ h).2, totalSamples_eq]
  have : (r.iteration - max it cfg.nequil).toNat = 0 := by
    have := le_max_right it cfg.nequil
    omega
  rw [this, zero_mul, add_zero]

/-- C39: stopping and resuming any number of times until all iterations are done takes one unequal
time sample in every measurement iteration whose number is a multiple of `nuneqlt` -/
theorem unequal_time_samples [NeZero N] (hc : CountsBy sys c 0 0 1) (k k' : ℕ)
    (h : Relation.ReflTransGen (Session sys ph cfg c) (0, k) (cfg.nequil + cfg.nsampl, k')) :
    k' = k + ((Finset.Ico 0 (cfg.nequil + cfg.nsampl)).filter cfg.uneqAt).card := by
  rw [← totalSamples_uneq]
  exact (sessions_count cfg hc _ _ h).2

end

end Verif.MonteCarlo
