import Verif.Lemmas.Resume

/-!
# How many words a run without phonons takes from the generator

For one and two sites the bounds of all draws of a shuffle are powers of two, no word is rejected, and
the number of words is known.
-/

set_option autoImplicit false

namespace Verif.Random

theorem stateAt_add (sd : Seed) (m n : ℕ) : stateAt sd (m + n) = stateAt (stateAt sd m) n := by
  induction n with
  | zero => rfl
  | succ n ih =>
    show (getUint (stateAt sd (m + n))).2 = (getUint (stateAt (stateAt sd m) n)).2
    rw [ih]

/-- a shuffle of at most two entries takes one word for each of them -/
theorem shuffle_draws (sd : Seed) (n : ℕ) (hn : n ≤ 2) (seq : ℕ → ℤ) (r : (ℕ → ℤ) × Seed)
    (h : shuffle sd n seq = some r) : r.2 = stateAt sd n := by
  have key : ∀ (b : BitVec 64) (sd : Seed) (q : BitVec 64 × Seed), thresh b = 0#64 →
      boundedUint b sd = some q → q.2 = stateAt sd 1 := by
    intro b sd q hb hq
    have : q = (outputAt sd 0 % b, stateAt sd 1) := by
      have h1 := (boundedUint_iff b sd (stateAt sd 1) (outputAt sd 0 % b)).2
        ⟨0, fun m hm => absurd hm (Nat.not_lt_zero m), by rw [hb, BitVec.le_def]; exact Nat.zero_le _, rfl, rfl⟩
      rw [hq] at h1
      exact Option.some.inj h1
    rw [this]
  have t1 : thresh (BitVec.ofNat 64 (0 + 1)) = 0#64 := by decide
  have t2 : thresh (BitVec.ofNat 64 (0 + 1 + 1)) = 0#64 := by decide
  unfold shuffle at h
  match n, hn with
  | 0, _ =>
    rw [shuffleLoop, Option.some.injEq] at h
    rw [← h]
    rfl
  | 1, _ =>
    rw [shuffleLoop] at h
    obtain ⟨⟨j, q⟩, e, h⟩ := Option.bind_eq_some_iff.1 h
    simp only [shuffleLoop, Option.some.injEq] at h
    rw [← h]
    exact key _ _ _ t1 e
  | 2, _ =>
    rw [shuffleLoop] at h
    obtain ⟨⟨j, q⟩, e, h⟩ := Option.bind_eq_some_iff.1 h
    simp only at h
    rw [shuffleLoop] at h
    obtain ⟨⟨j', q'⟩, e', h⟩ := Option.bind_eq_some_iff.1 h
    simp only [shuffleLoop, Option.some.injEq] at h
    rw [← h]
    have h1 : q = stateAt sd 1 := key _ _ _ t1 e
    have h2 : q' = stateAt q 1 := key _ _ _ t2 e'
    show q' = _
    rw [h2, h1]
    rfl

end Verif.Random

namespace Verif.MonteCarlo

open Matrix Verif.Random Verif.TimeFlow

variable {N : ℕ} {M : Type} {sys : Sys Seed N M} {ph : Phonon} {cfg : Cfg} {rnd : ℝ → ℝ}
  {junk : ℕ → ℤ}

theorem mapM_length {α β : Type} (f : α → Option β) (l : List α) (l' : List β)
    (h : l.mapM f = some l') : l'.length = l.length := by
  induction l generalizing l' with
  | nil =>
    simp only [List.mapM_nil, Option.pure_def, Option.some.injEq] at h
    rw [← h]
    rfl
  | cons a l ih =>
    simp only [List.mapM_cons, Option.bind_eq_bind] at h
    obtain ⟨b, -, h⟩ := Option.bind_eq_some_iff.1 h
    obtain ⟨bs, e, h⟩ := Option.bind_eq_some_iff.1 h
    simp only [Option.pure_def, Option.some.injEq] at h
    rw [← h, List.length_cons, List.length_cons, ih bs e]

/-- a slice takes `N` words for the order and one for each site -/
theorem hsSlice_draws (hr : sys.rng = xorshift rnd junk) (hN : N ≤ 2) (l : ℕ)
    (st st' : State Seed N M) (h : hsSlice sys l st = some st') :
    st'.rng = stateAt st.rng (2 * N) := by
  unfold hsSlice at h
  rw [hr] at h
  simp only [xorshift, Option.bind_eq_bind] at h
  obtain ⟨q, e, h⟩ := Option.bind_eq_some_iff.1 h
  obtain ⟨r, e1, e⟩ := Option.bind_eq_some_iff.1 e
  obtain ⟨o, e2, e⟩ := Option.bind_eq_some_iff.1 e
  simp only [Option.pure_def, Option.some.injEq] at h e
  subst e
  subst h
  have hs := shuffle_draws _ _ hN _ _ e1
  have hl : o.length = N := by rw [mapM_length _ _ _ e2, List.length_range]
  have key : ∀ (o : List (Fin N)) (t : State Seed N M),
      (o.foldl (hsSite sys l) t).rng = stateAt t.rng o.length := by
    intro o
    induction o with
    | nil => intro t; rfl
    | cons i o ih =>
      intro t
      rw [List.foldl_cons, ih]
      have h1 : (hsSite sys l t i).rng = stateAt t.rng 1 := by
        unfold hsSite
        rw [hr]
        simp only
        split <;> rfl
      rw [h1, ← stateAt_add, List.length_cons, Nat.add_comm]
  rw [key, hl]
  show stateAt r.2 N = _
  rw [hs, ← stateAt_add, Nat.two_mul]

theorem maybeRecompute_rng [NeZero N] (l : ℕ) (st st' : State Seed N M)
    (h : maybeRecompute sys l st = some st') : st'.rng = st.rng := by
  unfold maybeRecompute at h
  split at h
  · unfold recompute at h
    simp only [Option.bind_eq_bind] at h
    obtain ⟨gu, -, h⟩ := Option.bind_eq_some_iff.1 h
    obtain ⟨gd, -, h⟩ := Option.bind_eq_some_iff.1 h
    simp only [Option.pure_def, Option.some.injEq] at h
    rw [← h]
  · rw [← Option.some.inj h]

theorem measureEq_rng (neqlt l : ℕ) (st st' : State Seed N M)
    (h : measureEq sys neqlt l st = some st') : st'.rng = st.rng := by
  unfold measureEq at h
  split at h
  · simp only [Option.bind_eq_bind] at h
    obtain ⟨m, -, h⟩ := Option.bind_eq_some_iff.1 h
    simp only [Option.pure_def, Option.some.injEq] at h
    rw [← h]
  · rw [← Option.some.inj h]

theorem measureUneq_rng (it : ℤ) (st st' : State Seed N M)
    (h : measureUneq sys cfg it st = some st') : st'.rng = st.rng ∧ st'.tsmU = st.tsmU := by
  unfold measureUneq at h
  split at h
  · simp only [Option.bind_eq_bind] at h
    obtain ⟨m, -, h⟩ := Option.bind_eq_some_iff.1 h
    simp only [Option.pure_def, Option.some.injEq] at h
    rw [← h]
    exact ⟨rfl, rfl⟩
  · rw [← Option.some.inj h]
    exact ⟨rfl, rfl⟩

/-- an iteration takes `2 N` words for each slice -/
theorem dqmcIteration_draws [NeZero N] (hr : sys.rng = xorshift rnd junk) (hN : N ≤ 2) (neqlt : ℕ)
    (st st' : State Seed N M) (h : dqmcIteration sys neqlt st = some st') :
    st'.rng = stateAt st.rng (2 * N * st.tsmU.L) ∧ st'.tsmU.L = st.tsmU.L := by
  unfold dqmcIteration at h
  have key : ∀ (ls : List ℕ) (a b : State Seed N M), ls.foldlM (hsTimeSlice sys neqlt) a = some b →
      b.rng = stateAt a.rng (2 * N * ls.length) ∧ b.tsmU.L = a.tsmU.L := by
    intro ls
    induction ls with
    | nil =>
      intro a b e
      cases e
      exact ⟨rfl, rfl⟩
    | cons l ls ih =>
      intro a b e
      rw [List.foldlM_cons, Option.bind_eq_bind] at e
      obtain ⟨c, e1, e⟩ := Option.bind_eq_some_iff.1 e
      obtain ⟨h1, h2⟩ := ih c b e
      unfold hsTimeSlice at e1
      simp only [Option.bind_eq_bind] at e1
      obtain ⟨a1, f1, e1⟩ := Option.bind_eq_some_iff.1 e1
      obtain ⟨a2, f2, e1⟩ := Option.bind_eq_some_iff.1 e1
      have g1 := hsSlice_draws hr hN l _ _ f1
      have g2 := maybeRecompute_rng _ _ _ f2
      have g3 := measureEq_rng _ _ _ _ e1
      have k1 := (hsSlice_frame l _ _ f1).L
      have k2 := (maybeRecompute_frame _ _ _ f2).L
      have k3 : c.tsmU.L = a2.tsmU.L := by
        unfold measureEq at e1
        split at e1
        · simp only [Option.bind_eq_bind] at e1
          obtain ⟨m, -, e1⟩ := Option.bind_eq_some_iff.1 e1
          simp only [Option.pure_def, Option.some.injEq] at e1
          rw [← e1]
        · rw [← Option.some.inj e1]
      have k4 := (updateB_frame (sys := sys) l a1).L
      refine ⟨?_, by rw [h2, k3, k2, k4, k1]; rfl⟩
      have hc : c.rng = stateAt a.rng (2 * N) := by
        rw [g3, g2]
        exact g1
      rw [h1, hc, ← stateAt_add, List.length_cons, Nat.mul_succ, Nat.add_comm]
  have := key _ _ _ h
  rw [List.length_range] at this
  exact this

/-- a run without phonons takes `2 N L` words for each iteration -/
theorem simulate_draws [NeZero N] (hr : sys.rng = xorshift rnd junk) (hN : N ≤ 2)
    (hp : cfg.usePhonons = false) (stop : ℤ → Bool) (it : ℤ) (rng : Seed) (s : ℕ → Fin N → Fin 2)
    (X expX : ℕ → Fin N → ℝ) (cnt : Counters) (meas : M) (r : LoopResult (State Seed N M))
    (h : simulate sys ph cfg stop it rng s X expX cnt meas = some r) :
    ∃ m : ℕ, r.iteration = it + m ∧ r.state.rng = stateAt rng (2 * N * cfg.L * m) := by
  unfold simulate at h
  simp only [Option.bind_eq_bind] at h
  obtain ⟨st, e1, h⟩ := Option.bind_eq_some_iff.1 h
  obtain ⟨m, -, a2, a3, -⟩ := simLoop_spec _ _ _ _ _ _ _ h
  have f := startState_frame cfg _ _ _ _ _ _ _ e1
  have hrng : st.rng = rng := f.2.2.2.2.2
  refine ⟨m, a2, ?_⟩
  have key : ∀ (m : ℕ) (b : State Seed N M), runs (simBody sys ph cfg) it m st = some b →
      b.rng = stateAt rng (2 * N * cfg.L * m) ∧ b.tsmU.L = cfg.L := by
    intro m
    induction m with
    | zero =>
      intro b e
      cases e
      exact ⟨hrng, f.1⟩
    | succ m ih =>
      intro b e
      obtain ⟨c, e1, e2⟩ := Option.bind_eq_some_iff.1 e
      obtain ⟨h1, h2⟩ := ih c e1
      unfold simBody at e2
      simp only [hp, Bool.false_eq_true, if_false, Option.bind_eq_bind] at e2
      obtain ⟨d, f1, f2⟩ := Option.bind_eq_some_iff.1 e2
      obtain ⟨g1, g2⟩ := dqmcIteration_draws hr hN _ _ _ f1
      obtain ⟨k1, k2⟩ := measureUneq_rng _ _ _ f2
      refine ⟨?_, by rw [k2, g2, h2]⟩
      rw [k1, g1, h1, h2, ← stateAt_add, Nat.mul_succ]
  exact (key m _ a3).1

end Verif.MonteCarlo

namespace Verif.Main

open Verif.Random Verif.MonteCarlo

/-- the initial field takes one word for each entry -/
theorem drawField_draws (rnd : ℝ → ℝ) (junk : ℕ → ℤ) (n : ℕ) (sd : Seed) :
    (drawField (xorshift rnd junk) n sd).2 = stateAt sd n := by
  have key : ∀ (l : List ℕ) (a : (ℕ → Fin 2) × Seed),
      (l.foldl (fun a i =>
        let r := (xorshift rnd junk).uniform a.2
        (Function.update a.1 i (if r.1 < 0.5 then 0 else 1), r.2)) a).2 = stateAt a.2 l.length := by
    intro l
    induction l with
    | nil => intro a; rfl
    | cons i l ih =>
      intro a
      rw [List.foldl_cons, ih, List.length_cons, Nat.add_comm, stateAt_add]
      rfl
  have := key (List.range n) (fun _ => 0, sd)
  rw [List.length_range] at this
  exact this

end Verif.Main
