import Verif.Model.Counters32
import Verif.Props.PhononLost
import Verif.Props.IndexProgram

/-!
# C107: the acceptance counters are ints

The simulation with checked counters does the same as the one that counts without bound as long as the counters at the
end are ints, and is undefined otherwise.  The counters are bounded by the number of attempted updates, and if every
orbital is coupled to phonons then the numbers of attempts are equal to these bounds, whatever the random numbers.
-/

set_option autoImplicit false

namespace Verif.MonteCarlo

open Verif.Progress

variable {σ : Type} {N : ℕ} {M : Type}

/-- no counter decreases -/
structure Counters.Grows (c c' : Counters) : Prop where
  localAccept : c.localAccept ≤ c'.localAccept
  localTotal : c.localTotal ≤ c'.localTotal
  blockAccept : c.blockAccept ≤ c'.blockAccept
  blockTotal : c.blockTotal ≤ c'.blockTotal
  flipAccept : c.flipAccept ≤ c'.flipAccept
  flipTotal : c.flipTotal ≤ c'.flipTotal

theorem Counters.Grows.refl (c : Counters) : c.Grows c := ⟨le_rfl, le_rfl, le_rfl, le_rfl, le_rfl, le_rfl⟩

theorem Counters.Grows.of_eq {c c' : Counters} (h : c' = c) : c.Grows c' := h ▸ .refl c

theorem Counters.Grows.trans {a b c : Counters} (h : a.Grows b) (h' : b.Grows c) : a.Grows c :=
  ⟨h.1.trans h'.1, h.2.trans h'.2, h.3.trans h'.3, h.4.trans h'.4, h.5.trans h'.5, h.6.trans h'.6⟩

theorem Counters.Fits.of_grows {c c' : Counters} (h : c.Grows c') (f : c'.Fits) : c.Fits :=
  ⟨h.1.trans f.1, h.2.trans f.2, h.3.trans f.3, h.4.trans f.4, h.5.trans f.5, h.6.trans f.6⟩

/-- an operation that does not decrease a counter -/
def Mono (f : State σ N M → Option (State σ N M)) : Prop := ∀ a b, f a = some b → a.cnt.Grows b.cnt

/-- `g` is `f` with checks of the counters -/
def Chk (f g : State σ N M → Option (State σ N M)) : Prop := ∀ a, a.cnt.Fits → g a = f a >>= checked

theorem checked_eq_some {a b : State σ N M} : checked a = some b ↔ a.cnt.Fits ∧ a = b := by
  unfold checked
  split
  · simp [*]
  · simp [*]

theorem checked_pos {a : State σ N M} (h : a.cnt.Fits) : checked a = some a := checked_eq_some.2 ⟨h, rfl⟩

theorem checked_neg {a : State σ N M} (h : ¬ a.cnt.Fits) : checked a = none := by
  unfold checked
  rw [if_neg h]

theorem Mono.comp {f f' : State σ N M → Option (State σ N M)} (h : Mono f) (h' : Mono f') :
    Mono fun a => f a >>= f' := by
  intro a c e
  obtain ⟨b, e1, e2⟩ := Option.bind_eq_some_iff.1 e
  exact (h a b e1).trans (h' b c e2)

/-- results that do not fit are removed later at the latest -/
theorem Mono.lost {f : State σ N M → Option (State σ N M)} (h : Mono f) {a : State σ N M} (ha : ¬ a.cnt.Fits) :
    (f a >>= checked) = none := by
  rcases e : f a with _ | b
  · rfl
  · exact checked_neg fun f => ha (f.of_grows (h a b e))

theorem Chk.comp {f g f' g' : State σ N M → Option (State σ N M)} (h : Chk f g) (h' : Chk f' g') (m : Mono f') :
    Chk (fun a => f a >>= f') (fun a => g a >>= g') := by
  intro a ha
  show (g a >>= g') = ((f a >>= f') >>= checked)
  rw [h a ha]
  rcases e : f a with _ | b
  · rfl
  · show (checked b >>= g') = (f' b >>= checked)
    by_cases hb : b.cnt.Fits
    · rw [checked_pos hb]
      exact h' b hb
    · rw [checked_neg hb, m.lost hb]
      rfl

/-- operations that leave the counters alone need no check -/
theorem Chk.keep {f : State σ N M → Option (State σ N M)} (h : ∀ a b, f a = some b → b.cnt = a.cnt) : Chk f f := by
  intro a ha
  rcases e : f a with _ | b
  · rfl
  · exact (checked_pos (by rw [h a b e]; exact ha)).symm

theorem Mono.keep {f : State σ N M → Option (State σ N M)} (h : ∀ a b, f a = some b → b.cnt = a.cnt) : Mono f :=
  fun a b e => .of_eq (h a b e)

theorem Mono.foldlM {ι : Type} {f : State σ N M → ι → Option (State σ N M)} (h : ∀ i, Mono fun a => f a i) (is : List ι) :
    Mono fun a => is.foldlM f a := by
  induction is with
  | nil => exact Mono.keep fun a b e => by cases e; rfl
  | cons i is ih =>
    have := (h i).comp ih
    intro a b e
    beta_reduce at e
    rw [List.foldlM_cons] at e
    exact this a b e

theorem Chk.foldlM {ι : Type} {f g : State σ N M → ι → Option (State σ N M)} (h : ∀ i, Chk (fun a => f a i) fun a => g a i)
    (m : ∀ i, Mono fun a => f a i) (is : List ι) : Chk (fun a => is.foldlM f a) fun a => is.foldlM g a := by
  induction is with
  | nil => exact Chk.keep fun a b e => by cases e; rfl
  | cons i is ih =>
    have := (h i).comp ih (Mono.foldlM m is)
    intro a ha
    have := this a ha
    simp only [List.foldlM_cons]
    exact this

theorem Mono.iterateM {f : State σ N M → Option (State σ N M)} (h : Mono f) (n : ℕ) : Mono (iterateM f n) := by
  induction n with
  | zero => exact Mono.keep fun a b e => by cases e; rfl
  | succ n ih => exact h.comp ih

theorem Chk.iterateM {f g : State σ N M → Option (State σ N M)} (h : Chk f g) (m : Mono f) (n : ℕ) :
    Chk (iterateM f n) (MonteCarlo.iterateM g n) := by
  induction n with
  | zero => exact Chk.keep fun a b e => by cases e; rfl
  | succ n ih => exact h.comp ih (m.iterateM n)

section
variable {sys : Sys σ N M} {ph : Phonon}

theorem hsSlice_cnt (l : ℕ) (a b : State σ N M) (h : hsSlice sys l a = some b) : b.cnt = a.cnt := by
  unfold MonteCarlo.hsSlice at h
  simp only [Option.bind_eq_bind] at h
  obtain ⟨r, -, h⟩ := Option.bind_eq_some_iff.1 h
  simp only [Option.pure_def, Option.some.injEq] at h
  have key : ∀ (order : List (Fin N)) (t : State σ N M), (order.foldl (MonteCarlo.hsSite sys l) t).cnt = t.cnt := by
    intro order
    induction order with
    | nil => intro t; rfl
    | cons i order ih =>
      intro t
      rw [List.foldl_cons, ih]
      unfold MonteCarlo.hsSite
      simp only
      split <;> rfl
  rw [← h, key]

theorem maybeRecompute_cnt [NeZero N] (l : ℕ) (a b : State σ N M) (h : maybeRecompute sys l a = some b) : b.cnt = a.cnt := by
  unfold maybeRecompute at h
  split at h
  · unfold MonteCarlo.recompute at h
    simp only [Option.bind_eq_bind] at h
    obtain ⟨gu, -, h⟩ := Option.bind_eq_some_iff.1 h
    obtain ⟨gd, -, h⟩ := Option.bind_eq_some_iff.1 h
    simp only [Option.pure_def, Option.some.injEq] at h
    rw [← h]
  · rw [← Option.some.inj h]

theorem measurePh_cnt (neqlt l : ℕ) (a b : State σ N M) (h : measurePh sys neqlt l a = some b) : b.cnt = a.cnt := by
  unfold measurePh at h
  split at h
  · simp only [Option.bind_eq_bind] at h
    obtain ⟨m1, -, h⟩ := Option.bind_eq_some_iff.1 h
    obtain ⟨m2, -, h⟩ := Option.bind_eq_some_iff.1 h
    simp only [Option.pure_def, Option.some.injEq] at h
    rw [← h]
  · rw [← Option.some.inj h]

theorem measureUneq_cnt (cfg : Cfg) (it : ℤ) (a b : State σ N M) (h : measureUneq sys cfg it a = some b) :
    b.cnt = a.cnt := by
  unfold measureUneq at h
  split at h
  · simp only [Option.bind_eq_bind] at h
    obtain ⟨m1, -, h⟩ := Option.bind_eq_some_iff.1 h
    simp only [Option.pure_def, Option.some.injEq] at h
    rw [← h]
  · rw [← Option.some.inj h]

theorem localSite_grows (l : ℕ) (st : State σ N M) (i : Fin N) : st.cnt.Grows (localSite sys ph l st i).cnt := by
  obtain ⟨a1, a2, a3, a4, a5, a6⟩ := localSite_counts (sys := sys) (ph := ph) l st i
  refine ⟨?_, by rw [a1]; exact Nat.le_add_right _ _, a3.ge, a4.ge, a5.ge, a6.ge⟩
  rcases a2 with e | ⟨e, -⟩ <;> rw [e]
  exact Nat.le_succ _

theorem localFoldM (l : ℕ) (is : List (Fin N)) (st : State σ N M) :
    is.foldlM (fun st i => some (localSite sys ph l st i)) st = some (is.foldl (localSite sys ph l) st) := by
  induction is generalizing st with
  | nil => rfl
  | cons i is ih =>
    rw [List.foldlM_cons, List.foldl_cons]
    exact ih _

theorem localSlice_chk (l : ℕ) : Mono (localSlice sys ph l) ∧ Chk (localSlice sys ph l) (localSlice32 sys ph l) := by
  have m : ∀ i : Fin N, Mono fun st : State σ N M => some (localSite sys ph l st i) := by
    intro i a b e
    cases e
    exact localSite_grows l a i
  have c : ∀ i : Fin N, Chk (fun st : State σ N M => some (localSite sys ph l st i))
      fun st => checked (localSite sys ph l st i) := fun i a _ => rfl
  constructor
  · intro a b e
    unfold localSlice at e
    simp only [Option.bind_eq_bind] at e
    obtain ⟨⟨order, r⟩, -, e⟩ := Option.bind_eq_some_iff.1 e
    obtain ⟨sites, -, e⟩ := Option.bind_eq_some_iff.1 e
    exact Mono.foldlM m sites { a with rng := r } b ((localFoldM l sites _).trans e)
  · intro a ha
    unfold localSlice localSlice32
    rcases sys.rng.shuffle N a.rng with _ | ⟨order, r⟩
    · rfl
    · show (localOrder order ph.nLocal >>= fun sites => _) = ((localOrder order ph.nLocal >>= fun sites => _) >>= checked)
      rcases localOrder order ph.nLocal with _ | sites
      · rfl
      · have := Chk.foldlM c m sites { a with rng := r } ha
        beta_reduce at this
        rw [localFoldM] at this
        exact this

theorem phTimeSlice_chk [NeZero N] (noHS : Bool) (neqlt l : ℕ) : (Mono fun st => phTimeSlice sys ph noHS neqlt st l) ∧
    Chk (fun st => phTimeSlice sys ph noHS neqlt st l) fun st => phTimeSlice32 sys ph noHS neqlt st l := by
  have h1 : ∀ a b : State σ N M, (if noHS then some (wrap l a) else hsSlice sys l (wrap l a)) = some b → b.cnt = a.cnt := by
    intro a b e
    split at e
    · cases e; rfl
    · have := hsSlice_cnt l (wrap l a) b e
      exact this
  have h2 : ∀ a b : State σ N M, maybeRecompute sys l (updatePhB sys l a) = some b → b.cnt = a.cnt := by
    intro a b e
    have := maybeRecompute_cnt l (updatePhB sys l a) b e
    exact this
  have t := (Mono.keep h2).comp (Mono.keep (measurePh_cnt (sys := sys) neqlt l))
  have t' := (Chk.keep h2).comp (Chk.keep (measurePh_cnt (sys := sys) neqlt l)) (Mono.keep (measurePh_cnt neqlt l))
  obtain ⟨m, c⟩ := localSlice_chk (sys := sys) (ph := ph) l
  have hm := (Mono.keep h1).comp (m.comp t)
  have hc := (Chk.keep h1).comp (c.comp t' t) (m.comp t)
  unfold phTimeSlice phTimeSlice32
  cases noHS
  · exact ⟨hm, hc⟩
  · exact ⟨hm, hc⟩

theorem blockUpdate_mono [NeZero N] : Mono (blockUpdate sys ph) := by
  intro a b h
  obtain ⟨i, r, -, c1, c2⟩ := blockUpdate_counts a b h
  by_cases hg : ph.g (sys.orb i) = 0
  · exact .of_eq (c1 hg)
  · rcases c2 hg with e | e <;> rw [e] <;> refine ⟨?_, ?_, ?_, ?_, ?_, ?_⟩ <;>
      simp [Counters.attempt, Counters.accept]

theorem flipUpdate_mono [NeZero N] : Mono (flipUpdate sys ph) := by
  intro a b h
  obtain ⟨i, r, -, c1, c2⟩ := flipUpdate_counts a b h
  by_cases hg : ph.g (sys.orb i) = 0
  · exact .of_eq (c1 hg)
  · rcases c2 hg with e | e <;> rw [e] <;> refine ⟨?_, ?_, ?_, ?_, ?_, ?_⟩ <;>
      simp [Counters.attempt, Counters.accept]

theorem phIteration_chk [NeZero N] (noHS : Bool) (neqlt : ℕ) : Mono (phIteration sys ph noHS neqlt) ∧
    Chk (phIteration sys ph noHS neqlt) (phIteration32 sys ph noHS neqlt) := by
  have hs := fun l => phTimeSlice_chk (sys := sys) (ph := ph) noHS neqlt l
  have b : Chk (blockUpdate sys ph) (blockUpdate32 sys ph) := fun a _ => rfl
  have f : Chk (flipUpdate sys ph) (flipUpdate32 sys ph) := fun a _ => rfl
  have t := (blockUpdate_mono (sys := sys) (ph := ph)).iterateM ph.nBlock |>.comp
    ((flipUpdate_mono (sys := sys) (ph := ph)).iterateM ph.nBlock)
  have t' := (b.iterateM blockUpdate_mono ph.nBlock).comp (f.iterateM flipUpdate_mono ph.nBlock)
    (flipUpdate_mono.iterateM ph.nBlock)
  constructor
  · intro a
    exact (Mono.foldlM (fun l => (hs l).1) (List.range a.tsmU.L)).comp t a
  · intro a
    exact (Chk.foldlM (fun l => (hs l).2) (fun l => (hs l).1) (List.range a.tsmU.L)).comp t' t a

variable (cfg : Cfg)

theorem simBody_chk [NeZero N] (hp : cfg.usePhonons = true) (it : ℤ) : Mono (simBody sys ph cfg it) ∧
    Chk (simBody sys ph cfg it) (simBody32 sys ph cfg it) := by
  obtain ⟨m, c⟩ := phIteration_chk (sys := sys) (ph := ph) cfg.noHS (effNeqlt cfg it)
  have m' := Mono.keep (measureUneq_cnt (sys := sys) cfg it)
  have c' := Chk.keep (measureUneq_cnt (sys := sys) cfg it)
  have hm := m.comp m'
  have hc := c.comp c' m'
  unfold simBody simBody32
  simp only [hp, if_true]
  exact ⟨hm, hc⟩

theorem simLoop_chk [NeZero N] (hp : cfg.usePhonons = true) (stop : ℤ → Bool) (k : ℕ) (it : ℤ) (st : State σ N M)
    (p : Prog) (r : LoopResult (State σ N M)) (h : st.cnt.Fits) :
    simLoop (simBody32 sys ph cfg) stop k it st p = some r ↔
      simLoop (simBody sys ph cfg) stop k it st p = some r ∧ r.state.cnt.Fits := by
  have grow : ∀ (k : ℕ) (it : ℤ) (st : State σ N M) (p : Prog) (r : LoopResult (State σ N M)),
      simLoop (simBody sys ph cfg) stop k it st p = some r → st.cnt.Grows r.state.cnt := by
    intro k
    induction k with
    | zero => intro it st p r e; cases e; exact .refl _
    | succ k ih =>
      intro it st p r e
      unfold simLoop at e
      split at e
      · cases e; exact .refl _
      · obtain ⟨st1, e1, e⟩ := Option.bind_eq_some_iff.1 e
        exact ((simBody_chk cfg hp it).1 _ _ e1).trans (ih _ _ _ _ e)
  induction k generalizing it st p with
  | zero =>
    unfold simLoop
    constructor
    · intro e; cases e; exact ⟨rfl, h⟩
    · intro e; exact e.1
  | succ k ih =>
    unfold simLoop
    split
    · constructor
      · intro e; cases e; exact ⟨rfl, h⟩
      · intro e; exact e.1
    · rw [(simBody_chk cfg hp it).2 st h]
      rcases e : simBody sys ph cfg it st with _ | st1
      · simp
      · simp only [Option.bind_eq_bind, Option.bind_some]
        by_cases hf : st1.cnt.Fits
        · rw [checked_pos hf]
          exact ih _ _ _ hf
        · rw [checked_neg hf]
          constructor
          · intro e; cases e
          · rintro ⟨e1, e2⟩
            exact absurd (e2.of_grows (grow _ _ _ _ _ e1)) hf

/-- **C107** counting with `int` gives the same as counting without bound if the final counters are ints, and is undefined
otherwise -/
theorem simulate32_iff [NeZero N] (hp : cfg.usePhonons = true) (stop : ℤ → Bool) (it : ℤ) (rng : σ)
    (s : ℕ → Fin N → Fin 2) (X expX : ℕ → Fin N → ℝ) (cnt : Counters) (meas : M) (r : LoopResult (State σ N M))
    (h : cnt.Fits) : simulate32 sys ph cfg stop it rng s X expX cnt meas = some r ↔
      simulate sys ph cfg stop it rng s X expX cnt meas = some r ∧ r.state.cnt.Fits := by
  unfold simulate simulate32
  rcases e : startState sys cfg rng s X expX cnt meas with _ | st
  · simp
  · obtain ⟨-, -, -, -, e5, -⟩ := startState_frame cfg _ _ _ _ _ _ _ e
    exact simLoop_chk cfg hp stop _ _ _ _ _ (e5 ▸ h)

/-! ## numbers of attempts -/

/-- attempts in one iteration: never more than those of all sites, and exactly these if all orbitals are coupled -/
theorem phIteration_bound [NeZero N] (noHS : Bool) (neqlt : ℕ) (a b : State σ N M) (h : a.cnt.Sane)
    (hs : phIteration sys ph noHS neqlt a = some b) :
    b.cnt.localTotal ≤ a.cnt.localTotal + a.tsmU.L * ph.nLocal ∧ b.cnt.blockTotal ≤ a.cnt.blockTotal + ph.nBlock ∧
      b.cnt.flipTotal ≤ a.cnt.flipTotal + ph.nBlock := by
  unfold phIteration at hs
  simp only [Option.bind_eq_bind] at hs
  obtain ⟨st1, e1, hs⟩ := Option.bind_eq_some_iff.1 hs
  obtain ⟨st2, e2, e3⟩ := Option.bind_eq_some_iff.1 hs
  have h1 : ∀ (ls : List ℕ) (a b : State σ N M), a.cnt.Sane → ls.foldlM (phTimeSlice sys ph noHS neqlt) a = some b →
      b.cnt.localTotal ≤ a.cnt.localTotal + ls.length * ph.nLocal ∧
      b.cnt.blockTotal = a.cnt.blockTotal ∧ b.cnt.flipTotal = a.cnt.flipTotal := by
    intro ls
    induction ls with
    | nil => intro a b ha hb; cases hb; simp
    | cons l ls ih =>
      intro a b ha hb
      rw [List.foldlM_cons] at hb
      obtain ⟨c, f1, f2⟩ := Option.bind_eq_some_iff.1 hb
      obtain ⟨order, sites, -, ho, hc, t1, -, t2, -, t3⟩ := phTimeSlice_counts noHS neqlt l a c ha f1
      have hlen : coupled sys ph sites ≤ ph.nLocal := by
        rw [← localOrder_length order _ sites ho]
        exact List.length_filter_le _ _
      obtain ⟨g1, g2, g3⟩ := ih c b hc f2
      refine ⟨?_, g2.trans t2, g3.trans t3⟩
      rw [List.length_cons, Nat.succ_mul]
      omega
  have hit : ∀ (f : State σ N M → Option (State σ N M)) (x y z : Counters → ℕ)
      (_ : ∀ a b, f a = some b → x b.cnt ≤ x a.cnt + 1 ∧ y b.cnt = y a.cnt ∧ z b.cnt = z a.cnt)
      (n : ℕ) (a b : State σ N M), iterateM f n a = some b →
      x b.cnt ≤ x a.cnt + n ∧ y b.cnt = y a.cnt ∧ z b.cnt = z a.cnt := by
    intro f x y z hf n
    induction n with
    | zero => intro a b hb; cases hb; exact ⟨le_rfl, rfl, rfl⟩
    | succ n ih =>
      intro a b hb
      obtain ⟨c, f1, f2⟩ := Option.bind_eq_some_iff.1 hb
      obtain ⟨p1, p2, p3⟩ := hf a c f1
      obtain ⟨q1, q2, q3⟩ := ih c b f2
      exact ⟨by omega, q2.trans p2, q3.trans p3⟩
  obtain ⟨a1, a2, a3⟩ := h1 _ _ _ h e1
  rw [List.length_range] at a1
  obtain ⟨b1, b2, b3⟩ := hit (blockUpdate sys ph) Counters.blockTotal Counters.localTotal
    Counters.flipTotal (by
      intro a b hb
      obtain ⟨i, r, -, c1, c2⟩ := blockUpdate_counts a b hb
      by_cases hg : ph.g (sys.orb i) = 0
      · rw [c1 hg]; exact ⟨Nat.le_succ _, rfl, rfl⟩
      · rcases c2 hg with e | e <;> rw [e] <;> exact ⟨le_rfl, rfl, rfl⟩) _ _ _ e2
  obtain ⟨c1, c2, c3⟩ := hit (flipUpdate sys ph) Counters.flipTotal Counters.localTotal
    Counters.blockTotal (by
      intro a b hb
      obtain ⟨i, r, -, c1, c2⟩ := flipUpdate_counts a b hb
      by_cases hg : ph.g (sys.orb i) = 0
      · rw [c1 hg]; exact ⟨Nat.le_succ _, rfl, rfl⟩
      · rcases c2 hg with e | e <;> rw [e] <;> exact ⟨le_rfl, rfl, rfl⟩) _ _ _ e3
  exact ⟨by omega, by omega, by omega⟩

/-- the counters after `m` iterations -/
theorem runs_counters [NeZero N] (hp : cfg.usePhonons = true) (it : ℤ) (m : ℕ) (a b : State σ N M)
    (hL : a.tsmU.L = cfg.L) (h : a.cnt.Sane) (hr : runs (simBody sys ph cfg) it m a = some b) :
    b.tsmU.L = cfg.L ∧ b.cnt.Sane ∧ b.cnt.localTotal ≤ a.cnt.localTotal + m * (cfg.L * ph.nLocal) ∧
      b.cnt.blockTotal ≤ a.cnt.blockTotal + m * ph.nBlock ∧ b.cnt.flipTotal ≤ a.cnt.flipTotal + m * ph.nBlock ∧
      ((∀ o, ph.g o ≠ 0) → b.cnt.localTotal = a.cnt.localTotal + m * (cfg.L * ph.nLocal) ∧
        b.cnt.blockTotal = a.cnt.blockTotal + m * ph.nBlock ∧ b.cnt.flipTotal = a.cnt.flipTotal + m * ph.nBlock) := by
  induction m generalizing b with
  | zero => cases hr; exact ⟨hL, h, by simp, by simp, by simp, fun _ => by simp⟩
  | succ m ih =>
    obtain ⟨c, e1, e2⟩ := Option.bind_eq_some_iff.1 hr
    obtain ⟨i1, i2, i3, i4, i5, i6⟩ := ih c e1
    have triv : CountsBy sys (fun _ => 0) 0 0 0 := ⟨fun _ _ _ _ _ => rfl, fun _ _ _ _ _ _ _ => rfl, fun _ _ _ _ _ _ => rfl⟩
    have hL' := (simBody_count cfg triv _ c b i1 e2).1
    unfold simBody at e2
    simp only [hp, if_true, Option.bind_eq_bind] at e2
    obtain ⟨d, f1, f2⟩ := Option.bind_eq_some_iff.1 e2
    have hd := measureUneq_cnt cfg _ _ _ f2
    have s1 := phIteration_counts _ _ _ _ i2 f1
    obtain ⟨b1, b2, b3⟩ := phIteration_bound _ _ _ _ i2 f1
    rw [i1] at b1
    rw [hd]
    refine ⟨hL', s1, ?_, ?_, ?_, fun hg => ?_⟩
    · rw [Nat.succ_mul]; omega
    · rw [Nat.succ_mul]; omega
    · rw [Nat.succ_mul]; omega
    · obtain ⟨t1, t2, t3⟩ := phIteration_attempts _ _ _ _ hg i2 f1
      obtain ⟨j1, j2, j3⟩ := i6 hg
      rw [i1] at t1
      rw [t1, t2, t3, j1, j2, j3, Nat.succ_mul, Nat.succ_mul]
      exact ⟨by ring, by ring, by ring⟩

/-- **C107** the counters at the end of a run that starts with zero counters -/
theorem simulate_counters [NeZero N] (hp : cfg.usePhonons = true) (stop : ℤ → Bool) (it : ℤ) (rng : σ)
    (s : ℕ → Fin N → Fin 2) (X expX : ℕ → Fin N → ℝ) (meas : M) (r : LoopResult (State σ N M))
    (hr : simulate sys ph cfg stop it rng s X expX ⟨0, 0, 0, 0, 0, 0⟩ meas = some r) :
    it ≤ r.iteration ∧ (let n := (r.iteration - it).toNat; let c := r.state.cnt
      c.localAccept ≤ c.localTotal ∧ c.blockAccept ≤ c.blockTotal ∧ c.flipAccept ≤ c.flipTotal ∧
      c.localTotal ≤ n * (cfg.L * ph.nLocal) ∧ c.blockTotal ≤ n * ph.nBlock ∧ c.flipTotal ≤ n * ph.nBlock ∧
      ((∀ o, ph.g o ≠ 0) → c.localTotal = n * (cfg.L * ph.nLocal) ∧ c.blockTotal = n * ph.nBlock ∧
        c.flipTotal = n * ph.nBlock)) := by
  unfold simulate at hr
  simp only [Option.bind_eq_bind] at hr
  obtain ⟨st, e1, h⟩ := Option.bind_eq_some_iff.1 hr
  obtain ⟨m, -, a2, a3, -⟩ := simLoop_spec _ _ _ _ _ _ _ h
  obtain ⟨f1, -, -, -, f2, -⟩ := startState_frame cfg _ _ _ _ _ _ _ e1
  obtain ⟨-, b1, b2, b3, b4, b5⟩ := runs_counters cfg hp it m st r.state f1
    (by rw [f2]; exact ⟨le_rfl, le_rfl, le_rfl⟩) a3
  rw [f2] at b2 b3 b4 b5
  simp only [Nat.zero_add] at b2 b3 b4 b5
  have hn : (r.iteration - it).toNat = m := by omega
  rw [hn]
  exact ⟨by omega, b1.loc, b1.block, b1.flip, b2, b3, b4, b5⟩

/-- **C107** if the numbers of attempts in the whole run are ints, then no counter overflows -/
theorem counters_fit [NeZero N] (hp : cfg.usePhonons = true) (stop : ℤ → Bool) (it : ℤ) (rng : σ)
    (s : ℕ → Fin N → Fin 2) (X expX : ℕ → Fin N → ℝ) (meas : M) (r : LoopResult (State σ N M))
    (hr : simulate sys ph cfg stop it rng s X expX ⟨0, 0, 0, 0, 0, 0⟩ meas = some r)
    (h1 : (r.iteration - it).toNat * (cfg.L * ph.nLocal) ≤ 2147483647)
    (h2 : (r.iteration - it).toNat * ph.nBlock ≤ 2147483647) :
    simulate32 sys ph cfg stop it rng s X expX ⟨0, 0, 0, 0, 0, 0⟩ meas = some r := by
  obtain ⟨-, a1, a2, a3, a4, a5, a6, -⟩ := simulate_counters cfg hp stop it rng s X expX meas r hr
  refine (simulate32_iff cfg hp _ _ _ _ _ _ _ _ _ ⟨?_, ?_, ?_, ?_, ?_, ?_⟩).2 ⟨hr, ?_, ?_, ?_, ?_, ?_, ?_⟩ <;>
    first | exact Nat.zero_le _ | omega

/-- **C107** if all orbitals are coupled, then the condition is also necessary: a run that would need more attempts is
undefined -/
theorem counters_overflow [NeZero N] (hp : cfg.usePhonons = true) (hg : ∀ o, ph.g o ≠ 0) (stop : ℤ → Bool) (it : ℤ)
    (rng : σ) (s : ℕ → Fin N → Fin 2) (X expX : ℕ → Fin N → ℝ) (meas : M) (r : LoopResult (State σ N M))
    (hr : simulate sys ph cfg stop it rng s X expX ⟨0, 0, 0, 0, 0, 0⟩ meas = some r) :
    simulate32 sys ph cfg stop it rng s X expX ⟨0, 0, 0, 0, 0, 0⟩ meas = none ↔
      2147483647 < (r.iteration - it).toNat * (cfg.L * ph.nLocal) ∨
        2147483647 < (r.iteration - it).toNat * ph.nBlock := by
  obtain ⟨-, a1, a2, a3, a4, a5, a6, a7⟩ := simulate_counters cfg hp stop it rng s X expX meas r hr
  obtain ⟨b1, b2, b3⟩ := a7 hg
  constructor
  · intro h
    by_contra hc
    rw [counters_fit cfg hp stop it rng s X expX meas r hr (by omega) (by omega)] at h
    cases h
  · intro h
    rcases e : simulate32 sys ph cfg stop it rng s X expX ⟨0, 0, 0, 0, 0, 0⟩ meas with _ | r'
    · rfl
    · obtain ⟨c1, c2⟩ := (simulate32_iff cfg hp _ _ _ _ _ _ _ _ _ ⟨Nat.zero_le _, Nat.zero_le _, Nat.zero_le _,
        Nat.zero_le _, Nat.zero_le _, Nat.zero_le _⟩).1 e
      rw [hr] at c1
      cases c1
      have := c2.localTotal
      have := c2.blockTotal
      omega

end

end Verif.MonteCarlo

/-! ## The program -/

namespace Verif.Main

open Verif.MonteCarlo Verif.Random Verif.Params Verif.Files

variable {N : ℕ} (su : Setup N)

/-- phonon field and simulation (main.c:195-231) with counters of type `int` -/
noncomputable def perform32 [NeZero N] (stop : ℤ → Bool) (it : ℤ) (seed : Seed)
    (s : ℕ → Fin N → Fin 2) (meas : MeasData) : Option (LoopResult (State Seed N MeasData)) := do
  let r := if su.cfg.usePhonons then drawPhonons su.rng su.ph su.Ncell N su.cfg.L seed
    else (fun _ => 0, seed)
  let X := unflat r.1
  let expX := expPhonons su.ph su.Ncell su.cfg.L X
  let sys ← su.sys
  simulate32 sys su.ph su.cfg stop it r.2 s X expX zeroCounters meas

/-- **C107** for a process: if all its iterations together attempt at most `INT_MAX` local updates and at most `INT_MAX`
block updates, then counting with `int` makes no difference -/
theorem process_counters_fit [NeZero N] (hp : su.cfg.usePhonons = true)
    (h1 : su.total.toNat * (su.cfg.L * su.ph.nLocal) ≤ 2147483647) (h2 : su.total.toNat * su.ph.nBlock ≤ 2147483647)
    (stop : ℤ → Bool) (it : ℤ) (hit : 0 ≤ it) (seed : Seed) (s : ℕ → Fin N → Fin 2) (meas : MeasData) :
    perform32 su stop it seed s meas = perform su stop it seed s meas := by
  unfold perform32 perform
  rcases su.sys with _ | sys
  · rfl
  · simp only [Option.bind_eq_bind, Option.bind_some]
    generalize unflat (N := N) _ = X
    generalize expPhonons _ _ _ X = expX
    generalize (if su.cfg.usePhonons = true then _ else (_, seed)).2 = seed'
    rcases e : simulate sys su.ph su.cfg stop it seed' s X expX zeroCounters meas with _ | r
    · rcases e' : simulate32 sys su.ph su.cfg stop it seed' s X expX zeroCounters meas with _ | r'
      · rfl
      · have := (simulate32_iff su.cfg hp _ _ _ _ _ _ _ _ _ ⟨Nat.zero_le _, Nat.zero_le _, Nat.zero_le _,
          Nat.zero_le _, Nat.zero_le _, Nat.zero_le _⟩).1 e'
        rw [e] at this
        cases this.1
    · refine counters_fit su.cfg hp stop it seed' s X expX meas r e ?_ ?_
      · refine le_trans (Nat.mul_le_mul_right _ ?_) h1
        exact iterations_le e hit
      · refine le_trans (Nat.mul_le_mul_right _ ?_) h2
        exact iterations_le e hit
where
  iterations_le {sys : Sys Seed N MeasData} {stop : ℤ → Bool} {it : ℤ} {seed : Seed} {s : ℕ → Fin N → Fin 2}
      {X expX : ℕ → Fin N → ℝ} {meas : MeasData} {r : LoopResult (State Seed N MeasData)}
      (e : simulate sys su.ph su.cfg stop it seed s X expX zeroCounters meas = some r) (hit : 0 ≤ it) :
      (r.iteration - it).toNat ≤ su.total.toNat := by
    unfold simulate at e
    simp only [Option.bind_eq_bind] at e
    obtain ⟨st, -, h⟩ := Option.bind_eq_some_iff.1 e
    obtain ⟨m, hm, a2, -⟩ := simLoop_spec _ _ _ _ _ _ _ h
    unfold Setup.total
    omega

/-- a small system with `2^26` iterations and 64 local updates in each -/
noncomputable def exMany : SimParams ℝ :=
  { exPph with nsampl := 67108864, phonon := ⟨fun _ => 1, fun _ => 1, 1, 64, 1, 1⟩ }

theorem exMany_admissible : Admissible exMany := by
  constructor <;> first | (intros; rfl) | (intros; left; rfl) | decide

theorem exMany_guards : Guards exMany := by
  refine ⟨fun o _ => ?_, le_refl 0, fun _ => by decide, fun h => absurd h (lt_irrefl 0)⟩
  norm_num [exP, exPph, exMany]

instance : NeZero (sites exMany) := ⟨by decide⟩

open Classical in
/-- **C107** (witness) `exMany` is accepted, all array sizes and subscripts fit (C91), every run of it without a request to
stop would be defined if the counters were unbounded, but is undefined with counters of type `int` -/
theorem validated_counters_overflow {mc : Machine} (hmc : mc.Rounds) (fnbase : String) :
    validate exMany = 0 ∧ (Index.cfgOf exMany).Fits ∧ ∀ (seed : Seed), seed.NonZero → ∀ s,
      (∃ r, perform (mkSetup mc exMany fnbase) (fun _ => false) 0 seed s
          (MeasData.allocate (mkSetup mc exMany fnbase).maxNsampl) = some r) ∧
        perform32 (mkSetup mc exMany fnbase) (fun _ => false) 0 seed s
          (MeasData.allocate (mkSetup mc exMany fnbase).maxNsampl) = none := by
  refine ⟨(validate_iff _).1.2 exMany_admissible, ?_, fun seed hseed s => ?_⟩
  · have e : Index.cfgOf exMany = ⟨1, 1, 1, 0, 1, 1, 1, 1, 0, 0, 67108864, true, 64, 1⟩ := rfl
    rw [e]
    refine ⟨?_, ?_, ?_, ?_, ?_⟩ <;> norm_num [Index.Cfg.N, Index.Cfg.nB, Index.maxInt]
  · have hw : ∀ sys, sysOf mc exMany = some sys → ∀ s X,
        sys.weight exMany.L.toNat s (sys.expOf (phOf exMany) X) ≠ 0 :=
      fun sys h s _ => weight_one_site hmc exMany_admissible exMany_guards rfl sys h _ s _ fun _ _ => Real.exp_pos _
    obtain ⟨r, hr, -⟩ := perform_defined_ph_partial hmc exMany_admissible exMany_guards (by decide) rfl fnbase
      (fun _ => false) 0 seed hseed s (MeasData.allocate (mkSetup mc exMany fnbase).maxNsampl) rfl hw
    refine ⟨⟨r, hr⟩, ?_⟩
    have hp : (mkSetup mc exMany fnbase).cfg.usePhonons = true := rfl
    unfold perform at hr
    unfold perform32
    rcases hs : (mkSetup mc exMany fnbase).sys with _ | sys
    · rfl
    · rw [hs] at hr
      simp only [Option.bind_eq_bind, Option.bind_some] at hr ⊢
      refine (counters_overflow _ hp (fun o => ?_) _ _ _ _ _ _ _ r hr).2 (Or.inl ?_)
      · exact one_ne_zero
      · unfold simulate at hr
        simp only [Option.bind_eq_bind] at hr
        obtain ⟨st, -, h⟩ := Option.bind_eq_some_iff.1 hr
        obtain ⟨m, -, a2, -, -, -, b1, b2⟩ := simLoop_spec _ _ _ _ _ _ _ h
        have hm : m = 67108864 := by
          rcases hb : r.broke with _ | _
          · exact b2 hb
          · exact absurd (b1 hb).2 (by simp)
        rw [a2, hm]
        show 2147483647 < _ * (1 * 64)
        generalize hk : ((0 + ((67108864 : ℕ) : ℤ)) - 0).toNat = k
        omega

/-- non-vacuity of `process_counters_fit` -/
example (mc : Machine) (fnbase : String) :
    (mkSetup mc exPph fnbase).total.toNat * ((mkSetup mc exPph fnbase).cfg.L * (mkSetup mc exPph fnbase).ph.nLocal) ≤ 2147483647 ∧
      (mkSetup mc exPph fnbase).total.toNat * (mkSetup mc exPph fnbase).ph.nBlock ≤ 2147483647 := by
  constructor
  · show ((0 : ℤ) + 2).toNat * (1 * 1) ≤ _
    decide
  · show ((0 : ℤ) + 2).toNat * 1 ≤ _
    decide

end Verif.Main
