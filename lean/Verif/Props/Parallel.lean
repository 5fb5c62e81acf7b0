import Verif.Model.Parallel
import Mathlib.Order.BooleanAlgebra.Set

/-! # Property C58: the parallel sections are schedule independent -/

set_option autoImplicit false

namespace Verif.Parallel

open Verif.Lapack Verif.TimeFlow Verif.Greens Verif.Stratonovich Verif.MonteCarlo

variable {κ : Type} {V : κ → Type}

/-! ## Specification -/

/-- the thread uses nothing but `R`, `W` and writes nothing but `W`, except for the objects `G`, which it
may change but which have no influence on what it does otherwise -/
structure Thread.Within (T : Thread V) (R W G : Set κ) : Prop where
  frame : ∀ {a a' m m'}, T.Step a m a' m' → ∀ c, c ∉ W → c ∉ G → m' c = m c
  det : ∀ {a a' b' m m' n n'}, T.Step a m a' m' → T.Step a n b' n' → (∀ c ∈ R ∪ W, m c = n c) →
    a' = b' ∧ ∀ c ∈ W, m' c = n' c
  indep : ∀ {a a' m m' n}, T.Step a m a' m' → (∀ c ∈ R ∪ W, m c = n c) → ∃ b' n', T.Step a n b' n'

/-- the thread executes the section, in steps of any size -/
structure Thread.Executes (T : Thread V) (S : Sect V) (G : Set κ) : Prop where
  within : T.Within {c | c ∈ S.reads} {c | c ∈ S.writes} G
  result : ∀ m m₁, S.effect m = some m₁ →
    ∃ n a m', T.Steps n T.init m a m' ∧ T.Final a m' ∧ ∀ c, c ∉ G → m' c = m₁ c

/-! ## Proofs -/

variable {P Q T : Thread V} {R W R₁ W₁ R₂ W₂ G : Set κ}

theorem Thread.Steps.frame (hT : T.Within R W G) {n : ℕ} {a b : T.Local} {m m' : Mem V}
    (h : T.Steps n a m b m') : ∀ c, c ∉ W → c ∉ G → m' c = m c := by
  induction h with
  | refl => intros; rfl
  | snoc _ hs ih => intro c hc hg; rw [hT.frame hs c hc hg, ih c hc hg]

/-- runs of the same length lead to the same private data and the same content outside `G` -/
theorem Thread.Steps.det (hT : T.Within R W G) (hg : Disjoint G (R ∪ W)) {n : ℕ} {a b : T.Local} {m u : Mem V}
    (h : T.Steps n a m b u) {b' : T.Local} {v : Mem V} (h' : T.Steps n a m b' v) :
    b = b' ∧ ∀ c, c ∉ G → u c = v c := by
  induction h generalizing b' v with
  | refl =>
    cases h'
    exact ⟨rfl, fun _ _ => rfl⟩
  | snoc h1 s1 ih =>
    cases h' with
    | snoc h2 s2 =>
      obtain ⟨rfl, e⟩ := ih h2
      have hag : ∀ c ∈ R ∪ W, _ := fun c hc => e c fun hcg => Set.disjoint_left.1 hg hcg hc
      obtain ⟨e1, e2⟩ := hT.det s1 s2 hag
      refine ⟨e1, fun c hc => ?_⟩
      by_cases hw : c ∈ W
      · exact e2 c hw
      · rw [hT.frame s1 c hw hc, hT.frame s2 c hw hc, e c hc]

theorem Thread.Steps.prefix {n : ℕ} {a b : T.Local} {m u : Mem V} (h : T.Steps n a m b u) :
    ∀ k < n, ∃ a' m' a'' m'', T.Steps k a m a' m' ∧ T.Step a' m' a'' m'' := by
  induction h with
  | refl => intro k hk; omega
  | @snoc n a b c m m' m'' h1 s1 ih =>
    intro k hk
    rcases Nat.lt_succ_iff_lt_or_eq.1 hk with h | rfl
    · exact ih k h
    · exact ⟨b, m', c, m'', h1, s1⟩

/-- a run is not longer than a complete one; if shorter, there is a further step, also in any other
memory with the same content of `R` and `W`; if of the same length, none -/
theorem Thread.Steps.complete (hT : T.Within R W G) (hg : Disjoint G (R ∪ W)) {n k : ℕ} {a b b' : T.Local}
    {m u v w : Mem V} (h : T.Steps n a m b u) (hf : T.Final b u) (h' : T.Steps k a m b' v)
    (hw : ∀ c ∈ R ∪ W, w c = v c) :
    k ≤ n ∧ (k < n → ∃ c w', T.Step b' w c w') ∧ (k = n → T.Final b' w) := by
  have ag : ∀ {u v : Mem V}, (∀ c, c ∉ G → u c = v c) → ∀ c ∈ R ∪ W, u c = v c :=
    fun e c hc => e c fun hcg => Set.disjoint_left.1 hg hcg hc
  refine ⟨?_, ?_, ?_⟩
  · by_contra hk
    obtain ⟨x, mx, y, my, h1, s1⟩ := h'.prefix n (by omega)
    obtain ⟨rfl, e⟩ := h.det hT hg h1
    obtain ⟨y', n', s'⟩ := hT.indep s1 (ag fun c hc => (e c hc).symm)
    exact hf _ _ s'
  · intro hk
    obtain ⟨x, mx, y, my, h1, s1⟩ := h.prefix k hk
    obtain ⟨rfl, e⟩ := h'.det hT hg h1
    exact hT.indep s1 fun c hc => (ag e c hc).symm.trans (hw c hc).symm
  · rintro rfl y my s1
    obtain ⟨rfl, e⟩ := h.det hT hg h'
    obtain ⟨y', n', s'⟩ := hT.indep s1 fun c hc => (hw c hc).trans (ag e c hc).symm
    exact hf _ _ s'

/-- an interleaved execution consists of an execution of each of the threads -/
theorem Par.split (hP : P.Within R₁ W₁ G) (hQ : Q.Within R₂ W₂ G) (d₁ : Disjoint W₁ (R₂ ∪ W₂))
    (d₂ : Disjoint W₂ (R₁ ∪ W₁)) (g₁ : Disjoint G (R₁ ∪ W₁)) (g₂ : Disjoint G (R₂ ∪ W₂)) {k : ℕ} {a a' : P.Local}
    {b b' : Q.Local} {m m' : Mem V} (h : Par P Q k a b m a' b' m') :
    ∃ k₁ k₂ u v, k = k₁ + k₂ ∧ P.Steps k₁ a m a' u ∧ Q.Steps k₂ b m b' v ∧
      (∀ c ∈ R₁ ∪ W₁, m' c = u c) ∧ (∀ c ∈ R₂ ∪ W₂, m' c = v c) ∧
      ∀ c, c ∉ W₁ → c ∉ W₂ → c ∉ G → m' c = m c := by
  induction h with
  | refl a b m => exact ⟨0, 0, m, m, rfl, .refl _ _, .refl _ _, fun _ _ => rfl, fun _ _ => rfl, fun _ _ _ _ => rfl⟩
  | left _ s ih =>
    obtain ⟨k₁, k₂, u, v, rfl, hu, hv, e1, e2, e3⟩ := ih
    obtain ⟨x, u', s'⟩ := hP.indep s e1
    obtain ⟨rfl, ew⟩ := hP.det s s' e1
    refine ⟨k₁ + 1, k₂, u', v, by omega, hu.snoc s', hv, ?_, ?_, ?_⟩
    · intro c hc
      by_cases hw : c ∈ W₁
      · exact ew c hw
      · have hg : c ∉ G := fun hg => Set.disjoint_left.1 g₁ hg hc
        rw [hP.frame s c hw hg, hP.frame s' c hw hg, e1 c hc]
    · intro c hc
      rw [hP.frame s c (fun hw => Set.disjoint_left.1 d₁ hw hc) (fun hg => Set.disjoint_left.1 g₂ hg hc), e2 c hc]
    · intro c h1 h2 h3
      rw [hP.frame s c h1 h3, e3 c h1 h2 h3]
  | right _ s ih =>
    obtain ⟨k₁, k₂, u, v, rfl, hu, hv, e1, e2, e3⟩ := ih
    obtain ⟨x, v', s'⟩ := hQ.indep s e2
    obtain ⟨rfl, ew⟩ := hQ.det s s' e2
    refine ⟨k₁, k₂ + 1, u, v', by omega, hu, hv.snoc s', ?_, ?_, ?_⟩
    · intro c hc
      rw [hQ.frame s c (fun hw => Set.disjoint_left.1 d₂ hw hc) (fun hg => Set.disjoint_left.1 g₁ hg hc), e1 c hc]
    · intro c hc
      by_cases hw : c ∈ W₂
      · exact ew c hw
      · have hg : c ∉ G := fun hg => Set.disjoint_left.1 g₂ hg hc
        rw [hQ.frame s c hw hg, hQ.frame s' c hw hg, e2 c hc]
    · intro c h1 h2 h3
      rw [hQ.frame s c h2 h3, e3 c h1 h2 h3]

/-- every interleaved execution is finite and ends with the results of both threads -/
theorem interleave (hP : P.Within R₁ W₁ G) (hQ : Q.Within R₂ W₂ G) (d₁ : Disjoint W₁ (R₂ ∪ W₂))
    (d₂ : Disjoint W₂ (R₁ ∪ W₁)) (g₁ : Disjoint G (R₁ ∪ W₁)) (g₂ : Disjoint G (R₂ ∪ W₂)) {n₁ n₂ : ℕ} {a : P.Local}
    {b : Q.Local} {m u v : Mem V} (rP : P.Steps n₁ P.init m a u) (fP : P.Final a u)
    (rQ : Q.Steps n₂ Q.init m b v) (fQ : Q.Final b v) {k : ℕ} {a' : P.Local} {b' : Q.Local} {m' : Mem V}
    (h : Par P Q k P.init Q.init m a' b' m') :
    k ≤ n₁ + n₂ ∧ (P.Final a' m' ∧ Q.Final b' m' ↔ k = n₁ + n₂) ∧
    (k = n₁ + n₂ → (∀ c ∈ W₁, m' c = u c) ∧ (∀ c ∈ W₂, m' c = v c) ∧
      ∀ c, c ∉ W₁ → c ∉ W₂ → c ∉ G → m' c = m c) := by
  obtain ⟨k₁, k₂, u', v', rfl, hu, hv, e1, e2, e3⟩ := h.split hP hQ d₁ d₂ g₁ g₂
  obtain ⟨l1, p1, f1⟩ := rP.complete hP g₁ fP hu e1
  obtain ⟨l2, p2, f2⟩ := rQ.complete hQ g₂ fQ hv e2
  refine ⟨by omega, ⟨fun ⟨h1, h2⟩ => ?_, fun hk => ⟨f1 (by omega), f2 (by omega)⟩⟩, fun hk => ⟨fun c hc => ?_, fun c hc => ?_, e3⟩⟩
  · have i1 : ¬ k₁ < n₁ := fun hlt => by
      obtain ⟨x, w, s⟩ := p1 hlt
      exact h1 _ _ s
    have i2 : ¬ k₂ < n₂ := fun hlt => by
      obtain ⟨x, w, s⟩ := p2 hlt
      exact h2 _ _ s
    omega
  · obtain rfl : k₁ = n₁ := by omega
    rw [e1 c (Or.inr hc)]
    exact (hu.det hP g₁ rP).2 c fun hg => Set.disjoint_left.1 g₁ hg (Or.inr hc)
  · obtain rfl : k₂ = n₂ := by omega
    rw [e2 c (Or.inr hc)]
    exact (hv.det hQ g₂ rQ).2 c fun hg => Set.disjoint_left.1 g₂ hg (Or.inr hc)

/-- the declared use of the memory is that of the effect -/
structure Sect.Sound (S : Sect V) : Prop where
  frame : ∀ m m₁, S.effect m = some m₁ → ∀ c ∉ S.writes, m₁ c = m c
  indep : ∀ m n m₁, S.effect m = some m₁ → (∀ c ∈ S.reads ++ S.writes, m c = n c) →
    ∃ n₁, S.effect n = some n₁ ∧ ∀ c ∈ S.writes, m₁ c = n₁ c

theorem conflictFree_iff [DecidableEq κ] (A B : Sect V) :
    conflictFree A B = true ↔ (∀ c ∈ A.writes, c ∉ B.reads ++ B.writes) ∧
      ∀ c ∈ B.writes, c ∉ A.reads ++ A.writes := by
  simp [conflictFree]

/-- both orders of executing two sections without conflict give the same result -/
theorem sections_commute [DecidableEq κ] {A B : Sect V} (hA : A.Sound) (hB : B.Sound) (h : conflictFree A B = true)
    (m m₁ m₂ : Mem V) (h1 : A.effect m = some m₁) (h2 : B.effect m₁ = some m₂) :
    ∃ n₁, B.effect m = some n₁ ∧ A.effect n₁ = some m₂ ∧
      (∀ c ∈ A.writes, m₂ c = m₁ c) ∧ (∀ c ∈ B.writes, m₂ c = n₁ c) ∧
      ∀ c, c ∉ A.writes → c ∉ B.writes → m₂ c = m c := by
  obtain ⟨c1, c2⟩ := (conflictFree_iff A B).1 h
  obtain ⟨n₁, hn1, e1⟩ := hB.indep m₁ m m₂ h2 fun c hc => hA.frame m m₁ h1 c fun hw => c1 c hw hc
  obtain ⟨n₂, hn2, e2⟩ := hA.indep m n₁ m₁ h1 fun c hc => (hB.frame m n₁ hn1 c fun hw => c2 c hw hc).symm
  have aB : ∀ c ∈ A.writes, c ∉ B.writes := fun c hc hb => c1 c hc (List.mem_append_right _ hb)
  have e : n₂ = m₂ := by
    funext c
    by_cases ha : c ∈ A.writes
    · rw [← e2 c ha, hB.frame m₁ m₂ h2 c (aB c ha)]
    · rw [hA.frame n₁ n₂ hn2 c ha]
      by_cases hb : c ∈ B.writes
      · exact (e1 c hb).symm
      · rw [hB.frame m n₁ hn1 c hb, hB.frame m₁ m₂ h2 c hb, hA.frame m m₁ h1 c ha]
  subst e
  refine ⟨n₁, hn1, hn2, fun c hc => (e2 c hc).symm, fun c hc => ?_, fun c ha hb => ?_⟩
  · exact hA.frame n₁ n₂ hn2 c fun ha => aB c ha hc
  · rw [hA.frame n₁ n₂ hn2 c ha, hB.frame m n₁ hn1 c hb]

/-- every execution of two sections without conflict, in steps of any size and with any interleaving,
is finite and ends with the result of executing the sections one after the other -/
theorem sections_independent [DecidableEq κ] {A B : Sect V} (hA : A.Sound) (hB : B.Sound)
    (h : conflictFree A B = true) (hGA : ∀ c ∈ G, c ∉ A.reads ++ A.writes) (hGB : ∀ c ∈ G, c ∉ B.reads ++ B.writes)
    (hP : P.Executes A G) (hQ : Q.Executes B G) (m m₁ m₂ : Mem V) (h1 : A.effect m = some m₁)
    (h2 : B.effect m₁ = some m₂) :
    ∃ n, ∀ k a b m', Par P Q k P.init Q.init m a b m' →
      k ≤ n ∧ (P.Final a m' ∧ Q.Final b m' ↔ k = n) ∧ (k = n → ∀ c, c ∉ G → m' c = m₂ c) := by
  obtain ⟨n₁, hn1, hn2, w1, w2, w3⟩ := sections_commute hA hB h m m₁ m₂ h1 h2
  obtain ⟨c1, c2⟩ := (conflictFree_iff A B).1 h
  obtain ⟨k1, a, u, rP, fP, eP⟩ := hP.result m m₁ h1
  obtain ⟨k2, b, v, rQ, fQ, eQ⟩ := hQ.result m n₁ hn1
  have dis : ∀ {S : Set κ} {C : Sect V}, (∀ c ∈ S, c ∉ C.reads ++ C.writes) →
      Disjoint S ({c | c ∈ C.reads} ∪ {c | c ∈ C.writes}) := fun hS => Set.disjoint_left.2 fun c hc hu =>
    hS c hc (List.mem_append.2 hu)
  have gw1 : ∀ c ∈ A.writes, c ∉ G := fun c hc hg => hGA c hg (List.mem_append_right _ hc)
  have gw2 : ∀ c ∈ B.writes, c ∉ G := fun c hc hg => hGB c hg (List.mem_append_right _ hc)
  refine ⟨k1 + k2, fun k a' b' m' hpar => ?_⟩
  obtain ⟨i1, i2, i3⟩ := interleave hP.within hQ.within (dis c1) (dis c2) (dis hGA) (dis hGB) rP fP rQ fQ hpar
  refine ⟨i1, i2, fun hk c hc => ?_⟩
  obtain ⟨j1, j2, j3⟩ := i3 hk
  by_cases ha : c ∈ A.writes
  · rw [j1 c ha, eP c hc, w1 c ha]
  · by_cases hb : c ∈ B.writes
    · rw [j2 c hb, eQ c hc, w2 c hb]
    · rw [j3 c ha hb hc, w3 c ha hb]

/-! ## The parallel regions of the code -/

variable {N : ℕ}

theorem sect_sound (r : List Cell) (w : Cell) (f : Memory N → Option (w.Val N))
    (hf : ∀ m n, (∀ c ∈ r ++ [w], m c = n c) → f m = f n) : (sect r w f).Sound := by
  refine ⟨fun m m₁ h c hc => ?_, fun m n m₁ h hag => ?_⟩
  · obtain ⟨v, -, rfl⟩ := Option.map_eq_some_iff.1 h
    rw [Function.update_of_ne]
    exact fun e => hc (by simp [sect, e])
  · obtain ⟨v, hv, rfl⟩ := Option.map_eq_some_iff.1 h
    refine ⟨Function.update n w v, ?_, fun c hc => ?_⟩
    · show (f n).map _ = _
      rw [← hf m n hag, hv]
      rfl
    · obtain rfl : c = w := by simpa [sect] using hc
      rw [Function.update_self, Function.update_self]

variable {σ M : Type} (sys : Sys σ N M)

/-- the sections of each region use what the declarations say, do not conflict, and do not use the
table of the profiler -/
theorem regions_ok [NeZero N] {A B : Sect (Cell.Val N)} (h : IsRegion sys A B) :
    A.Sound ∧ B.Sound ∧ conflictFree A B = true ∧ Cell.prof ∉ A.reads ++ A.writes ∧
    Cell.prof ∉ B.reads ++ B.writes := by
  have key : ∀ (r r' : List Cell) (w w' : Cell) (f : Memory N → Option (w.Val N)) (f' : Memory N → Option (w'.Val N)),
      (∀ m n, (∀ c ∈ r ++ [w], m c = n c) → f m = f n) → (∀ m n, (∀ c ∈ r' ++ [w'], m c = n c) → f' m = f' n) →
      (¬ w ∈ r' ++ [w'] ∧ ¬ w' ∈ r ++ [w] ∧ ¬ Cell.prof ∈ r ++ [w] ∧ ¬ Cell.prof ∈ r' ++ [w']) →
      (sect r w f).Sound ∧ (sect r' w' f').Sound ∧ conflictFree (sect r w f) (sect r' w' f') = true ∧
      Cell.prof ∉ (sect r w f).reads ++ (sect r w f).writes ∧
      Cell.prof ∉ (sect r' w' f').reads ++ (sect r' w' f').writes := by
    intro r r' w w' f f' hf hf' ⟨c1, c2, c3, c4⟩
    refine ⟨sect_sound _ _ _ hf, sect_sound _ _ _ hf', (conflictFree_iff _ _).2 ⟨?_, ?_⟩, c3, c4⟩
    · intro c hc
      obtain rfl : c = w := by simpa [sect] using hc
      exact c1
    · intro c hc
      obtain rfl : c = w' := by simpa [sect] using hc
      exact c2
  cases h <;>
  exact key _ _ _ _ _ _ (fun m n hag => by simp [hag] <;> rfl) (fun m n hag => by simp [hag] <;> rfl) (by decide)

/-- C58: for each parallel region of the simulation and of the unequal time measurement, and for threads
which execute its sections in steps of any size: every interleaving of the steps ends after the same
number of steps, with the result of executing the sections one after the other (in either order). Only
the table of the profiler may depend on the schedule. -/
theorem parallel_regions [NeZero N] {A B : Sect (Cell.Val N)} (h : IsRegion sys A B) (P Q : Thread (Cell.Val N))
    (hP : P.Executes A {.prof}) (hQ : Q.Executes B {.prof}) (m m₁ m₂ : Memory N) (h1 : A.effect m = some m₁)
    (h2 : B.effect m₁ = some m₂) :
    (∃ n₁, B.effect m = some n₁ ∧ A.effect n₁ = some m₂) ∧
    ∃ n, ∀ k a b m', Par P Q k P.init Q.init m a b m' →
      k ≤ n ∧ (P.Final a m' ∧ Q.Final b m' ↔ k = n) ∧ (k = n → ∀ c, c ≠ .prof → m' c = m₂ c) := by
  obtain ⟨hA, hB, hc, p1, p2⟩ := regions_ok sys h
  constructor
  · obtain ⟨n₁, e1, e2, -⟩ := sections_commute hA hB hc m m₁ m₂ h1 h2
    exact ⟨n₁, e1, e2⟩
  · refine sections_independent hA hB hc ?_ ?_ hP hQ m m₁ m₂ h1 h2
    · rintro c rfl; exact p1
    · rintro c rfl; exact p2

/-! ### The regions and the model of the simulation -/

section model

variable (nU nD : TSM N) (gU gD : GreensFn N) (cU cD : GreensUneq.Arrays)
  (prof : HashTable.Table Profiler.Entry) (st : State σ N M)

/-- running the sections of the regions one after the other is what the model of monte_carlo.c does -/
theorem wrap_sections (l : ℕ) :
    ((wrapU l).effect (memory st nU nD gU gD cU cD prof)).bind (wrapD l).effect
      = some (memory (wrap l st) nU nD gU gD cU cD prof) := by
  refine Eq.trans (b := some _) rfl (congrArg some (funext fun c => ?_))
  cases c <;> rfl

theorem update_sections (l : ℕ) :
    ((updU sys l).effect (memory st nU nD gU gD cU cD prof)).bind (updD sys l).effect
      = some (memory (updateB sys l st) nU nD gU gD cU cD prof) := by
  refine Eq.trans (b := some _) rfl (congrArg some (funext fun c => ?_))
  cases c <;> rfl

theorem updatePh_sections (l : ℕ) :
    ((updPhU sys l).effect (memory st nU nD gU gD cU cD prof)).bind (updPhD sys l).effect
      = some (memory (updatePhB sys l st) nU nD gU gD cU cD prof) := by
  refine Eq.trans (b := some _) rfl (congrArg some (funext fun c => ?_))
  cases c <;> rfl

theorem recompute_sections [NeZero N] (shift : ℕ) :
    ((conU sys shift).effect (memory st nU nD gU gD cU cD prof)).bind (conD sys shift).effect
      = (recompute sys shift st).map fun st' => memory st' nU nD gU gD cU cD prof := by
  unfold recompute conU conD sect
  simp only [Option.bind_eq_bind]
  have e : memory st nU nD gU gD cU cD prof .tsmU = st.tsmU := rfl
  rw [e]
  cases greenConstruct sys.lp st.tsmU shift with
  | none => rfl
  | some gu =>
    show Option.map (fun v => Function.update (Function.update (memory st nU nD gU gD cU cD prof) Cell.Gu gu)
      Cell.Gd v) (greenConstruct sys.lp st.tsmD shift) = _
    simp only [Option.bind_some]
    cases greenConstruct sys.lp st.tsmD shift with
    | none => rfl
    | some gd =>
      refine Eq.trans (b := some _) rfl (congrArg some (funext fun c => ?_))
      cases c <;> rfl

/-- the Green's functions after an accepted proposal of `hsSite` or `localSite`, up to their
determinants, which are updated after the parallel region -/
theorem shermanMorrison_sections (du dd : (ℕ → Fin N → Fin 2) → ℝ) (i : Fin N) :
    ((smU du i).effect (memory st nU nD gU gD cU cD prof)).bind (smD dd i).effect
      = some (memory { st with
          Gu := { st.Gu with mat := (applyUpdate st.Gu i (du st.s) 0).mat }
          Gd := { st.Gd with mat := (applyUpdate st.Gd i (dd st.s) 0).mat } } nU nD gU gD cU cD prof) := by
  refine Eq.trans (b := some _) rfl (congrArg some (funext fun c => ?_))
  cases c <;> rfl

/-- the matrices of `decide` -/
theorem initNew_sections :
    ((initNewU sys).effect (memory st nU nD gU gD cU cD prof)).bind (initNewD sys).effect
      = some (memory st
        (initWith (sys.phB sys.hs.expVu st.s st.expX) (sys.phInvB sys.hs.expVu st.s st.expX) sys.W0 nU)
        (initWith (sys.phB sys.hs.expVd st.s st.expX) (sys.phInvB sys.hs.expVd st.s st.expX) sys.W0 nD)
        gU gD cU cD prof) := by
  refine Eq.trans (b := some _) rfl (congrArg some (funext fun c => ?_))
  cases c <;> rfl

/-- the Green's functions of `decide` -/
theorem constructNew_sections [NeZero N] :
    ((conNewU sys).effect (memory st nU nD gU gD cU cD prof)).bind (conNewD sys).effect
      = do
        let gu ← greenConstruct sys.lp nU 0
        let gd ← greenConstruct sys.lp nD 0
        return memory st nU nD gu gd cU cD prof := by
  unfold conNewU conNewD sect
  simp only [Option.bind_eq_bind]
  have e : memory st nU nD gU gD cU cD prof .newTsmU = nU := rfl
  rw [e]
  cases greenConstruct sys.lp nU 0 with
  | none => rfl
  | some gu =>
    show Option.map (fun v => Function.update (Function.update (memory st nU nD gU gD cU cD prof) Cell.newGu gu)
      Cell.newGd v) (greenConstruct sys.lp nD 0) = _
    simp only [Option.bind_some]
    cases greenConstruct sys.lp nD 0 with
    | none => rfl
    | some gd =>
      refine Eq.trans (b := some _) rfl (congrArg some (funext fun c => ?_))
      cases c <;> rfl

/-- the Green's functions of `AccumulateUnequalTimeMeasurement` -/
theorem uneq_sections (alg : BlockCyclic.QRs N) (L : ℕ) (tau : BlockCyclic.Buf) :
    ((uneqU alg L tau).effect (memory st nU nD gU gD cU cD prof)).bind (uneqD alg L tau).effect
      = do
        let u ← GreensUneq.compute alg st.tsmU L tau cU
        let d ← GreensUneq.compute alg st.tsmD L tau cD
        return memory st nU nD gU gD u d prof := by
  unfold uneqU uneqD sect
  simp only [Option.bind_eq_bind]
  have e : memory st nU nD gU gD cU cD prof .tsmU = st.tsmU := rfl
  have e' : memory st nU nD gU gD cU cD prof .curU = cU := rfl
  rw [e, e']
  cases GreensUneq.compute alg st.tsmU L tau cU with
  | none => rfl
  | some u =>
    show Option.map (fun v => Function.update (Function.update (memory st nU nD gU gD cU cD prof) Cell.curU u)
      Cell.curD v) (GreensUneq.compute alg st.tsmD L tau cD) = _
    simp only [Option.bind_some]
    cases GreensUneq.compute alg st.tsmD L tau cD with
    | none => rfl
    | some d =>
      refine Eq.trans (b := some _) rfl (congrArg some (funext fun c => ?_))
      cases c <;> rfl

end model

/-! ## Non-vacuity -/

/-- the thread which executes a section in two steps: it first changes the objects `G`, then does the
work -/
def twoSteps (S : Sect V) (g : Mem V → Mem V) : Thread V where
  Local := ℕ
  init := 0
  Step a m b m' := (a = 0 ∧ b = 1 ∧ m' = g m) ∨ (a = 1 ∧ b = 2 ∧ S.effect m = some m')

theorem twoSteps_executes {S : Sect V} (hS : S.Sound) (g : Mem V → Mem V) (hg : ∀ m c, c ∉ G → g m c = m c)
    (hGS : ∀ c ∈ G, c ∉ S.reads ++ S.writes) : (twoSteps S g).Executes S G := by
  have hgS : ∀ m c, c ∈ S.reads ++ S.writes → g m c = m c := fun m c hc => hg m c fun hG => hGS c hG hc
  refine ⟨⟨?_, ?_, ?_⟩, ?_⟩
  · rintro a a' m m' (⟨-, -, rfl⟩ | ⟨-, -, h⟩) c hw hG
    · exact hg m c hG
    · exact hS.frame _ _ h c hw
  · rintro a a' b' m m' n n' (⟨rfl, rfl, rfl⟩ | ⟨rfl, rfl, h⟩) (⟨h0, rfl, rfl⟩ | ⟨h0, rfl, h'⟩) hag
    · exact ⟨rfl, fun c hc => by
        rw [hgS m c (List.mem_append_right _ hc), hgS n c (List.mem_append_right _ hc), hag c (Or.inr hc)]⟩
    · cases h0
    · cases h0
    · refine ⟨rfl, fun c hc => ?_⟩
      obtain ⟨n₁, h1, e⟩ := hS.indep m n m' h fun c hc => hag c (List.mem_append.1 hc)
      obtain rfl : n₁ = n' := Option.some.inj (h1.symm.trans h')
      exact e c hc
  · rintro a a' m m' n (⟨rfl, rfl, rfl⟩ | ⟨rfl, rfl, h⟩) hag
    · exact ⟨(1 : ℕ), g n, Or.inl ⟨rfl, rfl, rfl⟩⟩
    · obtain ⟨n₁, h1, -⟩ := hS.indep m n m' h fun c hc => hag c (List.mem_append.1 hc)
      exact ⟨(2 : ℕ), n₁, Or.inr ⟨rfl, rfl, h1⟩⟩
  · intro m m₁ h
    obtain ⟨n₁, h1, e⟩ := hS.indep m (g m) m₁ h fun c hc => (hgS m c hc).symm
    refine ⟨2, (2 : ℕ), n₁, ((Thread.Steps.refl _ _).snoc (Or.inl ⟨rfl, rfl, rfl⟩)).snoc (Or.inr ⟨rfl, rfl, h1⟩), ?_, ?_⟩
    · rintro b m' (⟨h0, -, -⟩ | ⟨h0, -, -⟩) <;> cases h0
    · intro c hc
      by_cases hw : c ∈ S.writes
      · exact (e c hw).symm
      · rw [hS.frame _ _ h1 c hw, hg m c hc, hS.frame _ _ h c hw]

/-- non-vacuity: threads which count in the table of the profiler and then wrap the Green's functions -/
example (sys : Sys σ N M) [NeZero N] (l : ℕ) (tab : HashTable.Table Profiler.Entry) :
    ∃ P Q : Thread (Cell.Val N), IsRegion sys (wrapU l) (wrapD l) ∧ P.Executes (wrapU l) {.prof} ∧
      Q.Executes (wrapD l) {.prof} := by
  have hr : IsRegion sys (wrapU l) (wrapD l) := .wrap l
  obtain ⟨hA, hB, -, p1, p2⟩ := regions_ok sys hr
  refine ⟨twoSteps _ fun m => Function.update m .prof tab, twoSteps _ fun m => Function.update m .prof tab, hr,
    twoSteps_executes hA _ (fun m c hc => Function.update_of_ne hc _ _) ?_,
    twoSteps_executes hB _ (fun m c hc => Function.update_of_ne hc _ _) ?_⟩
  · rintro c rfl; exact p1
  · rintro c rfl; exact p2

/-- the absence of conflicts is needed: two threads which increment the same object by loading and
storing it may lose an increment -/
def increment : Thread (fun _ : Unit => ℕ) where
  Local := Option ℕ × Bool
  init := (none, false)
  Step a m b m' := (a = (none, false) ∧ b = (some (m ()), false) ∧ m' = m) ∨
    ∃ x, a = (some x, false) ∧ b = (none, true) ∧ m' = fun _ => x + 1

theorem lost_increment :
    (∃ a b m', Par increment increment 4 increment.init increment.init (fun _ => 0) a b m' ∧ m' () = 1 ∧
      increment.Final a m' ∧ increment.Final b m') ∧
    ∃ a b m', Par increment increment 4 increment.init increment.init (fun _ => 0) a b m' ∧ m' () = 2 ∧
      increment.Final a m' ∧ increment.Final b m' := by
  have fin : ∀ m, increment.Final (none, true) m := by
    rintro m b m' (⟨h, -⟩ | ⟨x, h, -⟩) <;> cases h
  have load : ∀ m, increment.Step (none, false) m (some (m ()), false) m := fun m => Or.inl ⟨rfl, rfl, rfl⟩
  have store : ∀ m x, increment.Step (some x, false) m (none, true) fun _ => x + 1 :=
    fun m x => Or.inr ⟨x, rfl, rfl, rfl⟩
  constructor
  · exact ⟨_, _, _, ((((Par.refl _ _ _).left (load _)).right (load _)).left (store _ _)).right (store _ _), rfl,
      fin _, fin _⟩
  · exact ⟨_, _, _, ((((Par.refl _ _ _).left (load _)).left (store _ _)).right (load _)).right (store _ _), rfl,
      fin _, fin _⟩

end Verif.Parallel
