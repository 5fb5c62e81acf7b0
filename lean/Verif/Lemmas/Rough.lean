import Verif.Lemmas.Ergodic
import Mathlib.Algebra.BigOperators.Group.List.Lemmas
import Mathlib.Algebra.Order.BigOperators.Group.List

/-! # Random steps which follow a Markov chain approximately

The elements `B` of the process which is compared with the chain carry no measurable structure: they include the numbers a
program computes.  A step has finitely many outcomes, which are listed with their probabilities. -/

set_option autoImplicit false

namespace Verif.Rough

open MeasureTheory Verif.Ergodic

variable {σ : Type} [MeasurableSpace σ] {P : Measure σ} {A B C : Type}

/-- sum over the outcomes -/
def av (q : List (ℝ × B)) (f : B → ℝ) : ℝ := (q.map fun p => p.1 * f p.2).sum

/-- value of a function at the result of a step -/
def ev (f : B → σ → ℝ) (t : Option (B × σ)) : ℝ := t.elim 0 fun t => f t.1 t.2

/-- The step `F` has the outcomes `q` with their probabilities, and the state left behind by the source is independent of the
outcome and distributed as before. -/
structure Spread (P : Measure σ) (F : σ → Option (B × σ)) (q : List (ℝ × B)) : Prop where
  mem : ∀ r, ∃ p ∈ q, ∃ r', F r = some (p.2, r')
  nonneg : ∀ p ∈ q, 0 ≤ p.1
  rule : ∀ f : B → σ → ℝ, (∀ p ∈ q, Integrable (f p.2) P) →
    Integrable (fun r => ev f (F r)) P ∧ ∫ r, ev f (F r) ∂P = av q fun b => ∫ r, f b r ∂P

omit [MeasurableSpace σ] in
@[simp] theorem ev_some (f : B → σ → ℝ) (t : B × σ) : ev f (some t) = f t.1 t.2 := rfl

theorem av_add (q : List (ℝ × B)) (f g : B → ℝ) : av q (fun b => f b + g b) = av q f + av q g := by
  unfold av
  induction q with
  | nil => simp
  | cons p q ih => simp only [List.map_cons, List.sum_cons, ih]; ring

theorem av_mul (q : List (ℝ × B)) (c : ℝ) (f : B → ℝ) : av q (fun b => c * f b) = c * av q f := by
  unfold av
  induction q with
  | nil => simp
  | cons p q ih => simp only [List.map_cons, List.sum_cons, ih]; ring

theorem av_mono {q : List (ℝ × B)} (hq : ∀ p ∈ q, 0 ≤ p.1) {f g : B → ℝ} (h : ∀ p ∈ q, f p.2 ≤ g p.2) : av q f ≤ av q g := by
  unfold av
  exact List.sum_le_sum fun p hp => mul_le_mul_of_nonneg_left (h p hp) (hq p hp)

theorem av_congr {q : List (ℝ × B)} {f g : B → ℝ} (h : ∀ p ∈ q, f p.2 = g p.2) : av q f = av q g := by
  unfold av
  exact congrArg List.sum (List.map_congr_left fun p hp => by rw [h p hp])

theorem av_flatMap (q : List (ℝ × B)) (q' : B → List (ℝ × C)) (f : C → ℝ) :
    av (q.flatMap fun p => (q' p.2).map fun p' => (p.1 * p'.1, p'.2)) f = av q fun b => av (q' b) f := by
  unfold av
  induction q with
  | nil => simp
  | cons p q ih =>
    simp only [List.flatMap_cons, List.map_append, List.sum_append, ih, List.map_cons, List.sum_cons, List.map_map]
    rw [← List.sum_map_mul_left]
    congr 3
    funext p'
    simp [mul_assoc]

variable {F : σ → Option (B × σ)} {q : List (ℝ × B)}

theorem Spread.sum_one [IsProbabilityMeasure P] (h : Spread P F q) : av q (fun _ => 1) = 1 := by
  have := (h.rule (fun _ _ => 1) fun _ _ => integrable_const _).2
  have e : ∀ r, ev (fun (_ : B) (_ : σ) => (1 : ℝ)) (F r) = 1 := by
    intro r
    obtain ⟨p, -, r', e⟩ := h.mem r
    rw [e]
    rfl
  simp only [e] at this
  simpa using this.symm

theorem Spread.av_const [IsProbabilityMeasure P] (h : Spread P F q) (c : ℝ) : av q (fun _ => c) = c := by
  have := av_mul q c fun _ => 1
  simp only [mul_one] at this
  rw [this, h.sum_one, mul_one]

theorem Spread.abs_av_le [IsProbabilityMeasure P] (h : Spread P F q) {f : B → ℝ} {c : ℝ} (hf : ∀ p ∈ q, |f p.2| ≤ c) :
    |av q f| ≤ c := by
  rw [abs_le]
  constructor
  · have := av_mono h.nonneg (f := fun _ => -c) (g := f) fun p hp => (abs_le.1 (hf p hp)).1
    rwa [h.av_const] at this
  · have := av_mono h.nonneg (g := fun _ => c) (f := f) fun p hp => (abs_le.1 (hf p hp)).2
    rwa [h.av_const] at this

theorem Spread.pure [IsProbabilityMeasure P] (b : B) : Spread P (fun r => some (b, r)) [(1, b)] where
  mem r := ⟨(1, b), List.mem_singleton.2 rfl, r, rfl⟩
  nonneg p hp := by rw [List.mem_singleton.1 hp]; exact zero_le_one
  rule f hf := ⟨hf (1, b) (List.mem_singleton.2 rfl), by simp [av]⟩

theorem Spread.bind [IsProbabilityMeasure P] {G : B → σ → Option (C × σ)} {q' : B → List (ℝ × C)} (h : Spread P F q)
    (h' : ∀ p ∈ q, Spread P (G p.2) (q' p.2)) :
    Spread P (fun r => (F r).bind fun t => G t.1 t.2) (q.flatMap fun p => (q' p.2).map fun p' => (p.1 * p'.1, p'.2)) where
  mem r := by
    obtain ⟨p, hp, r', e⟩ := h.mem r
    obtain ⟨p', hp', r'', e'⟩ := (h' p hp).mem r'
    refine ⟨(p.1 * p'.1, p'.2), List.mem_flatMap.2 ⟨p, hp, List.mem_map.2 ⟨p', hp', rfl⟩⟩, r'', ?_⟩
    rw [e]
    exact e'
  nonneg p hp := by
    obtain ⟨p1, h1, h2⟩ := List.mem_flatMap.1 hp
    obtain ⟨p2, h3, rfl⟩ := List.mem_map.1 h2
    exact mul_nonneg (h.nonneg p1 h1) ((h' p1 h1).nonneg p2 h3)
  rule f hf := by
    have e : ∀ r, ev f ((F r).bind fun t => G t.1 t.2) = ev (fun b r => ev f (G b r)) (F r) := by
      intro r
      cases F r <;> rfl
    simp only [e]
    have key : ∀ p ∈ q, Integrable (fun r => ev f (G p.2 r)) P ∧ ∫ r, ev f (G p.2 r) ∂P
        = av (q' p.2) fun b => ∫ r, f b r ∂P := fun p hp => (h' p hp).rule f fun p' hp' =>
      hf (p.1 * p'.1, p'.2) (List.mem_flatMap.2 ⟨p, hp, List.mem_map.2 ⟨p', hp', rfl⟩⟩)
    obtain ⟨i, e2⟩ := h.rule (fun b r => ev f (G b r)) fun p hp => (key p hp).1
    refine ⟨i, ?_⟩
    rw [e2, av_flatMap]
    exact av_congr fun p hp => (key p hp).2

/-- a step which uses one random element -/
theorem Spread.of_draw [IsProbabilityMeasure P] {Ω : Type} [Fintype Ω] [MeasurableSpace Ω] [DiscreteMeasurableSpace Ω]
    {ρ : Measure Ω} [IsProbabilityMeasure ρ] {d : σ → Ω × σ} (hd : MeasurePreserving d P (ρ.prod P)) (b : Ω → B) :
    Spread P (fun r => some (b (d r).1, (d r).2)) ((Finset.univ : Finset Ω).toList.map fun ω => (ρ.real {ω}, b ω)) where
  mem r := ⟨(ρ.real {(d r).1}, b (d r).1), List.mem_map.2 ⟨_, Finset.mem_toList.2 (Finset.mem_univ _), rfl⟩, _, rfl⟩
  nonneg p hp := by
    obtain ⟨ω, -, rfl⟩ := List.mem_map.1 hp
    exact measureReal_nonneg
  rule f hf := by
    have hf' : ∀ ω, Integrable (f (b ω)) P := fun ω =>
      hf (ρ.real {ω}, b ω) (List.mem_map.2 ⟨ω, Finset.mem_toList.2 (Finset.mem_univ _), rfl⟩)
    simp only [ev_some]
    have hi : Integrable (fun z : Ω × σ => f (b z.1) z.2) (ρ.prod P) := by
      have e : (fun z : Ω × σ => f (b z.1) z.2) = fun z => ∑ ω, Set.indicator {ω} (fun _ => (1 : ℝ)) z.1 * f (b ω) z.2 := by
        funext z
        classical
        rw [Finset.sum_eq_single z.1]
        · simp
        · intro ω _ hω
          rw [Set.indicator_of_notMem (by simpa using fun h => hω h.symm), zero_mul]
        · exact fun h => absurd (Finset.mem_univ _) h
      rw [e]
      exact integrable_finsetSum _ fun ω _ =>
        Integrable.mul_prod ((integrable_const (1 : ℝ)).indicator (MeasurableSet.of_discrete)) (hf' ω)
    refine ⟨hd.integrable_comp_of_integrable hi, ?_⟩
    have e1 : ∫ r, f (b (d r).1) (d r).2 ∂P = ∫ z, f (b z.1) z.2 ∂(ρ.prod P) := by
      rw [← hd.map_eq] at hi ⊢
      rw [integral_map hd.measurable.aemeasurable hi.aestronglyMeasurable]
    rw [e1, integral_prod _ hi, integral_fintype Integrable.of_finite]
    unfold av
    rw [List.map_map, ← Finset.sum_map_toList]
    rfl

theorem Spread.congr {F' : σ → Option (B × σ)} (h : Spread P F q) (e : ∀ r, F' r = F r) : Spread P F' q := by
  have : F' = F := funext e
  rwa [this]

/-! ## Comparison with a chain -/

variable {E E' : Type}

/-- The step `F` is followed by an element with property `J`, and the expected values of functions of `π` differ by at most
`δ` times twice the bound of the function from those given by `κ`. -/
def Follows (P : Measure σ) (F : σ → Option (B × σ)) (J : B → Prop) (π : B → E) (κ : (E → ℝ) → ℝ) (δ : ℝ) : Prop :=
  ∃ q, Spread P F q ∧ (∀ p ∈ q, J p.2) ∧ ∀ (g : E → ℝ) (c : ℝ), (∀ y, |g y| ≤ c) → |av q (fun b => g (π b)) - κ g| ≤ 2 * c * δ

theorem Follows.mono {J J' : B → Prop} {π : B → E} {κ : (E → ℝ) → ℝ} {δ δ' : ℝ} [Nonempty E] (h : Follows P F J π κ δ)
    (hJ : ∀ b, J b → J' b) (hδ : δ ≤ δ') : Follows P F J' π κ δ' := by
  obtain ⟨q, h1, h2, h3⟩ := h
  refine ⟨q, h1, fun p hp => hJ _ (h2 p hp), fun g c hg => (h3 g c hg).trans ?_⟩
  have : 0 ≤ c := (abs_nonneg _).trans (hg (Classical.arbitrary E))
  exact mul_le_mul_of_nonneg_left hδ (by linarith)

theorem Follows.bind [IsProbabilityMeasure P] {J : B → Prop} {π : B → E} {κ : (E → ℝ) → ℝ} {δ δ' : ℝ}
    {G : B → σ → Option (C × σ)} {J' : C → Prop} {π' : C → E'} {κ' : E → (E' → ℝ) → ℝ} [Nonempty E] [Nonempty E']
    (h : Follows P F J π κ δ) (h' : ∀ b, J b → Follows P (G b) J' π' (κ' (π b)) δ')
    (hκ : ∀ y g c, (∀ z, |g z| ≤ c) → |κ' y g| ≤ c) :
    Follows P (fun r => (F r).bind fun t => G t.1 t.2) J' π' (fun g => κ fun y => κ' y g) (δ + δ') := by
  obtain ⟨q, h1, h2, h3⟩ := h
  choose! q' k1 k2 k3 using h'
  refine ⟨_, h1.bind fun p hp => k1 p.2 (h2 p hp), ?_, fun g c hg => ?_⟩
  · intro p hp
    obtain ⟨p1, g1, g2⟩ := List.mem_flatMap.1 hp
    obtain ⟨p2, g3, rfl⟩ := List.mem_map.1 g2
    exact k2 p1.2 (h2 p1 g1) p2 g3
  · rw [av_flatMap]
    have a1 := h3 (fun y => κ' y g) c fun y => hκ y g c hg
    have a2 : |av q fun b => av (q' b) (fun b => g (π' b)) - κ' (π b) g| ≤ 2 * c * δ' :=
      h1.abs_av_le fun p hp => k3 p.2 (h2 p hp) g c hg
    have a3 : av q (fun b => av (q' b) (fun b => g (π' b)) - κ' (π b) g)
        = av q (fun b => av (q' b) fun b => g (π' b)) - av q fun b => κ' (π b) g := by
      have := av_add q (fun b => av (q' b) fun b => g (π' b)) fun b => -1 * κ' (π b) g
      rw [av_mul] at this
      simp only [neg_one_mul, ← sub_eq_add_neg] at this
      exact this
    rw [a3] at a2
    calc |av q (fun b => av (q' b) fun b => g (π' b)) - κ fun y => κ' y g|
        = |(av q (fun b => av (q' b) fun b => g (π' b)) - av q fun b => κ' (π b) g)
          + ((av q fun b => κ' (π b) g) - κ fun y => κ' y g)| := by congr 1; ring
      _ ≤ 2 * c * δ' + 2 * c * δ := (abs_add_le _ _).trans (add_le_add a2 a1)
      _ = 2 * c * (δ + δ') := by ring

theorem Follows.pure [IsProbabilityMeasure P] (b : B) {J : B → Prop} (π : B → E) (hb : J b) :
    Follows P (fun r => some (b, r)) J π (fun g => g (π b)) 0 :=
  ⟨_, Spread.pure b, fun p hp => by rw [List.mem_singleton.1 hp]; exact hb, fun g c _ => by simp [av]⟩

/-! ## Many steps -/

/-- `n` steps -/
def run (F : A → σ → Option (A × σ)) : ℕ → A → σ → Option (A × σ)
  | 0, a, r => some (a, r)
  | n + 1, a, r => (F a r).bind fun t => run F n t.1 t.2

/-- sum of a function of old and new element over `n` steps -/
def tot (F : A → σ → Option (A × σ)) (D : A → A → ℝ) : ℕ → A → σ → ℝ
  | 0, _, _ => 0
  | n + 1, a, r => ev (fun b r' => D a b + tot F D n b r') (F a r)

variable {F : A → σ → Option (A × σ)} {I : ℕ → A → Prop}

/-- every step from an element with property `I (k + 1)`, which allows `k + 1` further steps, has outcomes with property `I k`,
and they have the property `J` relative to it -/
def Steps (P : Measure σ) (F : A → σ → Option (A × σ)) (I : ℕ → A → Prop) (J : A → A → Prop) : Prop :=
  ∀ k a, I (k + 1) a → ∃ q, Spread P (F a) q ∧ ∀ p ∈ q, I k p.2 ∧ J a p.2

theorem run_spread [IsProbabilityMeasure P] {J : A → A → Prop} (h : Steps P F I J) (n : ℕ) (a : A) (ha : I n a) :
    ∃ q, Spread P (run F n a) q ∧ ∀ p ∈ q, I 0 p.2 := by
  induction n generalizing a with
  | zero => exact ⟨_, Spread.pure a, fun p hp => by rw [List.mem_singleton.1 hp]; exact ha⟩
  | succ n ih =>
    obtain ⟨q, h1, h2⟩ := h n a ha
    choose! q' k1 k2 using ih
    refine ⟨_, h1.bind fun p hp => k1 p.2 (h2 p hp).1, fun p hp => ?_⟩
    obtain ⟨p1, g1, g2⟩ := List.mem_flatMap.1 hp
    obtain ⟨p2, g3, rfl⟩ := List.mem_map.1 g2
    exact k2 p1.2 (h2 p1 g1).1 p2 g3

theorem tot_bounded [IsProbabilityMeasure P] {D : A → A → ℝ} {β : ℝ} (h : Steps P F I fun a b => |D a b| ≤ β) (n : ℕ) (a : A)
    (ha : I n a) : Integrable (tot F D n a) P ∧ ∀ r, |tot F D n a r| ≤ n * β := by
  induction n generalizing a with
  | zero => exact ⟨integrable_const 0, fun r => by simp [tot]⟩
  | succ n ih =>
    obtain ⟨q, h1, h2⟩ := h n a ha
    refine ⟨(h1.rule (fun b r' => D a b + tot F D n b r') fun p hp =>
      (integrable_const _).add (ih p.2 (h2 p hp).1).1).1, fun r => ?_⟩
    obtain ⟨p, hp, r', e⟩ := h1.mem r
    unfold tot
    rw [e, ev_some]
    refine (abs_add_le _ _).trans ?_
    have := (ih p.2 (h2 p hp).1).2 r'
    have := (h2 p hp).2
    push_cast
    linarith

theorem tot_sq [IsProbabilityMeasure P] {D : A → A → ℝ} {β : ℝ} (h : Steps P F I fun a b => |D a b| ≤ β) (n : ℕ) (a : A)
    (ha : I n a) : Integrable (fun r => tot F D n a r ^ 2) P := by
  obtain ⟨h1, h2⟩ := tot_bounded h n a ha
  exact Integrable.of_bound (h1.aestronglyMeasurable.pow 2) ((n * β) ^ 2) (Filter.Eventually.of_forall fun r => by
    rw [Real.norm_eq_abs, abs_pow]
    exact pow_le_pow_left₀ (abs_nonneg _) (h2 r) 2)

/-- if the expected change vanishes at every step, the second moment of the sum grows at most linearly -/
theorem tot_martingale [IsProbabilityMeasure P] {D : A → A → ℝ} {β : ℝ}
    (h : ∀ k a, I (k + 1) a → ∃ q, Spread P (F a) q ∧ (∀ p ∈ q, I k p.2 ∧ |D a p.2| ≤ β) ∧ av q (D a) = 0) (n : ℕ) (a : A)
    (ha : I n a) : ∫ r, tot F D n a r ∂P = 0 ∧ ∫ r, tot F D n a r ^ 2 ∂P ≤ n * β ^ 2 := by
  have hs : Steps P F I fun a b => |D a b| ≤ β := fun k a ha => by
    obtain ⟨q, h1, h2, -⟩ := h k a ha
    exact ⟨q, h1, h2⟩
  induction n generalizing a with
  | zero => simp [tot]
  | succ n ih =>
    obtain ⟨q, h1, h2, h3⟩ := h n a ha
    have hi : ∀ p ∈ q, Integrable (tot F D n p.2) P := fun p hp => (tot_bounded hs n p.2 (h2 p hp).1).1
    have hq : ∀ p ∈ q, Integrable (fun r => tot F D n p.2 r ^ 2) P := fun p hp => tot_sq hs n p.2 (h2 p hp).1
    have e1 := (h1.rule (fun b r' => D a b + tot F D n b r') fun p hp => (integrable_const _).add (hi p hp)).2
    have e2 : ∀ r, ev (fun b r' => D a b + tot F D n b r') (F a r) ^ 2
        = ev (fun b r' => (D a b + tot F D n b r') ^ 2) (F a r) := by
      intro r
      obtain ⟨p, hp, r', e⟩ := h1.mem r
      rw [e]
      rfl
    have hsq : ∀ p ∈ q, Integrable (fun r' => (D a p.2 + tot F D n p.2 r') ^ 2) P ∧
        ∫ r', (D a p.2 + tot F D n p.2 r') ^ 2 ∂P ≤ β ^ 2 + n * β ^ 2 := by
      intro p hp
      have e : ∀ r', (D a p.2 + tot F D n p.2 r') ^ 2
          = D a p.2 ^ 2 + 2 * D a p.2 * tot F D n p.2 r' + tot F D n p.2 r' ^ 2 := fun r' => by ring
      simp only [e]
      have i1 : Integrable (fun r' => D a p.2 ^ 2 + 2 * D a p.2 * tot F D n p.2 r') P :=
        (integrable_const _).add ((hi p hp).const_mul _)
      refine ⟨i1.add (hq p hp), ?_⟩
      rw [integral_add i1 (hq p hp), integral_add (integrable_const _) ((hi p hp).const_mul _), integral_const_mul,
        (ih p.2 (h2 p hp).1).1, mul_zero, add_zero]
      simp only [integral_const, probReal_univ, one_smul]
      refine add_le_add ?_ (ih p.2 (h2 p hp).1).2
      rw [← sq_abs]
      exact pow_le_pow_left₀ (abs_nonneg _) (h2 p hp).2 2
    constructor
    · unfold tot
      rw [e1, ← h3]
      refine av_congr fun p hp => ?_
      rw [integral_add (integrable_const _) (hi p hp), (ih p.2 (h2 p hp).1).1]
      simp
    · unfold tot
      simp only [e2]
      rw [(h1.rule _ fun p hp => (hsq p hp).1).2]
      refine (av_mono h1.nonneg (g := fun _ => β ^ 2 + n * β ^ 2) fun p hp => (hsq p hp).2).trans ?_
      rw [h1.av_const]
      push_cast
      linarith

/-- if the expected change is small at every step, the sum is that of a martingale up to the sum of the expected changes -/
theorem tot_split [IsProbabilityMeasure P] {X : A → A → ℝ} {β τ : ℝ}
    (h : ∀ k a, I (k + 1) a → ∃ q, Spread P (F a) q ∧ (∀ p ∈ q, I k p.2 ∧ |X a p.2| ≤ β) ∧ |av q (X a)| ≤ τ) (n : ℕ) (a : A)
    (ha : I n a) : ∃ Z : σ → ℝ, Integrable (fun r => Z r ^ 2) P ∧ ∫ r, Z r ^ 2 ∂P ≤ n * (2 * β) ^ 2 ∧
      ∀ r, |tot F X n a r - Z r| ≤ n * τ := by
  let c : A → ℝ := fun a => ∫ r, ev (fun b _ => X a b) (F a r) ∂P
  let D : A → A → ℝ := fun a b => X a b - c a
  have hc : ∀ a q, Spread P (F a) q → av q (X a) = c a := by
    intro a q h1
    have := (h1.rule (fun b _ => X a b) fun p _ => integrable_const _).2
    simp only [integral_const, probReal_univ, one_smul] at this
    exact this.symm
  have hD : ∀ k a, I (k + 1) a → ∃ q, Spread P (F a) q ∧ (∀ p ∈ q, I k p.2 ∧ |D a p.2| ≤ 2 * β) ∧ av q (D a) = 0 := by
    intro k a ha
    obtain ⟨q, h1, h2, -⟩ := h k a ha
    refine ⟨q, h1, fun p hp => ⟨(h2 p hp).1, ?_⟩, ?_⟩
    · refine (abs_sub _ _).trans ?_
      have := (h2 p hp).2
      have := h1.abs_av_le fun p hp => (h2 p hp).2
      show |X a p.2| + |c a| ≤ _
      rw [← hc a q h1]
      linarith
    · have := av_add q (X a) fun _ => -c a
      rw [h1.av_const, hc a q h1] at this
      simp only [← sub_eq_add_neg] at this
      rw [show D a = fun b => X a b - c a from rfl, this]
      exact sub_self _
  have hsum : ∀ n a, I n a → ∀ r, |tot F X n a r - tot F D n a r| ≤ n * τ := by
    intro n
    induction n with
    | zero => intro a _ r; simp [tot]
    | succ n ih =>
      intro a ha r
      obtain ⟨q, h1, h2, h3⟩ := h n a ha
      obtain ⟨p, hp, r', e⟩ := h1.mem r
      unfold tot
      rw [e, ev_some, ev_some]
      have k1 := ih p.2 (h2 p hp).1 r'
      rw [hc a q h1] at h3
      have e2 : X a p.2 + tot F X n p.2 r' - (D a p.2 + tot F D n p.2 r')
          = c a + (tot F X n p.2 r' - tot F D n p.2 r') := by
        show X a p.2 + tot F X n p.2 r' - (X a p.2 - c a + tot F D n p.2 r') = _
        ring
      rw [e2]
      refine (abs_add_le _ _).trans ?_
      push_cast
      linarith
  exact ⟨tot F D n a, tot_sq (fun k a ha => by
    obtain ⟨q, k1, k2, -⟩ := hD k a ha
    exact ⟨q, k1, k2⟩) n a ha, (tot_martingale hD n a ha).2, hsum n a ha⟩

theorem tot_telescope [IsProbabilityMeasure P] {J : A → A → Prop} (h : Steps P F I J) (φ : A → ℝ) (m : ℝ) (n : ℕ) (a : A)
    (ha : I n a) (r : σ) : ∃ b r', run F n a r = some (b, r') ∧ I 0 b ∧ tot F (fun a b => φ b - φ a - m) n a r = φ b - φ a - n * m := by
  induction n generalizing a r with
  | zero => exact ⟨a, r, rfl, ha, by simp [tot]⟩
  | succ n ih =>
    obtain ⟨q, h1, h2⟩ := h n a ha
    obtain ⟨p, hp, r', e⟩ := h1.mem r
    obtain ⟨b, r'', k1, k2, k3⟩ := ih p.2 (h2 p hp).1 r'
    refine ⟨b, r'', ?_, k2, ?_⟩
    · unfold run
      rw [e]
      exact k1
    · unfold tot
      rw [e, ev_some]
      push_cast
      rw [k3]
      ring

section chain

variable {E : Type} [Fintype E] [MeasurableSpace E] [DiscreteMeasurableSpace E] {step : E → σ → E × σ} {π : A → E}

/-- a step of the process follows the step of the chain up to `δ`, and the recorded quantity `acc` changes by `G` up to `η` -/
def Tracks (P : Measure σ) (F : A → σ → Option (A × σ)) (I : ℕ → A → Prop) (π : A → E) (step : E → σ → E × σ) (δ : ℝ) (acc : A → ℝ)
    (G : E → E → ℝ) (η : ℝ) : Prop :=
  ∀ k a, I (k + 1) a → Follows P (F a) (fun b => I k b ∧ |acc b - acc a - G (π a) (π b)| ≤ η) π (fun g => mean P step g (π a)) δ

/-- A quantity recorded during a long run of a process which follows a chain up to errors `δ` and `η` grows by the average `m`
along the chain in every step, up to an error proportional to `δ` and `η` and a part `Z` of the order `√n`. -/
theorem long_run [IsProbabilityMeasure P] (hfr : Fresh P step) (G : E → E → ℝ) (m : ℝ) (g : E → ℝ)
    (hg : ∀ y, g y - mean P step g y = mean P step (G y) y - m) {β γ : ℝ}
    (hβ : ∀ y z, |G y z - m - g y + g z| ≤ β) (hγ : ∀ y, |g y| ≤ γ) {δ η : ℝ}
    {acc : A → ℝ} (h : Tracks P F I π step δ acc G η) (n : ℕ) (a : A) (ha : I n a) :
    ∃ Z : σ → ℝ, Integrable (fun r => Z r ^ 2) P ∧ ∫ r, Z r ^ 2 ∂P ≤ n * (2 * (β + η)) ^ 2 ∧
      ∀ r, ∃ b r', run F n a r = some (b, r') ∧ I 0 b ∧
        |acc b - acc a - n * m - Z r| ≤ n * (2 * β * δ + η) + 2 * γ := by
  have hi : ∀ (f : E → ℝ) x, Integrable (fun r => f (step x r).1) P := fun f x =>
    integrable_of_bounded ((Measurable.of_discrete (f := f)).comp (measurable_fst.comp (hfr.measurable x)))
      fun r => (bounded f).choose_spec.2 _
  have hD : ∀ y, mean P step (fun z => G y z - m - g y + g z) y = 0 := by
    intro y
    have e := hg y
    show ∫ r, (G y (step y r).1 - m - g y + g (step y r).1) ∂P = 0
    have j1 : Integrable (fun r => G y (step y r).1 - m) P := (hi (G y) y).sub (integrable_const m)
    have j2 : Integrable (fun r => G y (step y r).1 - m - g y) P := j1.sub (integrable_const (g y))
    rw [integral_add j2 (hi g y), integral_sub j1 (integrable_const (g y)), integral_sub (hi (G y) y) (integrable_const m)]
    simp only [integral_const, probReal_univ, one_smul]
    unfold mean at e
    linarith
  let φ : A → ℝ := fun b => acc b + g (π b)
  have hX : ∀ k a, I (k + 1) a → ∃ q, Spread P (F a) q ∧ (∀ p ∈ q, I k p.2 ∧ |φ p.2 - φ a - m| ≤ β + η) ∧
      |av q (fun b => φ b - φ a - m)| ≤ 2 * β * δ + η := by
    intro k a ha
    obtain ⟨q, h1, h2, h3⟩ := h k a ha
    refine ⟨q, h1, fun p hp => ⟨(h2 p hp).1, ?_⟩, ?_⟩
    · have e : φ p.2 - φ a - m = (G (π a) (π p.2) - m - g (π a) + g (π p.2)) + (acc p.2 - acc a - G (π a) (π p.2)) := by
        show acc p.2 + g (π p.2) - (acc a + g (π a)) - m = _
        ring
      rw [e]
      exact (abs_add_le _ _).trans (add_le_add (hβ _ _) (h2 p hp).2)
    · have e : av q (fun b => φ b - φ a - m) = av q (fun b => G (π a) (π b) - m - g (π a) + g (π b))
          + av q fun b => acc b - acc a - G (π a) (π b) := by
        rw [← av_add]
        refine av_congr fun p _ => ?_
        show acc p.2 + g (π p.2) - (acc a + g (π a)) - m = _
        ring
      rw [e]
      refine (abs_add_le _ _).trans (add_le_add ?_ (h1.abs_av_le fun p hp => (h2 p hp).2))
      have := h3 (fun z => G (π a) z - m - g (π a) + g z) β (hβ (π a))
      beta_reduce at this
      rw [hD, sub_zero] at this
      exact this
  have hs : Steps P F I fun _ _ => True := fun k a ha => by
    obtain ⟨q, k1, k2, -⟩ := hX k a ha
    exact ⟨q, k1, fun p hp => ⟨(k2 p hp).1, trivial⟩⟩
  obtain ⟨Z, z1, z2, z3⟩ := tot_split (X := fun a b => φ b - φ a - m) hX n a ha
  refine ⟨Z, z1, z2, fun r => ?_⟩
  obtain ⟨b, r', k1, k2, k3⟩ := tot_telescope hs φ m n a ha r
  refine ⟨b, r', k1, k2, ?_⟩
  have z := z3 r
  rw [k3] at z
  have e : acc b - acc a - n * m - Z r = (φ b - φ a - n * m - Z r) + (g (π a) - g (π b)) := by
    show _ = (acc b + g (π b) - (acc a + g (π a)) - n * m - Z r) + _
    ring
  rw [e]
  refine (abs_add_le _ _).trans (add_le_add z ((abs_sub _ _).trans ?_))
  have := hγ (π a)
  have := hγ (π b)
  linarith

omit [MeasurableSpace σ] in
theorem run_add (n k : ℕ) (a : A) (r : σ) : run F (k + n) a r = (run F k a r).bind fun t => run F n t.1 t.2 := by
  induction k generalizing a r with
  | zero => rw [Nat.zero_add]; rfl
  | succ k ih =>
    rw [Nat.succ_add]
    show (F a r).bind (fun t => run F (k + n) t.1 t.2) = ((F a r).bind fun t => run F k t.1 t.2).bind _
    rw [Option.bind_assoc]
    congr 1
    funext t
    exact ih t.1 t.2

/-- the same after `k` steps at the beginning in which the recorded quantity does not change -/
theorem long_run_after [IsProbabilityMeasure P] {I I' J' : A → Prop} {n k : ℕ} {acc : A → ℝ} {c e m : ℝ}
    (h : ∀ a, I a → ∃ q, Spread P (run F k a) q ∧ ∀ p ∈ q, I' p.2 ∧ acc p.2 = acc a)
    (h' : ∀ a, I' a → ∃ Z : σ → ℝ, Integrable (fun r => Z r ^ 2) P ∧ ∫ r, Z r ^ 2 ∂P ≤ c ∧
      ∀ r, ∃ b r', run F n a r = some (b, r') ∧ J' b ∧ |acc b - acc a - m - Z r| ≤ e) (a : A) (ha : I a) :
    ∃ Z : σ → ℝ, Integrable (fun r => Z r ^ 2) P ∧ ∫ r, Z r ^ 2 ∂P ≤ c ∧
      ∀ r, ∃ b r', run F (k + n) a r = some (b, r') ∧ J' b ∧ |acc b - acc a - m - Z r| ≤ e := by
  obtain ⟨q, h1, h2⟩ := h a ha
  choose! Z z1 z2 z3 using h'
  have e1 : ∀ r, ev Z (run F k a r) ^ 2 = ev (fun b r' => Z b r' ^ 2) (run F k a r) := by
    intro r
    obtain ⟨p, hp, r', e⟩ := h1.mem r
    rw [e]
    rfl
  obtain ⟨i, e2⟩ := h1.rule (fun b r' => Z b r' ^ 2) fun p hp => z1 _ (h2 p hp).1
  refine ⟨fun r => ev Z (run F k a r), ?_, ?_, fun r => ?_⟩
  · simp only [e1]
    exact i
  · simp only [e1]
    rw [e2]
    refine (av_mono h1.nonneg (g := fun _ => c) fun p hp => z2 _ (h2 p hp).1).trans ?_
    rw [h1.av_const]
  · obtain ⟨p, hp, r', e3⟩ := h1.mem r
    obtain ⟨b, r'', k1, k2, k3⟩ := z3 p.2 (h2 p hp).1 r'
    refine ⟨b, r'', ?_, k2, ?_⟩
    · rw [run_add, e3]
      exact k1
    · beta_reduce
      rw [e3, ev_some, ← (h2 p hp).2]
      exact k3

/-- Chebyshev's inequality -/
theorem chebyshev [IsProbabilityMeasure P] {Z : σ → ℝ} {c d : ℝ} (hi : Integrable (fun r => Z r ^ 2) P)
    (h : ∫ r, Z r ^ 2 ∂P ≤ c) (hd : 0 < d) {S : Set σ} (hS : ∀ r ∈ S, d ≤ |Z r|) : P.real S ≤ c / d ^ 2 := by
  have hmk := mul_meas_ge_le_integral_of_nonneg (μ := P) (Filter.Eventually.of_forall fun r => sq_nonneg (Z r)) hi (d ^ 2)
  rw [le_div_iff₀ (by positivity)]
  have : P.real S ≤ P.real {r | d ^ 2 ≤ Z r ^ 2} := measureReal_mono fun r hr => by
    show d ^ 2 ≤ Z r ^ 2
    rw [← sq_abs (Z r)]
    exact pow_le_pow_left₀ hd.le (hS r hr) 2
  nlinarith [sq_nonneg d]

end chain

end Verif.Rough
