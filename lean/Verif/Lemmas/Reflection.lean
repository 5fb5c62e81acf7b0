import Mathlib.MeasureTheory.Constructions.Pi
import Mathlib.MeasureTheory.Integral.Prod
import Mathlib.Data.Fintype.Sum
import Mathlib.Tactic.Ring

/-! # Integrals over closed paths which are symmetric under reversing the direction -/

set_option autoImplicit false

namespace Verif.Reflection

open MeasureTheory

variable {Y : Type} {L k : ℕ}

variable [MeasurableSpace Y] {lam : Measure Y} [SigmaFinite lam]

/-- reflection positivity for any numbering of the variables: those in `F` stay where they are, the two copies of `H` are
interchanged -/
theorem swap_nonneg {F H I : Type} [Fintype F] [Fintype H] [Fintype I] (e : F ⊕ (H ⊕ H) ≃ I) {b : I → I}
    (hb : ∀ q, b (e q) = e (Sum.map id Sum.swap q)) {G : (I → Y) → ℝ}
    (hG : ∀ x y : I → Y, (∀ a, x (e (.inl a)) = y (e (.inl a))) → (∀ a, x (e (.inr (.inl a))) = y (e (.inr (.inl a)))) →
      G x = G y) :
    0 ≤ ∫ x, G x * G (fun j => x (b j)) ∂Measure.pi fun _ => lam := by
  by_cases hi : Integrable (fun x : I → Y => G x * G fun j => x (b j)) (Measure.pi fun _ => lam)
  swap
  · rw [integral_undef hi]
  have h1 := measurePreserving_sumPiEquivProdPi_symm (X := fun _ : H ⊕ H => Y) fun _ => lam
  have h2 := measurePreserving_sumPiEquivProdPi_symm (X := fun _ : F ⊕ (H ⊕ H) => Y) fun _ => lam
  have h3 := measurePreserving_piCongrLeft (α := fun _ : I => Y) (fun _ => lam) e
  have h4 := (MeasurePreserving.id (Measure.pi fun _ : F => lam)).prod h1
  obtain ⟨E, hE, hp⟩ : ∃ E : (F → Y) × (H → Y) × (H → Y) ≃ᵐ (I → Y),
      (∀ z q, E z (e q) = Sum.elim z.1 (Sum.elim z.2.1 z.2.2) q) ∧ MeasurePreserving E
        ((Measure.pi fun _ => lam).prod ((Measure.pi fun _ => lam).prod (Measure.pi fun _ => lam))) (Measure.pi fun _ => lam) := by
    refine ⟨((MeasurableEquiv.refl _).prodCongr (MeasurableEquiv.sumPiEquivProdPi fun _ => Y).symm).trans
      ((MeasurableEquiv.sumPiEquivProdPi fun _ => Y).symm.trans (MeasurableEquiv.piCongrLeft (fun _ => Y) e)),
      fun z q => ?_, h3.comp (h2.comp h4)⟩
    simp only [MeasurableEquiv.trans_apply]
    rw [MeasurableEquiv.coe_piCongrLeft, Equiv.piCongrLeft_apply_apply]
    rcases q with (a | a | a) <;> rfl
  have hg : ∀ z : (F → Y) × (H → Y) × (H → Y),
      G (E z) * G (fun j => E z (b j)) = G (E (z.1, z.2.1, z.2.1)) * G (E (z.1, z.2.2, z.2.2)) := by
    rintro ⟨c, u, w⟩
    congr 1
    · exact hG _ _ (fun a => by rw [hE, hE]; rfl) fun a => by rw [hE, hE]; rfl
    · exact hG _ _ (fun a => by rw [hb, hE, hE]; rfl) fun a => by rw [hb, hE, hE]; rfl
  have hi' := (hp.integrable_comp_emb E.measurableEmbedding).2 hi
  rw [← hp.integral_comp E.measurableEmbedding]
  have e1 : ((fun x => G x * G fun j => x (b j)) ∘ E)
      = fun z => G (E (z.1, z.2.1, z.2.1)) * G (E (z.1, z.2.2, z.2.2)) := funext hg
  rw [e1] at hi'
  simp only [hg]
  rw [integral_prod _ hi']
  refine integral_nonneg fun c => ?_
  show 0 ≤ ∫ y : (H → Y) × (H → Y), G (E (c, y.1, y.1)) * G (E (c, y.2, y.2)) ∂_
  rw [integral_prod_mul (fun u => G (E (c, u, u))) fun u => G (E (c, u, u))]
  exact mul_self_nonneg _
/-! ## Even numbers of slices -/

/-- the slice at the reflected time -/
def back (hL : L = 2 * (k + 1)) (j : Fin L) : Fin L := ⟨(L - j.val) % L, Nat.mod_lt _ (by omega)⟩

/-- the two slices which stay where they are, and the slices on both sides of them -/
def place (hL : L = 2 * (k + 1)) : Bool ⊕ (Fin k ⊕ Fin k) → Fin L
  | .inl false => ⟨0, by omega⟩
  | .inl true => ⟨k + 1, by omega⟩
  | .inr (.inl i) => ⟨i.val + 1, by omega⟩
  | .inr (.inr i) => ⟨2 * k + 1 - i.val, by omega⟩

theorem place_injective (hL : L = 2 * (k + 1)) : Function.Injective (place hL) := by
  rintro (a | a | a) (b | b | b) h
  · cases a <;> cases b <;> simp [place] at h ⊢
  · cases a <;> simp [place] at h; omega
  · cases a <;> simp [place] at h <;> omega
  · cases b <;> simp [place] at h; omega
  · simp [place] at h
    simp only [Sum.inr.injEq, Sum.inl.injEq]
    omega
  · simp [place] at h
    omega
  · cases b <;> simp [place] at h <;> omega
  · simp [place] at h
    omega
  · simp [place] at h
    simp only [Sum.inr.injEq]
    omega

/-- the same as a renumbering of the slices -/
noncomputable def places (hL : L = 2 * (k + 1)) : Bool ⊕ (Fin k ⊕ Fin k) ≃ Fin L :=
  Equiv.ofBijective (place hL) ((Fintype.bijective_iff_injective_and_card _).2 ⟨place_injective hL, by
    rw [Fintype.card_sum, Fintype.card_sum, Fintype.card_bool, Fintype.card_fin, Fintype.card_fin, hL]
    omega⟩)

theorem back_place (hL : L = 2 * (k + 1)) (q : Bool ⊕ (Fin k ⊕ Fin k)) :
    back hL (places hL q) = places hL (Sum.map id Sum.swap q) := by
  show back hL (place hL q) = place hL (Sum.map id Sum.swap q)
  apply Fin.ext
  rcases q with (a | a | a)
  · cases a
    · show (L - 0) % L = 0
      rw [Nat.sub_zero, Nat.mod_self]
    · show (L - (k + 1)) % L = k + 1
      rw [Nat.mod_eq_of_lt (by omega)]
      omega
  · show (L - (a.val + 1)) % L = 2 * k + 1 - a.val
    rw [Nat.mod_eq_of_lt (by omega)]
    omega
  · show (L - (2 * k + 1 - a.val)) % L = a.val + 1
    rw [Nat.mod_eq_of_lt (by omega)]
    omega

/-- a function of one half of the path times the same function of the other half -/
theorem reflect_nonneg (hL : L = 2 * (k + 1)) {H : (Fin L → Y) → ℝ}
    (hH : ∀ x y, (∀ j : Fin L, j.val ≤ k + 1 → x j = y j) → H x = H y) :
    0 ≤ ∫ x, H x * H (fun j => x (back hL j)) ∂Measure.pi fun _ => lam := by
  refine swap_nonneg (places hL) (back_place hL) fun x y h1 h2 => hH x y fun j hj => ?_
  obtain ⟨q, rfl⟩ := (places hL).surjective j
  rcases q with (a | a | a)
  · exact h1 a
  · exact h2 a
  · have : (places hL (.inr (.inr a))).val = 2 * k + 1 - a.val := rfl
    omega

/-! ## Odd numbers of slices -/

/-- the slice at the reflected time -/
def backOdd (hL : L = 2 * k + 1) (j : Fin L) : Fin L := ⟨(L - j.val) % L, Nat.mod_lt _ (by omega)⟩

/-- the slice which stays where it is, and the slices on both sides of it -/
def placeOdd (hL : L = 2 * k + 1) : Unit ⊕ (Fin k ⊕ Fin k) → Fin L
  | .inl _ => ⟨0, by omega⟩
  | .inr (.inl i) => ⟨i.val + 1, by omega⟩
  | .inr (.inr i) => ⟨2 * k - i.val, by omega⟩

theorem placeOdd_injective (hL : L = 2 * k + 1) : Function.Injective (placeOdd hL) := by
  rintro (a | a | a) (b | b | b) h
  · rfl
  · simp [placeOdd] at h
  · simp [placeOdd] at h
    omega
  · simp [placeOdd] at h
  · simp [placeOdd] at h
    simp only [Sum.inr.injEq, Sum.inl.injEq]
    omega
  · simp [placeOdd] at h
    omega
  · simp [placeOdd] at h
    omega
  · simp [placeOdd] at h
    omega
  · simp [placeOdd] at h
    simp only [Sum.inr.injEq]
    omega

/-- the same as a renumbering of the slices -/
noncomputable def placesOdd (hL : L = 2 * k + 1) : Unit ⊕ (Fin k ⊕ Fin k) ≃ Fin L :=
  Equiv.ofBijective (placeOdd hL) ((Fintype.bijective_iff_injective_and_card _).2 ⟨placeOdd_injective hL, by
    rw [Fintype.card_sum, Fintype.card_sum, Fintype.card_unit, Fintype.card_fin, Fintype.card_fin, hL]
    omega⟩)

theorem backOdd_place (hL : L = 2 * k + 1) (q : Unit ⊕ (Fin k ⊕ Fin k)) :
    backOdd hL (placesOdd hL q) = placesOdd hL (Sum.map id Sum.swap q) := by
  show backOdd hL (placeOdd hL q) = placeOdd hL (Sum.map id Sum.swap q)
  apply Fin.ext
  rcases q with (a | a | a)
  · show (L - 0) % L = 0
    rw [Nat.sub_zero, Nat.mod_self]
  · show (L - (a.val + 1)) % L = 2 * k - a.val
    rw [Nat.mod_eq_of_lt (by omega)]
    omega
  · show (L - (2 * k - a.val)) % L = a.val + 1
    rw [Nat.mod_eq_of_lt (by omega)]
    omega

/-- the same for a function of the slices 0 to `k` -/
theorem reflect_nonneg_odd (hL : L = 2 * k + 1) {H : (Fin L → Y) → ℝ}
    (hH : ∀ x y, (∀ j : Fin L, j.val ≤ k → x j = y j) → H x = H y) :
    0 ≤ ∫ x, H x * H (fun j => x (backOdd hL j)) ∂Measure.pi fun _ => lam := by
  refine swap_nonneg (placesOdd hL) (backOdd_place hL) fun x y h1 h2 => hH x y fun j hj => ?_
  obtain ⟨q, rfl⟩ := (placesOdd hL).surjective j
  rcases q with (a | a | a)
  · exact h1 a
  · exact h2 a
  · have : (placesOdd hL (.inr (.inr a))).val = 2 * k - a.val := rfl
    omega

end Verif.Reflection
