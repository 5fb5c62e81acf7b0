import Verif.Props.RoundedTracking
import Verif.Props.Expected

/-! # Equal time measurements in rounded arithmetic -/

set_option autoImplicit false

namespace Verif.Rounded

open Filter Topology Matrix Verif.Lapack Verif.TimeFlow Verif.Greens Verif.Stratonovich Verif.MonteCarlo Verif.Ultra Verif.Fock
open Verif.Measurement Verif.Main

variable {σ : Type} {N : ℕ}

/-! ## Limits of computations which may fail -/

section lists

variable {ι : Type} {X Y : Type}

/-- both fail, or both succeed with related results -/
def OLim (R : (ι → X) → X → Prop) (F : ι → Option X) (F₀ : Option X) : Prop :=
  (F₀ = none ∧ ∀ t, F t = none) ∨ ∃ x x₀, (∀ t, F t = some (x t)) ∧ F₀ = some x₀ ∧ R x x₀

theorem OLim.bind {R : (ι → X) → X → Prop} {S : (ι → Y) → Y → Prop} {F : ι → Option X} {F₀ : Option X} (h : OLim R F F₀)
    {G : ι → X → Option Y} {G₀ : X → Option Y} (hG : ∀ x x₀, R x x₀ → OLim S (fun t => G t (x t)) (G₀ x₀)) :
    OLim S (fun t => (F t).bind (G t)) (F₀.bind G₀) := by
  rcases h with ⟨h1, h2⟩ | ⟨x, x₀, h1, h2, h3⟩
  · left
    simp [h1, h2]
  · have := hG x x₀ h3
    simp only [h1, h2, Option.bind_some]
    exact this

theorem OLim.pure {R : (ι → X) → X → Prop} {x : ι → X} {x₀ : X} (h : R x x₀) : OLim R (fun t => some (x t)) (some x₀) :=
  Or.inr ⟨x, x₀, fun _ => rfl, rfl, h⟩

theorem OLim.map {R : (ι → X) → X → Prop} {S : (ι → Y) → Y → Prop} {F : ι → Option X} {F₀ : Option X} (h : OLim R F F₀)
    {g : ι → X → Y} {g₀ : X → Y} (hg : ∀ x x₀, R x x₀ → S (fun t => g t (x t)) (g₀ x₀)) :
    OLim S (fun t => (F t).map (g t)) (F₀.map g₀) := by
  rcases h with ⟨h1, h2⟩ | ⟨x, x₀, h1, h2, h3⟩
  · left
    simp [h1, h2]
  · have := hg x x₀ h3
    simp only [h1, h2, Option.map_some]
    exact OLim.pure this

theorem OLim.const (o : Option X) : OLim (fun (x : ι → X) x₀ => x = fun _ => x₀) (fun _ => o) o := by
  cases o with
  | none => exact Or.inl ⟨rfl, fun _ => rfl⟩
  | some x => exact Or.inr ⟨fun _ => x, x, fun _ => rfl, rfl, rfl⟩

theorem OLim.foldlM {A : Type} {R : (ι → X) → X → Prop} {f : ι → X → A → Option X} {f₀ : X → A → Option X} (l : List A)
    (hf : ∀ i ∈ l, ∀ a a₀, R a a₀ → OLim R (fun t => f t (a t) i) (f₀ a₀ i)) {a : ι → X} {a₀ : X} (h : R a a₀) :
    OLim R (fun t => l.foldlM (f t) (a t)) (l.foldlM f₀ a₀) := by
  induction l generalizing a a₀ with
  | nil => exact OLim.pure h
  | cons i l ih =>
    simp only [List.foldlM_cons, Option.bind_eq_bind]
    exact (hf i (List.mem_cons_self) a a₀ h).bind fun b b₀ hb => ih (fun j hj => hf j (List.mem_cons_of_mem _ hj)) hb

variable (U : Ultrafilter ι)

/-- values converge -/
def RLim (x : ι → ℝ) (x₀ : ℝ) : Prop := Tendsto x U (𝓝 x₀)

/-- lists of additions to the same elements of the same arrays, whose values converge -/
inductive LLim {A : Type} : (ι → List (Measurement.Add A)) → List (Measurement.Add A) → Prop
  | nil : LLim (fun _ => []) []
  | cons {f : A} {z : ℤ} {v : ι → ℝ} {v₀ : ℝ} {ws : ι → List (Measurement.Add A)} {ws₀ : List (Measurement.Add A)} :
    Tendsto v U (𝓝 v₀) → LLim ws ws₀ → LLim (fun t => (f, z, v t) :: ws t) ((f, z, v₀) :: ws₀)

variable {U} {A : Type}

theorem LLim.append {ws ws' : ι → List (Measurement.Add A)} {ws₀ ws₀' : List (Measurement.Add A)} (h : LLim U ws ws₀)
    (h' : LLim U ws' ws₀') : LLim U (fun t => ws t ++ ws' t) (ws₀ ++ ws₀') := by
  induction h with
  | nil => exact h'
  | cons hv _ ih => exact LLim.cons hv ih

theorem loop_cons {B : Type} (f : ℕ → Option (List B)) (i : ℕ) (l : List ℕ) : ((i :: l).mapM f).map List.flatten
    = (f i).bind fun b => ((l.mapM f).map List.flatten).bind fun bs => some (b ++ bs) := by
  rw [List.mapM_cons]
  cases f i with
  | none => rfl
  | some b =>
    simp only [Option.bind_eq_bind, Option.bind_some]
    cases l.mapM f <;> rfl

theorem OLim.loop {f : ι → ℕ → Option (List (Measurement.Add A))} {f₀ : ℕ → Option (List (Measurement.Add A))} (n : ℕ)
    (h : ∀ i, OLim (LLim U) (fun t => f t i) (f₀ i)) : OLim (LLim U) (fun t => loopM n (f t)) (loopM n f₀) := by
  unfold loopM
  induction List.range n with
  | nil => exact OLim.pure LLim.nil
  | cons i l ih =>
    simp only [loop_cons]
    exact (h i).bind fun b b₀ hb => ih.bind fun c c₀ hc => OLim.pure (hb.append hc)

end lists

/-! ## Limits of the additions -/

section adds

variable {ι : Type} {U : Ultrafilter ι} {op : ι → Ops} {w : ι → ℝ} (h : OpsAlong U op w)
include h

theorem sumM_lim (n : ℕ) {f : ι → ℕ → Option ℝ} {f₀ : ℕ → Option ℝ} (hf : ∀ i, OLim (RLim U) (fun t => f t i) (f₀ i)) :
    OLim (RLim U) (fun t => sumM (op t) n (f t)) (Measurement.sumM n f₀) := by
  unfold sumM Measurement.sumM
  refine OLim.foldlM (List.range n) (fun i _ a a₀ ha => ?_) (show RLim U (fun _ => (0 : ℝ)) 0 from tendsto_const_nhds)
  exact (hf i).map fun x x₀ hx => h.add ha hx

theorem sumTerms_lim (ts : List (ℝ × ℤ × ℤ)) (hts : ∀ s ∈ ts, s.1 = 1 ∨ s.1 = -1) {f : ι → ℤ → ℤ → Option ℝ}
    {f₀ : ℤ → ℤ → Option ℝ} (hf : ∀ r c, OLim (RLim U) (fun t => f t r c) (f₀ r c)) :
    OLim (RLim U) (fun t => sumTerms (op t) ts (f t)) (Measurement.sumTerms ts f₀) := by
  unfold sumTerms Measurement.sumTerms
  refine OLim.foldlM ts (fun i hi a a₀ ha => ?_) (show RLim U (fun _ => (0 : ℝ)) 0 from tendsto_const_nhds)
  refine (hf i.2.1 i.2.2).map fun x x₀ hx => ?_
  rcases hts i hi with e | e
  · rw [e, one_mul]
    simp only [show ¬ (1 : ℝ) < 0 by norm_num, if_false]
    exact h.add ha hx
  · rw [e]
    simp only [show (-1 : ℝ) < 0 by norm_num, if_true]
    have e2 : a₀ + -1 * x₀ = a₀ - x₀ := by ring
    rw [e2]
    exact h.sub ha hx

variable (Norb Ncell : ℕ) (mp : Maps) {u d : ι → ℤ → Option ℝ} {u₀ d₀ : ℤ → Option ℝ}
  (hu : ∀ z, OLim (RLim U) (fun t => u t z) (u₀ z)) (hd : ∀ z, OLim (RLim U) (fun t => d t z) (d₀ z))
  {sf : ι → ℝ} {sf₀ : ℝ} (hsf : Tendsto sf U (𝓝 sf₀))
include hu hd hsf

theorem densityAdds_lim : OLim (LLim U) (fun t => densityAdds (op t) Norb Ncell (u t) (d t) (sf t))
    (Measurement.densityAdds Norb Ncell u₀ d₀ sf₀) := by
  have one : Tendsto (fun _ : ι => (1 : ℝ)) U (𝓝 1) := tendsto_const_nhds
  unfold densityAdds Measurement.densityAdds
  refine OLim.loop _ fun o => ?_
  simp only [Option.bind_eq_bind]
  refine OLim.bind (R := RLim U) (sumM_lim h _ fun i => ?_) fun nu nu₀ hnu => ?_
  · exact (hu _).bind fun x x₀ hx => OLim.pure (R := RLim U) (h.sub one hx)
  refine OLim.bind (R := RLim U) (sumM_lim h _ fun i => ?_) fun nd nd₀ hnd => ?_
  · exact (hd _).bind fun x x₀ hx => OLim.pure (R := RLim U) (h.sub one hx)
  refine OLim.bind (R := RLim U) (sumM_lim h _ fun i => ?_) fun oc oc₀ hoc => ?_
  · exact (hu _).bind fun x x₀ hx => (hd _).bind fun y y₀ hy => OLim.pure (R := RLim U) (h.mul (h.sub one hx) (h.sub one hy))
  exact OLim.pure (LLim.cons (h.mul hsf hnu) (LLim.cons (h.mul hsf hnd) (LLim.cons (h.mul hsf hoc) LLim.nil)))

theorem grfunAdds_lim : OLim (LLim U) (fun t => grfunAdds (op t) Norb Ncell (u t) (d t) (sf t))
    (Measurement.grfunAdds Norb Ncell u₀ d₀ sf₀) := by
  unfold grfunAdds Measurement.grfunAdds
  simp only [Option.bind_eq_bind]
  refine OLim.bind (OLim.loop _ fun z => (hu _).bind fun x x₀ hx => OLim.pure (LLim.cons (h.mul hsf hx) LLim.nil)) fun a a₀ ha => ?_
  refine OLim.bind (OLim.loop _ fun z => (hd _).bind fun x x₀ hx => OLim.pure (LLim.cons (h.mul hsf hx) LLim.nil)) fun b b₀ hb => ?_
  exact OLim.pure (ha.append hb)

theorem corrAdds_lim (o p i k : ℕ) : OLim (LLim U) (fun t => corrAdds (op t) Norb Ncell mp (u t) (d t) (sf t) o p i k)
    (Measurement.corrAdds Norb Ncell mp u₀ d₀ sf₀ o p i k) := by
  have one : Tendsto (fun _ : ι => (1 : ℝ)) U (𝓝 1) := tendsto_const_nhds
  have two : Tendsto (fun _ : ι => (2 : ℝ)) U (𝓝 2) := tendsto_const_nhds
  unfold corrAdds Measurement.corrAdds
  simp only [Option.bind_eq_bind]
  refine OLim.bind (hu _) fun uii uii₀ huii => ?_
  refine OLim.bind (hd _) fun dii dii₀ hdii => ?_
  refine OLim.bind (OLim.const _) fun j j₀ hj => ?_
  subst hj
  refine OLim.bind (hu _) fun ujj ujj₀ hujj => ?_
  refine OLim.bind (hd _) fun djj djj₀ hdjj => ?_
  refine OLim.bind (hu _) fun uij uij₀ huij => ?_
  refine OLim.bind (hd _) fun dij dij₀ hdij => ?_
  refine OLim.bind (hu _) fun uji uji₀ huji => ?_
  refine OLim.bind (hd _) fun dji dji₀ hdji => ?_
  refine OLim.pure (LLim.append ?_ ?_)
  · by_cases hk : k = 0 ∧ o = p
    · simp only [if_pos hk]
      have hz := h.mul hsf (h.add (h.sub huii (h.mul (h.mul two huii) hdii)) hdii)
      exact LLim.cons (h.mul hsf (h.sub one huii)) (LLim.cons (h.mul hsf (h.sub one hdii)) (LLim.cons
        (h.mul hsf (h.add (h.mul huii (h.sub one huii)) (h.mul hdii (h.sub one hdii))))
        (LLim.cons hz (LLim.cons hz LLim.nil))))
    · simp only [if_neg hk]
      have hx := h.add (h.mul huij huji) (h.mul hdij hdji)
      exact LLim.cons (h.mul hsf (h.sub (h.mul (h.sub one huii) (h.sub one hujj)) (h.mul huij huji)))
        (LLim.cons (h.mul hsf (h.sub (h.mul (h.sub one hdii) (h.sub one hdjj)) (h.mul hdij hdji)))
        (LLim.cons (h.mul hsf hx.neg) (LLim.cons (h.mul hsf (h.sub (h.mul (h.sub huii hdii) (h.sub hujj hdjj)) hx))
        (LLim.cons (h.mul hsf (h.add (h.mul huij hdji) (h.mul hdij huji)).neg) LLim.nil))))
  · exact LLim.cons (h.mul hsf (h.add (h.mul (h.sub one huii) (h.sub one hdjj)) (h.mul (h.sub one hdii) (h.sub one hujj)))) LLim.nil

theorem pairAdds_lim (o i k : ℕ) : OLim (LLim U) (fun t => pairAdds (op t) Norb Ncell mp (u t) (d t) (sf t) o i k)
    (Measurement.pairAdds Norb Ncell mp u₀ d₀ sf₀ o i k) := by
  have quarter : Tendsto (fun _ : ι => (0.25 : ℝ)) U (𝓝 0.25) := tendsto_const_nhds
  unfold pairAdds Measurement.pairAdds
  simp only [Option.bind_eq_bind]
  refine OLim.bind (OLim.const _) fun ni ni₀ hni => ?_
  subst hni
  refine OLim.bind (OLim.const _) fun j j₀ hj => ?_
  subst hj
  refine OLim.bind (OLim.const _) fun nj nj₀ hnj => ?_
  subst hnj
  refine OLim.bind (hu _) fun uij uij₀ huij => ?_
  refine OLim.bind (hd _) fun dij dij₀ hdij => ?_
  refine OLim.bind (sumTerms_lim h _ (by simp [dwTerms]) fun r c => hd _) fun dw dw₀ hdw => ?_
  refine OLim.bind (sumTerms_lim h _ (by simp [sxTerms]) fun r c => hd _) fun sx sx₀ hsx => ?_
  exact OLim.pure (LLim.cons (h.mul hsf (h.mul huij hdij)) (LLim.cons (h.mul (h.mul (h.mul hsf quarter) huij) hdw)
    (LLim.cons (h.mul (h.mul (h.mul hsf quarter) huij) hsx) LLim.nil)))

theorem eqAdds_lim (hc : 0 < Ncell) : OLim (LLim U) (fun t => eqAdds (op t) Norb Ncell mp (u t) (d t) (sf t))
    (Measurement.eqAdds Norb Ncell mp u₀ d₀ sf₀) := by
  have hn : Tendsto (fun t => (op t).div (sf t) (Ncell : ℝ)) U (𝓝 (sf₀ / Ncell)) :=
    h.div hsf tendsto_const_nhds (by exact_mod_cast hc.ne')
  unfold eqAdds Measurement.eqAdds
  simp only [Option.bind_eq_bind]
  refine OLim.bind (densityAdds_lim h Norb Ncell hu hd hn) fun a a₀ ha => ?_
  refine OLim.bind (grfunAdds_lim h Norb Ncell hu hd hsf) fun b b₀ hb => ?_
  refine OLim.bind (OLim.loop _ fun o => OLim.loop _ fun p => OLim.loop _ fun i => OLim.loop _ fun k =>
    corrAdds_lim h Norb Ncell mp hu hd hn o p i k) fun c c₀ hc => ?_
  refine OLim.bind (OLim.loop _ fun o => OLim.loop _ fun i => OLim.loop _ fun k =>
    pairAdds_lim h Norb Ncell mp hu hd hn o i k) fun e e₀ he => ?_
  exact OLim.pure (((ha.append hb).append hc).append he)

end adds

/-! ## Execution of the additions -/

section execute

variable {ι : Type} {U : Ultrafilter ι} {A : Type} [DecidableEq A] {size : A → ℤ}

theorem execute_some {ws : ι → List (Measurement.Add A)} {ws₀ : List (Measurement.Add A)} (hw : LLim U ws ws₀)
    (op : ι → Ops) (m : ι → Arrays A) {m₀ a₀ : Arrays A} (h : Measurement.execute size m₀ ws₀ = some a₀) :
    ∀ t, ∃ a, execute (op t) size (m t) (ws t) = some a := by
  unfold Measurement.execute at h
  unfold execute
  induction hw generalizing m m₀ with
  | nil => exact fun t => ⟨m t, rfl⟩
  | @cons f z v v₀ ws ws₀ hv _ ih =>
    intro t
    rw [List.foldlM_cons] at h ⊢
    unfold addTo
    unfold Measurement.addTo at h
    by_cases hz : 0 ≤ z ∧ z < size f
    · simp only [if_pos hz, Option.bind_eq_bind, Option.bind_some] at h ⊢
      exact ih (fun t => Function.update (m t) f (Function.update (m t f) z ((op t).add (m t f z) (v t)))) h t
    · simp only [if_neg hz, Option.bind_eq_bind, Option.bind_none] at h
      cases h

theorem update_entry (m : Arrays A) (f f' : A) (z z' : ℤ) (x : ℝ) :
    Function.update m f (Function.update (m f) z x) f' z' = if f' = f ∧ z' = z then x else m f' z' := by
  by_cases hf : f' = f
  · subst hf
    rw [Function.update_self]
    by_cases hz : z' = z
    · subst hz
      rw [Function.update_self, if_pos ⟨rfl, rfl⟩]
    · rw [Function.update_of_ne hz, if_neg fun h => hz h.2]
  · rw [Function.update_of_ne hf, if_neg fun h => hf h.1]

/-- additions to a large number -/
theorem OpsAlong.add_large {op : ι → Ops} {w : ι → ℝ} (h : OpsAlong U op w) {x y v : ι → ℝ} {d v₀ : ℝ}
    (hx : Tendsto (fun t => (|x t| + 1) * w t) U (𝓝 0)) (hy : Tendsto (fun t => y t - x t) U (𝓝 d)) (hv : Tendsto v U (𝓝 v₀)) :
    Tendsto (fun t => (op t).add (y t) (v t) - x t) U (𝓝 (d + v₀)) := by
  have hw : Tendsto (fun t => (|x t| + 1) * w t + (|d| + |v₀| + 2) * w t) U (𝓝 0) := by
    have := hx.add (h.null.const_mul (|d| + |v₀| + 2))
    simpa using this
  refine lim_of_near (c := 1) hw (hy.add hv) ?_
  filter_upwards [h.within, bounded_of_lim hy, bounded_of_lim hv, small hw 1] with t a b c e
  have p1 := abs_nonneg d
  have p2 := abs_nonneg v₀
  have p3 := abs_nonneg (x t)
  have p4 : |y t| ≤ |y t - x t| + |x t| := by
    have := abs_add_le (y t - x t) (x t)
    rwa [sub_add_cancel] at this
  have hb := a.add (|x t| + 1 + (|d| + |v₀| + 2)) (y t) (v t) (by linarith) (by linarith) (by linarith) (by linarith)
  rw [show (op t).add (y t) (v t) - x t - (y t - x t + v t) = (op t).add (y t) (v t) - (y t + v t) by ring]
  linarith

theorem execute_lim {op : ι → Ops} {w : ι → ℝ} (h : OpsAlong U op w) {ws : ι → List (Measurement.Add A)}
    {ws₀ : List (Measurement.Add A)} (hw : LLim U ws ws₀) {m a : ι → Arrays A} {m₀ a₀ : Arrays A}
    (h₀ : Measurement.execute size m₀ ws₀ = some a₀) (h₁ : ∀ t, execute (op t) size (m t) (ws t) = some (a t)) (f : A) (z : ℤ)
    {x : ι → ℝ} {c : ℝ} (hx : Tendsto (fun t => (|x t| + 1) * w t) U (𝓝 0)) (hm : Tendsto (fun t => m t f z - x t) U (𝓝 (m₀ f z - c))) :
    Tendsto (fun t => a t f z - x t) U (𝓝 (a₀ f z - c)) := by
  unfold Measurement.execute at h₀
  unfold execute at h₁
  induction hw generalizing m m₀ with
  | nil =>
    obtain rfl := Option.some.inj h₀
    have : m = a := funext fun t => Option.some.inj (h₁ t)
    rw [← this]
    exact hm
  | @cons f' z' v v₀ ws ws₀ hv _ ih =>
    simp only [List.foldlM_cons] at h₀ h₁
    unfold Measurement.addTo at h₀
    unfold addTo at h₁
    by_cases hz : 0 ≤ z' ∧ z' < size f'
    · simp only [if_pos hz, Option.bind_eq_bind, Option.bind_some] at h₀ h₁
      refine ih h₀ h₁ ?_
      simp only [update_entry]
      by_cases hfz : f = f' ∧ z = z'
      · simp only [if_pos hfz]
        obtain ⟨rfl, rfl⟩ := hfz
        have := h.add_large hx hm hv
        rwa [show m₀ f z - c + v₀ = m₀ f z + v₀ - c by ring] at this
      · simp only [if_neg hfz]
        exact hm
    · simp only [if_neg hz, Option.bind_eq_bind, Option.bind_none] at h₀
      cases h₀

end execute

section accumulate

variable {ι : Type} {U : Ultrafilter ι}

theorem flat_lim {A : ι → Mat N} {A₀ : Mat N} (h : MLim U A A₀) (z : ℤ) : OLim (RLim U) (fun t => flat (A t) z) (flat A₀ z) := by
  unfold flat
  by_cases hz : 0 ≤ z ∧ z < (N : ℤ) * N
  · simp only [dif_pos hz]
    exact OLim.pure (h _ _)
  · simp only [dif_neg hz]
    exact Or.inl ⟨rfl, fun _ => rfl⟩

theorem accumulateEq_lim {op : ι → Ops} {w : ι → ℝ} (h : OpsAlong U op w) {Norb Ncell : ℕ} (hc : 0 < Ncell) (mp : Maps)
    {Gu Gd : ι → GreensFn N} {Gu₀ Gd₀ : GreensFn N} (hu : MLim U (fun t => (Gu t).mat) Gu₀.mat)
    (hd : MLim U (fun t => (Gd t).mat) Gd₀.mat) (hsu : ∀ t, (Gu t).sgndet = Gu₀.sgndet) (hsd : ∀ t, (Gd t).sgndet = Gd₀.sgndet)
    {m : ι → EqData} {m₀ a₀ : EqData} (h₀ : Measurement.accumulateEq Norb Ncell mp Gu₀ Gd₀ m₀ = some a₀) :
    ∃ a : ι → EqData, (∀ t, accumulateEq (op t) Norb Ncell mp (Gu t) (Gd t) (m t) = some (a t)) ∧
      (∀ f z, Tendsto (fun t => (|(m t).arr f z| + 1) * w t) U (𝓝 0) →
        Tendsto (fun t => (a t).arr f z - (m t).arr f z) U (𝓝 (a₀.arr f z - m₀.arr f z))) ∧
      (Tendsto (fun t => (|(m t).sign| + 1) * w t) U (𝓝 0) →
        Tendsto (fun t => (a t).sign - (m t).sign) U (𝓝 (a₀.sign - m₀.sign))) := by
  unfold Measurement.accumulateEq at h₀
  simp only [Option.bind_eq_bind] at h₀
  obtain ⟨ws₀, hws, h₀⟩ := Option.bind_eq_some_iff.1 h₀
  obtain ⟨arr₀, harr, h₀⟩ := Option.bind_eq_some_iff.1 h₀
  obtain rfl := Option.some.inj h₀
  have hl := eqAdds_lim h Norb Ncell mp (flat_lim hu) (flat_lim hd)
    (tendsto_const_nhds (x := ((Gu₀.sgndet * Gd₀.sgndet : ℤ) : ℝ))) hc
  rw [hws] at hl
  rcases hl with ⟨hl, -⟩ | ⟨ws, ws', e1, e2, e3⟩
  · cases hl
  obtain rfl := Option.some.inj e2
  choose arr ha using execute_some e3 op (fun t => (m t).arr) harr
  refine ⟨fun t => { arr := arr t, sign := (op t).add (m t).sign ((Gu₀.sgndet * Gd₀.sgndet : ℤ) : ℝ), nsampl := (m t).nsampl + 1 },
    fun t => ?_, fun f z hx => ?_, fun hx => ?_⟩
  · unfold accumulateEq
    simp only [Option.bind_eq_bind, hsu t, hsd t, e1 t, Option.bind_some, ha t]
    rfl
  · exact execute_lim h e3 harr ha f z hx (by simp)
  · have := h.add_large (y := fun t => (m t).sign) (d := 0) hx (by simp)
      (tendsto_const_nhds (x := ((Gu₀.sgndet * Gd₀.sgndet : ℤ) : ℝ)))
    simpa using this

end accumulate

/-! ## Tolerances -/

section tolerances

variable [NeZero N] {sys : Sys σ N MeasData} {cfg : Cfg} {Nx Ny Norb : ℕ} {shift : ℤ} {junk : ℤ → ℤ} {dt : ℝ} {omega : ℕ → ℝ}
  {alg : BlockCyclic.QRs N} {tau : BlockCyclic.Buf} {old : GreensUneq.Arrays}

open Classical in
/-- exact Green's function -/
noncomputable def exactG (B : ℕ → Mat N) (L shift : ℕ) : GreensFn N where
  mat := (1 + cyclicProd B L shift)⁻¹
  logdet := Real.log |(1 + cyclicProd B L shift)⁻¹.det|
  sgndet := if 0 < (1 + cyclicProd B L shift).det then 1 else -1

omit [NeZero N] in
theorem exactG_good {B : ℕ → Mat N} {L shift : ℕ} (h : (1 + cyclicProd B L shift).det ≠ 0) :
    GoodG B L shift (exactG B L shift) := by
  refine ⟨h, rfl, ?_, ?_⟩
  · have e : (1 + cyclicProd B L shift)⁻¹.det = ((1 + cyclicProd B L shift).det)⁻¹ := by
      rw [det_nonsing_inv, Ring.inverse_eq_inv']
    unfold exactG
    simp only
    rw [Real.exp_log (abs_pos.2 (by rw [e]; exact inv_ne_zero h)), e]
    split
    · rename_i h'
      rw [abs_of_pos (inv_pos.2 h')]
      simp
    · rename_i h'
      rw [abs_of_neg (inv_lt_zero.2 (lt_of_le_of_ne (not_lt.1 h') h))]
      simp
  · unfold exactG
    simp only
    split
    · exact Or.inl rfl
    · exact Or.inr rfl

omit [NeZero N] in
theorem NearG.sgndet {e : ℝ} {B : ℕ → Mat N} {L shift : ℕ} {G : GreensFn N} (h : NearG e B L shift G) :
    G.sgndet = (exactG B L shift).sgndet := by
  obtain ⟨h1, h2⟩ := h.sgn
  unfold exactG
  simp only
  rcases h1 with h1 | h1 <;> rw [h1] at h2 ⊢ <;> push_cast at h2
  · rw [if_pos (by linarith)]
  · rw [if_neg (by linarith)]

/-- the recorded quantities: an entry of one of the arrays, or the accumulated sign, of the equal or unequal time measurements -/
inductive Rec where
  | eqArr (f : EqF) (z : ℤ)
  | eqSign
  | uneqArr (f : UneqF) (z : ℤ)
  | uneqSign

/-- the value of a recorded quantity -/
def Rec.val : Rec → MeasData → ℝ
  | .eqArr f z, m => m.eq.arr f z
  | .eqSign, m => m.eq.sign
  | .uneqArr f z, m => m.uneq.arr f z
  | .uneqSign, m => m.uneq.sign

/-- an equal time measurement changes a recorded quantity by an amount which converges to the exact one -/
theorem Rec.eq_lim {ι : Type} {U : Ultrafilter ι} (r : Rec) {m : ι → MeasData} {a : ι → EqData} {w : ι → ℝ} {m₀ : MeasData}
    {a₀ : EqData} {x : ℝ}
    (h₁ : ∀ f z, Tendsto (fun t => (|(m t).eq.arr f z| + 1) * w t) U (𝓝 0) →
        Tendsto (fun t => (a t).arr f z - (m t).eq.arr f z) U (𝓝 (a₀.arr f z - m₀.eq.arr f z)))
    (h₂ : Tendsto (fun t => (|(m t).eq.sign| + 1) * w t) U (𝓝 0) →
        Tendsto (fun t => (a t).sign - (m t).eq.sign) U (𝓝 (a₀.sign - m₀.eq.sign)))
    (hx : r.val { m₀ with eq := a₀ } = r.val m₀ + x) (hw : Tendsto (fun t => (|r.val (m t)| + 1) * w t) U (𝓝 0)) :
    Tendsto (fun t => r.val { m t with eq := a t } - r.val (m t)) U (𝓝 x) := by
  cases r with
  | eqArr f z =>
    simp only [Rec.val] at hx hw ⊢
    have := h₁ f z hw
    rwa [hx, add_sub_cancel_left] at this
  | eqSign =>
    simp only [Rec.val] at hx hw ⊢
    have := h₂ hw
    rwa [hx, add_sub_cancel_left] at this
  | uneqArr f z =>
    simp only [Rec.val, sub_self] at hx ⊢
    rw [show x = 0 by linarith]
    exact tendsto_const_nhds
  | uneqSign =>
    simp only [Rec.val, sub_self] at hx ⊢
    rw [show x = 0 by linarith]
    exact tendsto_const_nhds

/-- the same for an unequal time measurement -/
theorem Rec.uneq_lim {ι : Type} {U : Ultrafilter ι} (r : Rec) {m : ι → MeasData} {a : ι → UneqData} {w : ι → ℝ} {m₀ : MeasData}
    {a₀ : UneqData} {x : ℝ}
    (h₁ : ∀ f z, Tendsto (fun t => (|(m t).uneq.arr f z| + 1) * w t) U (𝓝 0) →
        Tendsto (fun t => (a t).arr f z - (m t).uneq.arr f z) U (𝓝 (a₀.arr f z - m₀.uneq.arr f z)))
    (h₂ : Tendsto (fun t => (|(m t).uneq.sign| + 1) * w t) U (𝓝 0) →
        Tendsto (fun t => (a t).sign - (m t).uneq.sign) U (𝓝 (a₀.sign - m₀.uneq.sign)))
    (hx : r.val { m₀ with uneq := a₀ } = r.val m₀ + x) (hw : Tendsto (fun t => (|r.val (m t)| + 1) * w t) U (𝓝 0)) :
    Tendsto (fun t => r.val { m t with uneq := a t } - r.val (m t)) U (𝓝 x) := by
  cases r with
  | uneqArr f z =>
    simp only [Rec.val] at hx hw ⊢
    have := h₁ f z hw
    rwa [hx, add_sub_cancel_left] at this
  | uneqSign =>
    simp only [Rec.val] at hx hw ⊢
    have := h₂ hw
    rwa [hx, add_sub_cancel_left] at this
  | eqArr f z =>
    simp only [Rec.val, sub_self] at hx ⊢
    rw [show x = 0 by linarith]
    exact tendsto_const_nhds
  | eqSign =>
    simp only [Rec.val, sub_self] at hx ⊢
    rw [show x = 0 by linarith]
    exact tendsto_const_nhds

/-- equal time measurements in rounded arithmetic -/
theorem measClose (h : Sound sys cfg.L) (hx : 0 < Nx) (hy : 0 < Ny) (hN : N = Nx * Ny * Norb) (hs : 0 ≤ shift)
    (hm : sys.meas = realMeas Norb (Nx * Ny) cfg.L (Maps.construct Nx Ny shift junk) dt omega alg tau old)
    (r : Fin 2 → Rec) {q : Fin 2 → ℕ → Field cfg.L N → ℝ} {qu : Fin 2 → Field cfg.L N → ℝ}
    (hq : ∀ a, Adds sys cfg.L cfg.prodBlen (r a).val (q a) (qu a))
    {η : ℝ} (hη : 0 < η) : ∃ δ, 0 < δ ∧ δ ≤ η ∧ ∀ (op : Ops) (ms : Meas N MeasData) (u A : ℝ), 0 ≤ u → op.Within u →
      (ms.eq = fun Gu Gd m => (accumulateEq op Norb (Nx * Ny) (Maps.construct Nx Ny shift junk) Gu Gd m.eq).map
        fun e => { m with eq := e }) → (A + 1) * u ≤ δ →
      u ≤ δ → MeasClose sys cfg.L ms (fun a => (r a).val) q δ A η := by
  obtain ⟨δ, d1, d2, d3⟩ := uniform_fin (X := Field cfg.L N × Fin cfg.L) (α := Ops × ℝ × GreensFn N × GreensFn N × MeasData)
    (R := fun x δ a => 0 ≤ a.2.1 ∧ a.1.Within a.2.1 ∧ a.2.1 ≤ δ ∧ (∀ i, (|(r i).val a.2.2.2.2| + 1) * a.2.1 ≤ δ) ∧
      NearG δ (exactB sys false (extend x.1)) cfg.L (x.2 + 1) a.2.2.1 ∧ NearG δ (exactB sys true (extend x.1)) cfg.L (x.2 + 1) a.2.2.2.1)
    (p := fun x a => ∃ m', accumulateEq a.1 Norb (Nx * Ny) (Maps.construct Nx Ny shift junk) a.2.2.1 a.2.2.2.1 a.2.2.2.2.eq = some m' ∧
      ∀ i, |(r i).val { a.2.2.2.2 with eq := m' } - (r i).val a.2.2.2.2 - q i x.2 x.1| ≤ η) hη (fun x U hU => by
    set Gu₀ := exactG (exactB sys false (extend x.1)) cfg.L (x.2 + 1) with hGu
    set Gd₀ := exactG (exactB sys true (extend x.1)) cfg.L (x.2 + 1) with hGd
    have gu : GoodG (exactB sys false (extend x.1)) cfg.L (x.2 + 1) Gu₀ := exactG_good (by
      exact h.det_ne (Nat.zero_lt_of_lt x.2.2) false _ _)
    have gd : GoodG (exactB sys true (extend x.1)) cfg.L (x.2 + 1) Gd₀ := exactG_good (by
      exact h.det_ne (Nat.zero_lt_of_lt x.2.2) true _ _)
    have hE : Exact sys cfg.L (fun _ _ => 1) (extend x.1) (x.2 + 1) Gu₀ Gd₀ := ⟨gu, gd⟩
    have hw := squeeze_zero (fun t => t.2.1) (fun t => t.2.2.2.1) hU
    obtain ⟨est, -, h2⟩ := accumulateEq_estimates hx hy hN shift hs junk Gu₀ Gd₀ gu.sgn gd.sgn
    obtain ⟨a₀, h3⟩ : ∃ a₀, Measurement.accumulateEq Norb (Nx * Ny) (Maps.construct Nx Ny shift junk) Gu₀ Gd₀ EqData.allocate
      = some a₀ := ⟨_, h2 _⟩
    obtain ⟨a, a1, a2, a3⟩ := accumulateEq_lim (U := U) (op := fun t => t.1.2.1) (w := fun t => t.1.2.2.1)
      ⟨hw, Eventually.of_forall fun t => t.2.2.1⟩ (Nat.mul_pos hx hy) (Maps.construct Nx Ny shift junk)
      (Gu := fun t => t.1.2.2.2.1) (Gd := fun t => t.1.2.2.2.2.1) (near_lim hU fun t => t.2.2.2.2.2.1.mat)
      (near_lim hU fun t => t.2.2.2.2.2.2.mat) (fun t => t.2.2.2.2.2.1.sgndet) (fun t => t.2.2.2.2.2.2.sgndet)
      (m := fun t => t.1.2.2.2.2.2.eq) h3
    have e0 : sys.meas.eq Gu₀ Gd₀ (MeasData.allocate 0) = some { MeasData.allocate 0 with eq := a₀ } := by
      rw [hm]
      exact congrArg (Option.map _) h3
    have key := fun i => (r i).eq_lim (U := U) (m := fun t => t.1.2.2.2.2.2) (m₀ := MeasData.allocate 0) (w := fun t => t.1.2.2.1)
      (x := q i x.2 x.1) a2 a3 (by
        have c := (hq i).eq (extend x.1) x.2 Gu₀ Gd₀ _ _ x.2.2 hE e0
        rwa [fieldOf_extend] at c)
      (squeeze_zero (fun t => mul_nonneg (by positivity) t.2.1) (fun t => t.2.2.2.2.1 i) hU)
    filter_upwards [eventually_all.2 fun i => Metric.tendsto_nhds.1 (key i) η hη] with t ht
    refine ⟨a t, a1 t, fun i => ?_⟩
    have := ht i
    rw [Real.dist_eq] at this
    exact this.le)
  refine ⟨δ, d1, d2, fun op ms u A hu0 hop hms hA hu => ?_⟩
  intro s l Gu Gd m hl hGu hGd hΦ
  have agree : ∀ l < cfg.L, s l = extend (fieldOf cfg.L s) l := fun l hl => (extend_fieldOf s l hl).symm
  obtain ⟨m', e1, e2⟩ := d3 (fieldOf cfg.L s, ⟨l, hl⟩) (op, u, Gu, Gd, m) ⟨hu0, hop, hu,
    fun i => (mul_le_mul_of_nonneg_right (by have := hΦ i; linarith) hu0).trans hA,
    hGu.congr (exactB_congr agree), hGd.congr (exactB_congr agree)⟩
  refine ⟨{ m with eq := m' }, ?_, e2⟩
  rw [hms]
  exact congrArg (Option.map _) e1

end tolerances

end Verif.Rounded
