import Verif.Props.RoundedUneqGreen
import Verif.Props.RoundedMeasure

/-! # Property C117, third part: unequal time measurements in rounded arithmetic -/

set_option autoImplicit false

namespace Verif.Rounded

open Filter Topology Matrix Verif.Lapack Verif.TimeFlow Verif.Greens Verif.Stratonovich Verif.MonteCarlo Verif.Ultra Verif.Fock
open Verif.Measurement Verif.Main

variable {σ : Type} {N : ℕ}

/-! ## Limits of the additions -/

section adds

variable {ι : Type} {U : Ultrafilter ι}

theorem OLim.then {X Y : Type} {R : (ι → X) → X → Prop} {S : (ι → Y) → Y → Prop} {F : ι → Option X} {F₀ : Option X}
    (h : OLim R F F₀) {G : ι → X → Option Y} {G₀ : X → Option Y}
    (hG : ∀ x x₀, R x x₀ → OLim S (fun t => G t (x t)) (G₀ x₀)) : OLim S (fun t => F t >>= G t) (F₀ >>= G₀) := h.bind hG

/-- arrays read by the measurements, whose elements converge -/
structure CLim (U : Ultrafilter ι) (c : ι → Cur) (c₀ : Cur) : Prop where
  tau0 : ∀ z, OLim (RLim U) (fun t => (c t).tau0 z) (c₀.tau0 z)
  zerotau : ∀ z, OLim (RLim U) (fun t => (c t).zerotau z) (c₀.zerotau z)
  eqlt : ∀ z, OLim (RLim U) (fun t => (c t).eqlt z) (c₀.eqlt z)

/-- the same for reads through base pointers -/
structure BaseLim (U : Ultrafilter ι) (b : ι → Base) (b₀ : Base) : Prop where
  t0 : ∀ x y, OLim (RLim U) (fun t => (b t).t0 x y) (b₀.t0 x y)
  zt : ∀ x y, OLim (RLim U) (fun t => (b t).zt x y) (b₀.zt x y)
  g00 : ∀ x y, OLim (RLim U) (fun t => (b t).g00 x y) (b₀.g00 x y)
  gtt : ∀ x y, OLim (RLim U) (fun t => (b t).gtt x y) (b₀.gtt x y)

theorem CLim.base {c : ι → Cur} {c₀ : Cur} (h : CLim U c c₀) (Norb Ncell L l o : ℕ) :
    BaseLim U (fun t => (c t).base Norb Ncell L l o) (c₀.base Norb Ncell L l o) :=
  ⟨fun _ _ => h.tau0 _, fun _ _ => h.zerotau _, fun _ _ => h.eqlt _, fun _ _ => h.eqlt _⟩

theorem ALim.toCur {A : ι → GreensUneq.Arrays} {A₀ : GreensUneq.Arrays} (h : ALim U A A₀) (N L : ℕ) :
    CLim U (fun t => (A t).toCur N L) (A₀.toCur N L) := by
  have key : ∀ (F : ι → BlockCyclic.Buf) (F₀ : BlockCyclic.Buf), BLim U F F₀ → ∀ z : ℤ,
      OLim (RLim U) (fun t => if 0 ≤ z ∧ z < (L * N * N : ℕ) then some (F t z.toNat) else none)
        (if 0 ≤ z ∧ z < (L * N * N : ℕ) then some (F₀ z.toNat) else none) := by
    intro F F₀ hF z
    by_cases hz : 0 ≤ z ∧ z < (L * N * N : ℕ)
    · simp only [if_pos hz]
      exact OLim.pure (hF _)
    · simp only [if_neg hz]
      exact Or.inl ⟨rfl, fun _ => rfl⟩
  exact ⟨key _ _ h.tau0, key _ _ h.zerotau, key _ _ h.eqlt⟩

variable {op : ι → Ops} {w : ι → ℝ} (h : OpsAlong U op w)
include h

section terms

variable {bu bd : ι → Base} {bu₀ bd₀ : Base} (hu : BaseLim U bu bu₀) (hd : BaseLim U bd bd₀)
include hu hd

theorem currentTerm_lim (l : ℕ) (i ip j jp : ℤ) : OLim (RLim U) (fun t => currentTerm (op t) (bu t) (bd t) l i ip j jp)
    (Measurement.currentTerm bu₀ bd₀ l i ip j jp) := by
  have c : ∀ a b, Tendsto (fun _ : ι => deltaTau l a b) U (𝓝 (deltaTau l a b)) := fun _ _ => tendsto_const_nhds
  unfold currentTerm Measurement.currentTerm
  dsimp only
  refine OLim.then (hu.gtt _ _) fun _ _ h1 => ?_
  refine OLim.then (hu.gtt _ _) fun _ _ h2 => ?_
  refine OLim.then (hd.gtt _ _) fun _ _ h3 => ?_
  refine OLim.then (hd.gtt _ _) fun _ _ h4 => ?_
  refine OLim.then (hu.g00 _ _) fun _ _ h5 => ?_
  refine OLim.then (hu.g00 _ _) fun _ _ h6 => ?_
  refine OLim.then (hd.g00 _ _) fun _ _ h7 => ?_
  refine OLim.then (hd.g00 _ _) fun _ _ h8 => ?_
  refine OLim.then (hu.t0 _ _) fun _ _ h9 => ?_
  refine OLim.then (hu.zt _ _) fun _ _ h10 => ?_
  refine OLim.then (hd.t0 _ _) fun _ _ h11 => ?_
  refine OLim.then (hd.zt _ _) fun _ _ h12 => ?_
  refine OLim.then (hu.t0 _ _) fun _ _ h13 => ?_
  refine OLim.then (hu.zt _ _) fun _ _ h14 => ?_
  refine OLim.then (hd.t0 _ _) fun _ _ h15 => ?_
  refine OLim.then (hd.zt _ _) fun _ _ h16 => ?_
  refine OLim.then (hu.t0 _ _) fun _ _ h17 => ?_
  refine OLim.then (hu.zt _ _) fun _ _ h18 => ?_
  refine OLim.then (hd.t0 _ _) fun _ _ h19 => ?_
  refine OLim.then (hd.zt _ _) fun _ _ h20 => ?_
  refine OLim.then (hu.t0 _ _) fun _ _ h21 => ?_
  refine OLim.then (hu.zt _ _) fun _ _ h22 => ?_
  refine OLim.then (hd.t0 _ _) fun _ _ h23 => ?_
  refine OLim.then (hd.zt _ _) fun _ _ h24 => ?_
  exact OLim.pure (R := RLim U) (h.add (h.sub (h.sub (h.add
    (h.mul (h.sub (h.add (h.sub h1 h2) h3) h4).neg (h.sub (h.add (h.sub h5 h6) h7) h8))
    (h.add (h.mul h9 (h.sub (c _ _) h10)) (h.mul h11 (h.sub (c _ _) h12))))
    (h.add (h.mul h13 (h.sub (c _ _) h14)) (h.mul h15 (h.sub (c _ _) h16))))
    (h.add (h.mul h17 (h.sub (c _ _) h18)) (h.mul h19 (h.sub (c _ _) h20))))
    (h.add (h.mul h21 (h.sub (c _ _) h22)) (h.mul h23 (h.sub (c _ _) h24))))

theorem ramanTerm_lim (l : ℕ) (i j ia jb : ℤ) : OLim (RLim U) (fun t => ramanTerm (op t) (bu t) (bd t) l i j ia jb)
    (Measurement.ramanTerm bu₀ bd₀ l i j ia jb) := by
  have c : ∀ a b, Tendsto (fun _ : ι => deltaTau l a b) U (𝓝 (deltaTau l a b)) := fun _ _ => tendsto_const_nhds
  unfold ramanTerm Measurement.ramanTerm
  simp only [Option.bind_eq_bind, Option.pure_def]
  refine OLim.bind (hu.gtt _ _) fun _ _ h1 => ?_
  refine OLim.bind (hd.gtt _ _) fun _ _ h2 => ?_
  refine OLim.bind (hu.g00 _ _) fun _ _ h3 => ?_
  refine OLim.bind (hd.g00 _ _) fun _ _ h4 => ?_
  refine OLim.bind (hu.t0 _ _) fun _ _ h5 => ?_
  refine OLim.bind (hu.zt _ _) fun _ _ h6 => ?_
  refine OLim.bind (hd.t0 _ _) fun _ _ h7 => ?_
  refine OLim.bind (hd.zt _ _) fun _ _ h8 => ?_
  exact OLim.pure (R := RLim U) (h.sub (h.sub (h.mul (h.add h1 h2) (h.add h3 h4)) (h.mul h5 (h.sub h6 (c _ _))))
    (h.mul h7 (h.sub h8 (c _ _))))

end terms

variable (Norb Ncell L : ℕ) (mp : Maps) {u d : ι → Cur} {u₀ d₀ : Cur} (hu : CLim U u u₀) (hd : CLim U d d₀)
  {sf : ι → ℝ} {sf₀ : ℝ} (hsf : Tendsto sf U (𝓝 sf₀))
include hu hd hsf

theorem uneqGreenAdds_lim (l : ℕ) (io jp kz : ℤ) :
    OLim (LLim U) (fun t => uneqGreenAdds (op t) Norb Ncell L (u t) (d t) (sf t) l io jp kz)
      (Measurement.uneqGreenAdds Norb Ncell L u₀ d₀ sf₀ l io jp kz) := by
  unfold uneqGreenAdds Measurement.uneqGreenAdds
  simp only [Option.bind_eq_bind, Option.pure_def]
  refine OLim.bind (hu.eqlt _) fun _ _ h1 => ?_
  refine OLim.bind (hd.eqlt _) fun _ _ h2 => ?_
  refine OLim.bind (hu.tau0 _) fun _ _ h3 => ?_
  refine OLim.bind (hd.tau0 _) fun _ _ h4 => ?_
  refine OLim.bind (hu.zerotau _) fun _ _ h5 => ?_
  refine OLim.bind (hd.zerotau _) fun _ _ h6 => ?_
  exact OLim.pure (LLim.cons (h.mul hsf h1) (LLim.cons (h.mul hsf h2) (LLim.cons (h.mul hsf h3) (LLim.cons (h.mul hsf h4)
    (LLim.cons (h.mul hsf h5) (LLim.cons (h.mul hsf h6) LLim.nil))))))

theorem uneqDiffAdds_lim {a b : ι → ℝ} {a₀ b₀ : ℝ} (ha : Tendsto a U (𝓝 a₀)) (hb : Tendsto b U (𝓝 b₀)) (l : ℕ) (io jp kz : ℤ) :
    OLim (LLim U) (fun t => uneqDiffAdds (op t) Norb Ncell L (u t) (d t) (sf t) (a t) (b t) l io jp kz)
      (Measurement.uneqDiffAdds Norb Ncell L u₀ d₀ sf₀ a₀ b₀ l io jp kz) := by
  have two : Tendsto (fun _ : ι => (2 : ℝ)) U (𝓝 2) := tendsto_const_nhds
  unfold uneqDiffAdds Measurement.uneqDiffAdds
  simp only [Option.bind_eq_bind, Option.pure_def]
  refine OLim.bind (hu.eqlt _) fun _ _ h1 => ?_
  refine OLim.bind (hd.eqlt _) fun _ _ h2 => ?_
  refine OLim.bind (hu.tau0 _) fun _ _ h3 => ?_
  refine OLim.bind (hd.tau0 _) fun _ _ h4 => ?_
  refine OLim.bind (hu.zerotau _) fun _ _ h5 => ?_
  refine OLim.bind (hd.zerotau _) fun _ _ h6 => ?_
  have hx := h.add (h.mul h3 h5) (h.mul h4 h6)
  exact OLim.pure (LLim.cons (h.mul hsf (h.sub (h.mul (h.sub (h.sub two ha) hb) (h.sub (h.sub two h1) h2)) hx))
    (LLim.cons (h.mul hsf (h.sub (h.mul (h.sub ha hb) (h.sub h1 h2)) hx))
    (LLim.cons (h.mul hsf (h.add (h.mul h3 h6) (h.mul h4 h5)).neg) LLim.nil)))

theorem uneqCorrAdds_lim (l o p i k : ℕ) :
    OLim (LLim U) (fun t => uneqCorrAdds (op t) Norb Ncell L mp (u t) (d t) (sf t) l o p i k)
      (Measurement.uneqCorrAdds Norb Ncell L mp u₀ d₀ sf₀ l o p i k) := by
  have two : Tendsto (fun _ : ι => (2 : ℝ)) U (𝓝 2) := tendsto_const_nhds
  have three : Tendsto (fun _ : ι => (3 : ℝ)) U (𝓝 3) := tendsto_const_nhds
  have four : Tendsto (fun _ : ι => (4 : ℝ)) U (𝓝 4) := tendsto_const_nhds
  unfold uneqCorrAdds Measurement.uneqCorrAdds
  simp only [Option.bind_eq_bind, Option.pure_def]
  refine OLim.bind (hu.eqlt _) fun _ _ h1 => ?_
  refine OLim.bind (hd.eqlt _) fun _ _ h2 => ?_
  refine OLim.bind (OLim.const _) fun j j₀ hj => ?_
  subst hj
  refine OLim.bind (uneqGreenAdds_lim h Norb Ncell L hu hd hsf _ _ _ _) fun _ _ h3 => ?_
  by_cases hk : k = 0 ∧ o = p ∧ l = 0
  · simp only [if_pos hk, Option.bind_some]
    have hz := h.mul hsf (h.add (h.sub h1 (h.mul (h.mul two h1) h2)) h2)
    exact OLim.pure (h3.append (LLim.cons (h.mul hsf (h.add (h.sub four (h.mul three (h.add h1 h2))) (h.mul (h.mul two h1) h2)))
      (LLim.cons hz (LLim.cons hz LLim.nil))))
  · simp only [if_neg hk]
    exact OLim.bind (uneqDiffAdds_lim h Norb Ncell L hu hd hsf h1 h2 _ _ _ _) fun _ _ h4 => OLim.pure (h3.append h4)

theorem uneqPairAdds_lim (l o i k : ℕ) :
    OLim (LLim U) (fun t => uneqPairAdds (op t) Norb Ncell L mp (u t) (d t) (sf t) l o i k)
      (Measurement.uneqPairAdds Norb Ncell L mp u₀ d₀ sf₀ l o i k) := by
  have quarter : Tendsto (fun _ : ι => (0.25 : ℝ)) U (𝓝 0.25) := tendsto_const_nhds
  have sixteenth : Tendsto (fun _ : ι => (0.0625 : ℝ)) U (𝓝 0.0625) := tendsto_const_nhds
  have bu := hu.base Norb Ncell L l o
  have bd := hd.base Norb Ncell L l o
  unfold uneqPairAdds Measurement.uneqPairAdds
  dsimp only
  refine OLim.then (OLim.const _) fun ni ni₀ hni => ?_
  subst hni
  refine OLim.then (OLim.const _) fun di di₀ hdi => ?_
  subst hdi
  refine OLim.then (OLim.const _) fun j j₀ hj => ?_
  subst hj
  refine OLim.then (OLim.const _) fun nj nj₀ hnj => ?_
  subst hnj
  refine OLim.then (OLim.const _) fun dj dj₀ hdj => ?_
  subst hdj
  refine OLim.then (bu.t0 _ _) fun _ _ h1 => ?_
  refine OLim.then (bd.t0 _ _) fun _ _ h2 => ?_
  refine OLim.then (sumTerms_lim h _ (by simp [dwTerms]) fun r c => bd.t0 _ _) fun _ _ h3 => ?_
  refine OLim.then (sumTerms_lim h _ (by simp [sxTerms]) fun r c => bd.t0 _ _) fun _ _ h4 => ?_
  refine OLim.then (currentTerm_lim h bu bd _ _ _ _ _) fun _ _ h5 => ?_
  refine OLim.then (currentTerm_lim h bu bd _ _ _ _ _) fun _ _ h6 => ?_
  refine OLim.then (sumTerms_lim h _ (by simp [b1gTerms]) fun r c => ramanTerm_lim h bu bd _ _ _ _ _) fun _ _ h7 => ?_
  refine OLim.then (sumTerms_lim h _ (by simp [b2gTerms]) fun r c => ramanTerm_lim h bu bd _ _ _ _ _) fun _ _ h8 => ?_
  exact OLim.pure (LLim.cons (h.mul hsf (h.mul h1 h2)) (LLim.cons (h.mul (h.mul (h.mul hsf quarter) h1) h3)
    (LLim.cons (h.mul (h.mul (h.mul hsf quarter) h1) h4) (LLim.cons (h.mul hsf h5) (LLim.cons (h.mul hsf h6)
    (LLim.cons (h.mul (h.mul hsf sixteenth) h7) (LLim.cons (h.mul (h.mul hsf sixteenth) h8) LLim.nil)))))))

theorem uneqAdds_lim (hc : 0 < Ncell) : OLim (LLim U) (fun t => uneqAdds (op t) Norb Ncell L mp (u t) (d t) (sf t))
    (Measurement.uneqAdds Norb Ncell L mp u₀ d₀ sf₀) := by
  have hn : Tendsto (fun t => (op t).div (sf t) (Ncell : ℝ)) U (𝓝 (sf₀ / Ncell)) :=
    h.div hsf tendsto_const_nhds (by exact_mod_cast hc.ne')
  unfold uneqAdds Measurement.uneqAdds
  refine OLim.loop _ fun l => OLim.loop _ fun o => ?_
  simp only [Option.bind_eq_bind, Option.pure_def]
  refine OLim.bind (OLim.loop _ fun p => OLim.loop _ fun i => OLim.loop _ fun k =>
    uneqCorrAdds_lim h Norb Ncell L mp hu hd hn l o p i k) fun a a₀ ha => ?_
  refine OLim.bind (OLim.loop _ fun i => OLim.loop _ fun k =>
    uneqPairAdds_lim h Norb Ncell L mp hu hd hn l o i k) fun b b₀ hb => ?_
  exact OLim.pure (ha.append hb)

omit hsf in
theorem accumulateUneq_lim (hc : 0 < Ncell) (sign : ℝ) {m : ι → UneqData} {m₀ a₀ : UneqData}
    (h₀ : Measurement.accumulateUneq Norb Ncell L mp sign u₀ d₀ m₀ = some a₀) :
    ∃ a : ι → UneqData, (∀ t, accumulateUneq (op t) Norb Ncell L mp (u t) (d t) sign (m t) = some (a t)) ∧
      (∀ f z, Tendsto (fun t => (|(m t).arr f z| + 1) * w t) U (𝓝 0) →
        Tendsto (fun t => (a t).arr f z - (m t).arr f z) U (𝓝 (a₀.arr f z - m₀.arr f z))) ∧
      (Tendsto (fun t => (|(m t).sign| + 1) * w t) U (𝓝 0) →
        Tendsto (fun t => (a t).sign - (m t).sign) U (𝓝 (a₀.sign - m₀.sign))) := by
  unfold Measurement.accumulateUneq at h₀
  simp only [Option.bind_eq_bind] at h₀
  obtain ⟨ws₀, hws, h₀⟩ := Option.bind_eq_some_iff.1 h₀
  obtain ⟨arr₀, harr, h₀⟩ := Option.bind_eq_some_iff.1 h₀
  obtain rfl := Option.some.inj h₀
  have hl := uneqAdds_lim h Norb Ncell L mp hu hd (tendsto_const_nhds (x := sign)) hc
  rw [hws] at hl
  rcases hl with ⟨hl, -⟩ | ⟨ws, ws', e1, e2, e3⟩
  · cases hl
  obtain rfl := Option.some.inj e2
  choose arr ha using execute_some e3 op (fun t => (m t).arr) harr
  refine ⟨fun t => { arr := arr t, sign := (op t).add (m t).sign sign, nsampl := (m t).nsampl + 1 }, fun t => ?_, fun f z hx => ?_,
    fun hx => ?_⟩
  · unfold accumulateUneq
    simp only [Option.bind_eq_bind, e1 t, Option.bind_some, ha t]
    rfl
  · exact execute_lim h e3 harr ha f z hx (by simp)
  · have := h.add_large (y := fun t => (m t).sign) (d := 0) hx (by simp) (tendsto_const_nhds (x := sign))
    simpa using this

end adds

end Verif.Rounded
