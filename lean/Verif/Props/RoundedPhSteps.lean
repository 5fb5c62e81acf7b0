import Verif.Props.RoundedLogdet
import Verif.Props.Phonon
import Verif.Model.RoundedPhonon

/-! # Property C123, second part: the steps of a run with phonons in rounded arithmetic -/

set_option autoImplicit false

namespace Verif.Rounded

open Filter Topology Matrix Verif.Lapack Verif.TimeFlow Verif.Greens Verif.Stratonovich Verif.MonteCarlo Verif.Ultra

variable {N : ℕ}

/-- the decomposition of the product of all slices, and its limit -/
theorem flow_lim [NeZero N] {ι : Type} {U : Ultrafilter ι} {ar : ι → Arith N} {k : ℕ} {u : ι → ℝ} (h : Along U ar k u)
    {tsm : ι → TSM N} {B : ℕ → Mat N} {L len sh : ℕ}
    (hd : ∀ t, TsmDims L len (tsm t)) (hf : ∀ t, ∀ m < (tsm t).numBprod, RFreshAt (ar t) (tsm t) m)
    (hB : ∀ l < L, MLim U (fun t => (tsm t).B l) (B l)) (hdet : ∀ l < L, (B l).det ≠ 0) (hsh : len ∣ sh) :
    ∃ Q d T, FlowLim U u (fun t => timeFlowMap (ar t) (tsm t) sh) Q d T ∧ Q * diagonal d * T = cyclicProd B L sh := by
  obtain ⟨t₀⟩ : Nonempty ι := U.neBot.nonempty
  have hlen : 0 < len := by rw [← (hd t₀).hlen]; exact (hd t₀).dims.len
  obtain ⟨num, hnum0, hL⟩ : ∃ num, 0 < num ∧ L = num * len :=
    ⟨(tsm t₀).numBprod, (hd t₀).dims.num, by rw [← (hd t₀).hL, (hd t₀).dims.mul, (hd t₀).hlen]⟩
  have hnum : ∀ t, (tsm t).numBprod = num := by
    intro t
    have := (hd t).dims.mul
    rw [(hd t).hL, (hd t).hlen, hL] at this
    exact (Nat.eq_of_mul_eq_mul_right hlen this).symm
  have hidx : ∀ m < num, ∀ i < len, m * len + i < L := by
    intro m hm i hi
    rw [hL]
    calc m * len + i < m * len + len := by omega
      _ = (m + 1) * len := by ring
      _ ≤ num * len := Nat.mul_le_mul_right _ hm
  set P : ℕ → Mat N := fun m => prodSeq (fun i => B (m * len + i)) len with hP
  have hPl : ∀ m < num, MLim U (fun t => (tsm t).Bprod m) (P m) := by
    intro m hm
    have h1 := pseq_lim h (A := fun t i => (tsm t).B (m * len + i)) (A₀ := fun i => B (m * len + i)) (n := len - 1)
      fun i hi => hB _ (hidx m hm i (by omega))
    rw [Nat.sub_add_cancel hlen] at h1
    refine h1.congr' (Eventually.of_forall fun t => ?_)
    have := hf t m (by rw [hnum]; exact hm)
    unfold RFreshAt at this
    rw [this, (hd t).hlen]
  have hPd : ∀ m < num, (P m).det ≠ 0 := fun m hm => det_prodSeq_ne fun i hi => hdet _ (hidx m hm i hi)
  obtain ⟨Q, d, T, hfl, hval⟩ := timeFlowMap_lim h hnum0 (fun t => ⟨hnum t, (hd t).hlen⟩) hPl hPd sh
  have hcyc : prodSeq (fun l => P ((l + sh / len) % num)) num = cyclicProd B L sh := by
    have := cyclic_of_fresh (N := N) { B := B, invB := B, Bprod := P, L := L, prodBlen := len, numBprod := num } ⟨hlen, hnum0, hL⟩
      (fun m _ => rfl) (sh / len)
    rw [Nat.div_mul_cancel hsh] at this
    exact this
  exact ⟨Q, d, T, hfl, hval.trans hcyc⟩

namespace Ph

variable {σ : Type} {M : Type}

/-! ## Limits of records -/

/-- convergence of a Green's function with its determinant -/
structure GLim (U : Ultrafilter ℕ) (g : ℕ → GreensFn N) (g₀ : GreensFn N) : Prop where
  mat : MLim U (fun t => (g t).mat) g₀.mat
  logdet : Tendsto (fun t => (g t).logdet) U (𝓝 g₀.logdet)
  sgn : ∀ᶠ t in (U : Filter ℕ), (g t).sgndet = g₀.sgndet

/-- convergence of time step matrices; the products belong to them, except in the block slice `l` lies strictly inside of -/
structure TLim (U : Ultrafilter ℕ) (ar : ℕ → Arith N) (L len l : ℕ) (tsm : ℕ → TSM N) (tsm₀ : TSM N) : Prop where
  dims : ∀ᶠ t in (U : Filter ℕ), TsmDims L len (tsm t)
  fresh : ∀ᶠ t in (U : Filter ℕ), RFreshFrom (ar t) (tsm t) l
  B : ∀ k < L, MLim U (fun t => (tsm t).B k) (tsm₀.B k)
  invB : ∀ k < L, MLim U (fun t => (tsm t).invB k) (tsm₀.invB k)

/-- convergence of a function of slice and site -/
def XLim (U : Ultrafilter ℕ) (L : ℕ) (X : ℕ → ℕ → Fin N → ℝ) (X₀ : ℕ → Fin N → ℝ) : Prop :=
  ∀ k < L, ∀ i, Tendsto (fun t => X t k i) U (𝓝 (X₀ k i))

theorem GLim.congr' {U : Ultrafilter ℕ} {g g' : ℕ → GreensFn N} {g₀ : GreensFn N} (h : GLim U g g₀)
    (hg : ∀ᶠ t in (U : Filter ℕ), g t = g' t) : GLim U g' g₀ :=
  ⟨h.mat.congr' (hg.mono fun t ht => by rw [ht]), h.logdet.congr' (hg.mono fun t ht => by simp only [ht]), by
    filter_upwards [h.sgn, hg] with t a b
    rw [← b, a]⟩

theorem TLim.congr' {U : Ultrafilter ℕ} {ar : ℕ → Arith N} {L len l : ℕ} {tsm tsm' : ℕ → TSM N} {tsm₀ : TSM N}
    (h : TLim U ar L len l tsm tsm₀) (hg : ∀ᶠ t in (U : Filter ℕ), tsm t = tsm' t) : TLim U ar L len l tsm' tsm₀ := by
  refine ⟨?_, ?_, fun k hk => (h.B k hk).congr' (hg.mono fun t ht => by rw [ht]),
    fun k hk => (h.invB k hk).congr' (hg.mono fun t ht => by rw [ht])⟩
  · filter_upwards [h.dims, hg] with t a b
    rwa [← b]
  · filter_upwards [h.fresh, hg] with t a b
    rwa [← b]

theorem XLim.congr' {U : Ultrafilter ℕ} {L : ℕ} {X X' : ℕ → ℕ → Fin N → ℝ} {X₀ : ℕ → Fin N → ℝ} (h : XLim U L X X₀)
    (hX : ∀ᶠ t in (U : Filter ℕ), X t = X' t) : XLim U L X' X₀ :=
  fun k hk i => (h k hk i).congr' (hX.mono fun t ht => by rw [ht])

/-- computations which become exact along the ultrafilter; `mlim` is the notion of convergence of the measurement data -/
structure Ctx (U : Ultrafilter ℕ) (mlim : Ultrafilter ℕ → (ℕ → M) → M → Prop) (sys : Sys σ N M) (L len k : ℕ) (uneq : Prop) (u : ℕ → ℝ)
    (c : ℕ → Comp N M) : Prop where
  along : Along U (fun t => (c t).pl.toArith) k u
  scalar : ∀ᶠ t in (U : Filter ℕ), (c t).pl.scalar.Accurate (u t)
  log : ∀ᶠ t in (U : Filter ℕ), (c t).pl.toArith.toOps.LogWithin (u t)
  piv : ∀ᶠ t in (U : Filter ℕ), (c t).pl.toArith.Pivoted
  tab : ∀ᶠ t in (U : Filter ℕ), (c t).tab.Within sys (u t)
  congr : ∀ m m' m₀, mlim U m m₀ → (∀ᶠ t in (U : Filter ℕ), m t = m' t) → mlim U m' m₀
  eq : ∀ gu gd m Gu Gd m₀ m₁, GLim U gu Gu → GLim U gd Gd → mlim U m m₀ → sys.meas.eq Gu Gd m₀ = some m₁ →
    ∃ m', (∀ᶠ t in (U : Filter ℕ), (c t).ms.eq (gu t) (gd t) (m t) = some (m' t)) ∧ mlim U m' m₁
  phonon : ∀ gu gd l X m Gu Gd X₀ m₀ m₁, l < L → GLim U gu Gu → GLim U gd Gd → XLim U L X X₀ → mlim U m m₀ →
    sys.meas.phonon Gu Gd l X₀ m₀ = some m₁ →
    ∃ m', (∀ᶠ t in (U : Filter ℕ), (c t).ms.phonon (gu t) (gd t) l (X t) (m t) = some (m' t)) ∧ mlim U m' m₁
  uneq : uneq → ∀ s tu td m Tu Td m₀ m₁ Bu Bd Gu Gd, SpinInv Bu L len 0 Tu Gu → SpinInv Bd L len 0 Td Gd →
    TLim U (fun t => (c t).pl.toArith) L len 0 tu Tu → TLim U (fun t => (c t).pl.toArith) L len 0 td Td →
    mlim U m m₀ → sys.meas.uneq s Tu Td m₀ = some m₁ →
    ∃ m', (∀ᶠ t in (U : Filter ℕ), (c t).ms.uneq s (tu t) (td t) (m t) = some (m' t)) ∧ mlim U m' m₁

/-- convergence of states to a state of the exact run before or inside slice `l`: the same decisions have been taken -/
structure StLim (U : Ultrafilter ℕ) (mlim : Ultrafilter ℕ → (ℕ → M) → M → Prop) (L len : ℕ) (c : ℕ → Comp N M) (l : ℕ) (at' : ℕ → State σ N M)
    (a : State σ N M) : Prop where
  rng : ∀ᶠ t in (U : Filter ℕ), (at' t).rng = a.rng
  s : ∀ᶠ t in (U : Filter ℕ), (at' t).s = a.s
  cnt : ∀ᶠ t in (U : Filter ℕ), (at' t).cnt = a.cnt
  X : XLim U L (fun t => (at' t).X) a.X
  expX : XLim U L (fun t => (at' t).expX) a.expX
  up : TLim U (fun t => (c t).pl.toArith) L len l (fun t => (at' t).tsmU) a.tsmU
  down : TLim U (fun t => (c t).pl.toArith) L len l (fun t => (at' t).tsmD) a.tsmD
  gu : GLim U (fun t => (at' t).Gu) a.Gu
  gd : GLim U (fun t => (at' t).Gd) a.Gd
  meas : mlim U (fun t => (at' t).meas) a.meas

variable {U : Ultrafilter ℕ} {mlim : Ultrafilter ℕ → (ℕ → M) → M → Prop} {sys : Sys σ N M} {ph : Phonon} {L len k l : ℕ} {q : Prop} {u : ℕ → ℝ}
  {c : ℕ → Comp N M} {at' bt : ℕ → State σ N M} {a : State σ N M}

theorem StLim.congr' (hc : Ctx U mlim sys L len k q u c) (h : StLim U mlim L len c l at' a) (hb : ∀ᶠ t in (U : Filter ℕ), at' t = bt t) :
    StLim U mlim L len c l bt a := by
  have e : ∀ {α : Type} (f : State σ N M → α), ∀ᶠ t in (U : Filter ℕ), f (at' t) = f (bt t) := fun f => hb.mono fun t ht => by rw [ht]
  refine ⟨?_, ?_, ?_, h.X.congr' (e _), h.expX.congr' (e _), h.up.congr' (e _), h.down.congr' (e _), h.gu.congr' (e _), h.gd.congr' (e _),
    hc.congr _ _ _ h.meas (e _)⟩
  · filter_upwards [h.rng, hb] with t x y
    rwa [← y]
  · filter_upwards [h.s, hb] with t x y
    rwa [← y]
  · filter_upwards [h.cnt, hb] with t x y
    rwa [← y]

/-! ## Operations -/

section ops

variable (hc : Ctx U mlim sys L len k q u c) {x y : ℕ → ℝ} {x₀ y₀ : ℝ}

include hc

theorem exp_lim (hx : Tendsto x U (𝓝 x₀)) : Tendsto (fun t => (c t).pl.exp (x t)) U (𝓝 (Real.exp x₀)) := by
  have he := (Real.continuous_exp.tendsto x₀).comp hx
  refine lim_of_near (c := |Real.exp x₀| + 1) hc.along.null he ?_
  filter_upwards [hc.scalar, bounded_of_lim he] with t a b
  have h1 := a.exp (x t)
  have h2 := abs_nonneg (Real.exp (x t))
  have hp : 0 ≤ u t := by
    by_contra hn
    have h3 := abs_nonneg (((c t).pl.scalar).exp (x t) - Real.exp (x t))
    have h4 : 0 < |Real.exp (x t)| := abs_pos.2 (Real.exp_pos _).ne'
    nlinarith
  exact h1.trans (mul_le_mul_of_nonneg_left b hp)

theorem expm1_lim (hx : Tendsto x U (𝓝 x₀)) : Tendsto (fun t => (c t).pl.expm1 (x t)) U (𝓝 (Real.exp x₀ - 1)) := by
  have he : Tendsto (fun t => Real.exp (x t) - 1) U (𝓝 (Real.exp x₀ - 1)) := ((Real.continuous_exp.tendsto x₀).comp hx).sub_const 1
  refine lim_of_near (c := |Real.exp x₀ - 1| + 1) hc.along.null he ?_
  filter_upwards [hc.scalar, bounded_of_lim he] with t a b
  have h1 := a.expm1 (x t)
  have hp : 0 ≤ u t := by
    by_contra hn
    have h3 := abs_nonneg (((c t).pl.scalar).exp (x t) - Real.exp (x t))
    have h4 : 0 < |Real.exp (x t)| := abs_pos.2 (Real.exp_pos _).ne'
    have h5 := a.exp (x t)
    nlinarith
  exact h1.trans (mul_le_mul_of_nonneg_left b hp)

theorem table_lim (f : Tables N → ℝ) (x₀ : ℝ) (h : ∀ tab : Tables N, ∀ u : ℝ, tab.Within sys u → |f tab - x₀| ≤ u) :
    Tendsto (fun t => f (c t).tab) U (𝓝 x₀) :=
  lim_of_near (c := 1) (g := fun _ => x₀) hc.along.null tendsto_const_nhds (hc.tab.mono fun t ht => by rw [mul_one]; exact h _ _ ht)

end ops

/-! ## Green's functions -/

section green

variable (hc : Ctx U mlim sys L len k q u c)

include hc

theorem applyUpdate_lim {g : ℕ → GreensFn N} {G : GreensFn N} (hg : GLim U g G) (i : Fin N) {delta : ℕ → ℝ} {δ₀ : ℝ} (hδ : Tendsto delta U (𝓝 δ₀))
    (hr : MonteCarlo.ratio G i δ₀ ≠ 0) :
    GLim U (fun t => applyUpdate (c t).pl.toArith (g t) i (delta t) (ratio (c t).pl.toArith (g t) i (delta t)))
      (MonteCarlo.applyUpdate G i δ₀ (MonteCarlo.ratio G i δ₀)) := by
  have hl := ratio_lim hc.along hg.mat i hδ
  have hl' : Tendsto (fun t => ratio (c t).pl.toArith (g t) i (delta t)) U (𝓝 (MonteCarlo.ratio G i δ₀)) := hl
  refine ⟨shermanMorrison_lim hc.along hg.mat i hδ hr, ?_, ?_⟩
  · exact hc.along.ops.sub hg.logdet (log_lim hc.along.null hc.log hl'.abs (abs_pos.2 hr))
  · rcases lt_or_gt_of_ne hr with h | h
    · filter_upwards [hg.sgn, hl'.eventually (gt_mem_nhds h)] with t x y
      simp only [applyUpdate, MonteCarlo.applyUpdate, if_pos y, if_pos h, x]
    · filter_upwards [hg.sgn, hl'.eventually (lt_mem_nhds h)] with t x y
      simp only [applyUpdate, MonteCarlo.applyUpdate, if_neg y.not_gt, if_neg h.not_gt, x]

omit hc in
/-- the sign and the logarithm of the determinant of an exact Green's function -/
theorem goodG_values {B : ℕ → Mat N} {sh : ℕ} {G : GreensFn N} (hg : GoodG B L sh G) :
    -Real.log |(1 + cyclicProd B L sh).det| = G.logdet ∧ ∀ s, SignOf s (1 + cyclicProd B L sh).det → s = G.sgndet := by
  have h1 := hg.det
  rw [det_nonsing_inv, Ring.inverse_eq_inv'] at h1
  have hs : |(G.sgndet : ℝ)| = 1 := by rcases hg.sgn with e | e <;> rw [e] <;> norm_num
  constructor
  · have h2 := congrArg abs h1
    rw [abs_mul, hs, one_mul, abs_of_pos (Real.exp_pos _), abs_inv] at h2
    rw [← Real.log_inv, ← h2, Real.log_exp]
  · intro s hS
    have h3 : 0 < (G.sgndet : ℝ) * (1 + cyclicProd B L sh).det := by
      have h4 : (1 + cyclicProd B L sh).det = ((G.sgndet : ℝ) * Real.exp G.logdet)⁻¹ := by rw [h1, inv_inv]
      have h5 : (G.sgndet : ℝ) * ((G.sgndet : ℝ) * Real.exp G.logdet)⁻¹ = Real.exp (-G.logdet) := by
        rw [Real.exp_neg]
        rcases hg.sgn with e | e <;> rw [e] <;> norm_num
      rw [h4, h5]
      exact Real.exp_pos _
    have h6 := hS.2
    rcases hS.1 with e | e <;> rcases hg.sgn with e' | e' <;> rw [e, e'] <;> rw [e] at h6 <;> rw [e'] at h3 <;> norm_num at * <;> linarith

theorem construct_glim [NeZero N] {tsm : ℕ → TSM N} {B : ℕ → Mat N} {sh : ℕ} (hd : ∀ᶠ t in (U : Filter ℕ), TsmDims L len (tsm t))
    (hf : ∀ᶠ t in (U : Filter ℕ), ∀ m < (tsm t).numBprod, RFreshAt (c t).pl.toArith (tsm t) m)
    (hB : ∀ l < L, MLim U (fun t => (tsm t).B l) (B l)) (hdet : ∀ l < L, (B l).det ≠ 0) (hsh : len ∣ sh) {G : GreensFn N} (hg : GoodG B L sh G) :
    ∃ g : ℕ → GreensFn N, (∀ᶠ t in (U : Filter ℕ), greenConstruct (c t).pl.toArith (tsm t) sh = some (g t)) ∧ GLim U g G := by
  classical
  obtain ⟨t₀, ht₀⟩ := hd.exists
  set good : ℕ → Prop := fun t => TsmDims L len (tsm t) ∧ ∀ m < (tsm t).numBprod, RFreshAt (c t).pl.toArith (tsm t) m with hgood
  set fb : ℕ → TSM N := fun t =>
    { B := B
      invB := B
      Bprod := fun m => pseq (c t).pl.toArith (fun i => B (m * len + i)) (len - 1)
      L := L
      prodBlen := len
      numBprod := (tsm t₀).numBprod } with hfb
  set tsm' : ℕ → TSM N := fun t => if good t then tsm t else fb t with htsm'
  have hev : ∀ᶠ t in (U : Filter ℕ), tsm t = tsm' t := by
    filter_upwards [hd, hf] with t x y
    rw [htsm']
    simp only [if_pos (show good t from ⟨x, y⟩)]
  have hd' : ∀ t, TsmDims L len (tsm' t) := by
    intro t
    by_cases h : good t
    · simp only [htsm', if_pos h]
      exact h.1
    · simp only [htsm', if_neg h, hfb]
      refine ⟨⟨?_, ht₀.dims.num, ?_⟩, rfl, rfl⟩
      · have := ht₀.dims.len
        rwa [ht₀.hlen] at this
      · have := ht₀.dims.mul
        rwa [ht₀.hL, ht₀.hlen] at this
  have hf' : ∀ t, ∀ m < (tsm' t).numBprod, RFreshAt (c t).pl.toArith (tsm' t) m := by
    intro t
    by_cases h : good t
    · simp only [htsm', if_pos h]
      exact h.2
    · simp only [htsm', if_neg h, hfb]
      intro m _
      rfl
  have hB' : ∀ l < L, MLim U (fun t => (tsm' t).B l) (B l) := fun l hl => (hB l hl).congr' (hev.mono fun t ht => by rw [ht])
  obtain ⟨g, h1, h2, h3⟩ := construct_lim hc.along hd' hf' hB' hdet hsh hg.det_ne
  obtain ⟨Q, d, T, hfl, hval⟩ := flow_lim hc.along hd' hf' hB' hdet hsh
  have h4 := logdet_lim hc.along hc.log hc.piv hfl (by rw [hval]; exact hg.det_ne) h1
  rw [hval, (goodG_values hg).1] at h4
  refine ⟨g, ?_, ?_, h4, h3.mono fun t ht => (goodG_values hg).2 _ ht⟩
  · filter_upwards [h1, hev] with t x y
    rw [y]
    exact x
  · rw [hg.mat]
    exact h2

end green

end Ph

end Verif.Rounded
