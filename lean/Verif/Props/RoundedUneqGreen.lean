import Verif.Props.RoundedBlocks
import Verif.Props.RoundedSteps
import Verif.Props.GreensUneq

/-! # Property C117, second part: the unequal time Green's functions in rounded arithmetic -/

set_option autoImplicit false

namespace Verif.Rounded

open Filter Topology Matrix Verif.Lapack Verif.TimeFlow Verif.Greens Verif.BlockCyclic Verif.GreensUneq Verif.Ultra Verif.MonteCarlo

variable {N : ℕ} {ι : Type} {U : Ultrafilter ι} {ar : ι → Arith N} {bl : ι → BlockArith} {S k : ℕ} {u : ι → ℝ}

theorem MLim.scaled {m c : ℕ} {A : ι → Matrix (Fin m) (Fin c) ℝ} {A₀ : Matrix (Fin m) (Fin c) ℝ} (h : MLim U A A₀) (α : ℝ) :
    MLim U (fun t => α • A t) (α • A₀) := fun i j => (h i j).const_mul α

theorem buildH_lim {tsm : ι → TSM N} {tsm₀ : TSM N} (hn : ∀ t, (tsm t).numBprod = tsm₀.numBprod)
    (hB : ∀ m < tsm₀.numBprod, MLim U (fun t => (tsm t).Bprod m) (tsm₀.Bprod m)) :
    SLim U (BLim U) (fun t => buildH (tsm t)) (buildH tsm₀) := by
  unfold buildH
  simp only [hn]
  refine SLim.foldlM _ (fun i hi A A₀ hA => ?_) (BLim.const _)
  have hi := List.mem_range.1 hi
  unfold putBlock
  split
  · exact save_lim hA (MLim.scaled (hB i hi) _) _ _ _
  · exact save_lim hA (MLim.scaled (hB i hi) _) _ _ _

theorem minusOne_lim (h : Along U ar k u) {M : ι → Mat N} {M₀ : Mat N} (hM : MLim U M M₀) :
    MLim U (fun t => minusOne (ar t) (M t)) (M₀ - 1) := by
  intro i j
  simp only [minusOne, of_apply, Matrix.sub_apply, Matrix.one_apply]
  split
  · exact h.ops.sub (hM i j) tendsto_const_nhds
  · rw [sub_zero]
    exact hM i j

section steps

variable (h : Along U ar k u) {tsm : ι → TSM N} {tsm₀ : TSM N} (hn : ∀ t, (tsm t).numBprod = tsm₀.numBprod)
  (hl : ∀ t, (tsm t).prodBlen = tsm₀.prodBlen) {L : ℕ} {H : ι → Buf} {H₀ : Buf} (hH : BLim U H H₀)
include h hn hl hH

theorem tau0Step_lim (hB : ∀ l < L, MLim U (fun t => (tsm t).B l) (tsm₀.B l)) {G : ι → Buf} {G₀ : Buf} (hG : BLim U G G₀) {i : ℕ}
    (hi : i < L) : SLim U (BLim U) (fun t => tau0Step (ar t) (tsm t) L (H t) (G t) i) (GreensUneq.tau0Step tsm₀ L H₀ G₀ i) := by
  unfold tau0Step GreensUneq.tau0Step
  simp only [Option.bind_eq_bind, hn, hl]
  split
  · exact (load_lim hH _ _ _ _ _).bind fun M M₀ hM => save_lim hG hM _ _ _
  · exact (load_lim hG _ _ _ _ _).bind fun M M₀ hM => save_lim hG (h.gemm (hB _ (by omega)) hM) _ _ _

theorem zerotauStep_lim (hI : ∀ l < L, MLim U (fun t => (tsm t).invB l) (tsm₀.invB l)) {G : ι → Buf} {G₀ : Buf} (hG : BLim U G G₀)
    {i : ℕ} (hi : i < L) :
    SLim U (BLim U) (fun t => zerotauStep (ar t) (tsm t) L (H t) (G t) i) (GreensUneq.zerotauStep tsm₀ L H₀ G₀ i) := by
  unfold zerotauStep GreensUneq.zerotauStep
  simp only [Option.bind_eq_bind, hn, hl]
  split
  · exact (load_lim hH _ _ _ _ _).bind fun M M₀ hM => save_lim hG hM _ _ _
  · split
    · exact (load_lim hH _ _ _ _ _).bind fun M M₀ hM => save_lim hG (h.gemm (minusOne_lim h hM) (hI _ (by omega))) _ _ _
    · exact (load_lim hG _ _ _ _ _).bind fun M M₀ hM => save_lim hG (h.gemm hM (hI _ (by omega))) _ _ _

theorem eqltStep_lim (hB : ∀ l < L, MLim U (fun t => (tsm t).B l) (tsm₀.B l))
    (hI : ∀ l < L, MLim U (fun t => (tsm t).invB l) (tsm₀.invB l)) {G : ι → Buf} {G₀ : Buf} (hG : BLim U G G₀) {i : ℕ} (hi : i < L) :
    SLim U (BLim U) (fun t => eqltStep (ar t) (tsm t) L (H t) (G t) i) (GreensUneq.eqltStep tsm₀ L H₀ G₀ i) := by
  unfold eqltStep GreensUneq.eqltStep
  simp only [Option.bind_eq_bind, hn, hl]
  split
  · exact (load_lim hH _ _ _ _ _).bind fun M M₀ hM => save_lim hG hM _ _ _
  · exact (load_lim hG _ _ _ _ _).bind fun M M₀ hM => save_lim hG
      (h.gemm (h.gemm (hB _ (by omega)) hM) (hI _ (by omega))) _ _ _

end steps

/-- arrays whose entries converge -/
structure ALim (U : Ultrafilter ι) (A : ι → Arrays) (A₀ : Arrays) : Prop where
  tau0 : BLim U (fun t => (A t).Gtau0) A₀.Gtau0
  zerotau : BLim U (fun t => (A t).G0tau) A₀.G0tau
  eqlt : BLim U (fun t => (A t).Geqlt) A₀.Geqlt

/-- C117: with matrices which converge, the unequal time Green's functions computed in rounded arithmetic converge to the exact ones. -/
theorem compute_lim (h : Along U ar k u) (hb : BAlong U bl S k u) {tsm : ι → TSM N} {B invB : ℕ → Mat N} {L len : ℕ}
    (hd : ∀ t, TsmDims L len (tsm t)) (hf : ∀ t, ∀ m < (tsm t).numBprod, RFreshAt (ar t) (tsm t) m)
    (hB : ∀ l < L, MLim U (fun t => (tsm t).B l) (B l)) (hI : ∀ l < L, MLim U (fun t => (tsm t).invB l) (invB l))
    (hinv : ∀ l < L, B l * invB l = 1) (hlen : 0 < len) (h2 : 2 * len ≤ L) (hS : N * (L / len) ≤ S)
    (hne : (1 + cyclicProd B L 0).det ≠ 0) (tau : Buf) (old : Arrays) :
    ∃ (A : ι → Arrays) (A₀ : Arrays), (∀ᶠ t in (U : Filter ι), compute (ar t) (bl t) (tsm t) L tau old = some (A t)) ∧
      ALim U A A₀ ∧ A₀.toCur N L = (GreensUneq.exactG B L).cur L := by
  obtain ⟨t₀⟩ : Nonempty ι := U.neBot.nonempty
  obtain ⟨num, hL⟩ : ∃ num, L = num * len := ⟨(tsm t₀).numBprod, by rw [← (hd t₀).hL, (hd t₀).dims.mul, (hd t₀).hlen]⟩
  have hnum2 : 2 ≤ num := by
    rw [hL] at h2
    exact Nat.le_of_mul_le_mul_right h2 hlen
  have hnum : ∀ t, (tsm t).numBprod = num := by
    intro t
    have := (hd t).dims.mul
    rw [(hd t).hL, (hd t).hlen, hL] at this
    exact (Nat.eq_of_mul_eq_mul_right hlen this).symm
  have hidx : ∀ m < num, ∀ i < len, m * len + i < L := by
    intro m hm i hi
    rw [hL]
    calc m * len + i < m * len + len := by omega
      _ = (m + 1) * len := by ring
      _ ≤ num * len := Nat.mul_le_mul_right _ hm
  set P : ℕ → Mat N := fun m => prodSeq (fun i => B (m * len + i)) len with hP
  have hPl : ∀ m < num, MLim U (fun t => (tsm t).Bprod m) (P m) := by
    intro m hm
    have h1 := pseq_lim h (A := fun t i => (tsm t).B (m * len + i)) (A₀ := fun i => B (m * len + i)) (n := len - 1)
      fun i hi => hB _ (hidx m hm i (by omega))
    rw [Nat.sub_add_cancel hlen] at h1
    refine h1.congr' (Eventually.of_forall fun t => ?_)
    have := hf t m (by rw [hnum]; exact hm)
    unfold RFreshAt at this
    rw [this, (hd t).hlen]
  let tsm₀ : TSM N := { B := B, invB := invB, Bprod := P, L := L, prodBlen := len, numBprod := num }
  have d₀ : Dims tsm₀ := ⟨hlen, by show 0 < num; omega, hL⟩
  have f₀ : Fresh tsm₀ := fun m _ => rfl
  have hSn : N * num ≤ S := by
    rw [hL, Nat.mul_div_cancel _ hlen] at hS
    exact hS
  obtain ⟨H₀, e1, r1⟩ := buildH_rep tsm₀ hnum2
  obtain ⟨H, hH1, hH2⟩ := buildH_lim (tsm₀ := tsm₀) hnum hPl H₀ e1
  obtain ⟨X, X₀, g, hX1, hX2, hX3, hX4⟩ := inverse_lim hb (n := N) (p := num) hnum2 hSn (hBlocks_cyclic P)
    (hBlocks_det tsm₀ d₀ f₀ hnum2 hne) hH2 (BLim.const tau) r1
  have rep := rep_inverse tsm₀ d₀ f₀ hnum2 hne hX3 hX4
  obtain ⟨A₀, a1, a2, a3, a4⟩ := arrays_spec tsm₀ d₀ hnum2 hinv hne rep old
  obtain ⟨T, t1, t2⟩ := SLim.foldlM (List.range L) (fun i hi G G₀ hG => tau0Step_lim (tsm₀ := tsm₀) h hnum (fun t => (hd t).hlen) hX2
    hB hG (List.mem_range.1 hi)) (BLim.const old.Gtau0) _ a1
  obtain ⟨Z, z1, z2⟩ := SLim.foldlM (List.range L) (fun i hi G G₀ hG => zerotauStep_lim (tsm₀ := tsm₀) h hnum (fun t => (hd t).hlen) hX2
    hI hG (List.mem_range.1 hi)) (BLim.const old.G0tau) _ a2
  obtain ⟨E, q1, q2⟩ := SLim.foldlM (List.range L) (fun i hi G G₀ hG => eqltStep_lim (tsm₀ := tsm₀) h hnum (fun t => (hd t).hlen) hX2
    hB hI hG (List.mem_range.1 hi)) (BLim.const old.Geqlt) _ a3
  refine ⟨fun t => ⟨T t, Z t, E t⟩, A₀, ?_, ⟨t2, z2, q2⟩, toCur_eq A₀ (GreensUneq.exactG B L) L a4⟩
  filter_upwards [hH1, hX1, t1, z1, q1] with t b1 b2 b3 b4 b5
  unfold compute
  simp only [Option.bind_eq_bind, Option.pure_def]
  refine (Option.bind_eq_some_iff).2 ⟨_, b1, ?_⟩
  rw [hnum]
  refine (Option.bind_eq_some_iff).2 ⟨_, b2, ?_⟩
  refine (Option.bind_eq_some_iff).2 ⟨_, b3, ?_⟩
  refine (Option.bind_eq_some_iff).2 ⟨_, b4, ?_⟩
  exact (Option.bind_eq_some_iff).2 ⟨_, b5, rfl⟩

end Verif.Rounded
