import Verif.Props.RoundedPhRun
import Verif.Props.RoundedUneqMeasure
import Verif.Props.RoundedTables

/-! # Property C123, sixth part: the measurements of a run with phonons in rounded arithmetic -/

set_option autoImplicit false

namespace Verif.Rounded.Ph

open Filter Topology Matrix Verif.Lapack Verif.TimeFlow Verif.Greens Verif.Stratonovich Verif.MonteCarlo Verif.Ultra Verif.Measurement
  Verif.Main

variable {N : ℕ} {σ : Type}

/-! ## Limits of the additions -/

theorem flatX_lim {U : Ultrafilter ℕ} {L : ℕ} {X : ℕ → ℕ → Fin N → ℝ} {X₀ : ℕ → Fin N → ℝ} (h : XLim U L X X₀) (z : ℤ) :
    OLim (RLim U) (fun t => flatX L (X t) z) (flatX L X₀ z) := by
  unfold flatX
  by_cases hz : 0 ≤ z ∧ z < (N : ℤ) * L
  · simp only [dif_pos hz]
    refine OLim.pure (h _ ?_ _)
    have hN : (0 : ℤ) < N := by
      rcases Nat.eq_zero_or_pos N with h0 | h0
      · rw [h0] at hz
        norm_num at hz
        omega
      · exact_mod_cast h0
    have h1 : z / N < L := Int.ediv_lt_of_lt_mul hN (by rw [mul_comm]; exact hz.2)
    have h2 : 0 ≤ z / N := Int.ediv_nonneg hz.1 hN.le
    omega
  · simp only [dif_neg hz]
    exact Or.inl ⟨rfl, fun _ => rfl⟩

/-- a sum may start from any number -/
theorem foldlM_shift (f : ℕ → Option ℝ) (l : List ℕ) (a : ℝ) : l.foldlM (fun a i => (f i).map (a + ·)) a
    = (l.foldlM (fun a i => (f i).map (a + ·)) 0).map (a + ·) := by
  induction l generalizing a with
  | nil => simp
  | cons i l ih =>
    simp only [List.foldlM_cons, Option.bind_eq_bind]
    cases f i with
    | none => rfl
    | some x =>
      simp only [Option.map_some, Option.bind_some]
      rw [ih (a + x), ih (0 + x), Option.map_map]
      congr 1
      funext y
      simp [add_assoc]

section adds

variable {U : Ultrafilter ℕ} {op : ℕ → Ops} {w : ℕ → ℝ} (h : OpsAlong U op w)
include h

variable (Norb : ℕ) {Ncell L : ℕ} (hN : 0 < Ncell) (hL : 0 < L) {X : ℕ → ℤ → Option ℝ} {X₀ : ℤ → Option ℝ}
  (hX : ∀ z, OLim (RLim U) (fun t => X t z) (X₀ z)) {dt : ℝ} (hdt : dt ≠ 0) (omega : ℕ → ℝ) (sign : ℝ)
include hN

theorem signcell_lim : Tendsto (fun t => (op t).div sign Ncell) U (𝓝 (sign / Ncell)) :=
  h.div tendsto_const_nhds tendsto_const_nhds (by exact_mod_cast hN.ne')

include hL

theorem signfac_lim : Tendsto (fun t => signfac (op t) Ncell L sign) U (𝓝 (sign / Ncell / L)) :=
  h.div (signcell_lim h hN sign) tendsto_const_nhds (by exact_mod_cast hL.ne')

include hX

theorem curXAvg_lim (o : ℕ) : OLim (RLim U) (fun t => curXAvg (op t) Norb Ncell L (X t) sign o)
    (Measurement.curXAvg Norb Ncell L X₀ sign o) := by
  have hs := signfac_lim h hN hL sign
  unfold curXAvg Measurement.curXAvg Measurement.sumM
  refine OLim.foldlM (List.range L) (fun l _ a a₀ ha => ?_) (show RLim U (fun _ => (0 : ℝ)) 0 from tendsto_const_nhds)
  rw [← foldlM_shift]
  refine OLim.foldlM (List.range Ncell) (fun i _ b b₀ hb => ?_) ha
  simp only [Option.bind_eq_bind]
  rw [show ∀ (o : Option ℝ) (s b : ℝ), (o.bind fun x => pure (s * x)).map (b + ·) = o.map fun x => b + s * x by
    intro o s b
    cases o <;> rfl]
  exact (hX _).map fun x x₀ hx => h.add hb (h.mul hs hx)

include hdt

theorem phOrbAdds_lim (o : ℕ) : OLim (LLim U) (fun t => phOrbAdds (op t) Norb Ncell L (X t) dt sign o)
    (Measurement.phOrbAdds Norb Ncell L X₀ dt sign o) := by
  unfold phOrbAdds Measurement.phOrbAdds
  simp only [Option.bind_eq_bind]
  refine OLim.bind (curXAvg_lim h Norb hN hL hX sign o) fun c c₀ hc => ?_
  have h1 := h.mul hc hc
  rw [← sq] at h1
  exact OLim.pure (LLim.cons hc (LLim.cons h1 (LLim.cons
    (h.div (h.mul tendsto_const_nhds tendsto_const_nhds) tendsto_const_nhds hdt) LLim.nil)))

theorem phSliceAdds_lim (nsampl l o : ℕ) : OLim (LLim U) (fun t => phSliceAdds (op t) Norb Ncell L (X t) dt omega sign nsampl l o)
    (Measurement.phSliceAdds Norb Ncell L X₀ dt omega sign nsampl l o) := by
  have hs := signfac_lim h hN hL sign
  have cst : ∀ x : ℝ, Tendsto (fun _ : ℕ => x) U (𝓝 x) := fun x => tendsto_const_nhds
  have hd2 := h.mul (cst dt) (cst dt)
  have hd0 : dt * dt ≠ 0 := mul_ne_zero hdt hdt
  unfold phSliceAdds Measurement.phSliceAdds
  simp only [Option.bind_eq_bind]
  refine OLim.bind (R := LLim U) (OLim.loop _ fun i => ?_) fun a a₀ ha => ?_
  · refine OLim.bind (hX _) fun x x₀ hx => ?_
    refine OLim.bind (hX _) fun y y₀ hy => ?_
    have hv := h.sub hy hx
    have hxx := h.mul hx hx
    have hvv := h.mul hv hv
    have how := h.mul (cst (omega o)) (cst (omega o))
    rw [← sq] at hxx hvv how
    exact OLim.pure (LLim.cons (h.mul hs hxx) (LLim.cons (h.mul hs hx) (LLim.cons (h.mul (h.div hs (cst dt) hdt) hv)
      (LLim.cons (h.mul (h.div hs hd2 hd0) hvv) (LLim.cons (h.mul (h.mul (h.mul (cst 0.5) how) hs) hxx)
      (LLim.cons (h.mul (h.mul (h.div (cst 0.5) hd2 hd0) hs) hvv).neg LLim.nil))))))
  · refine OLim.bind (hX _) fun x x₀ hx => ?_
    exact OLim.pure (ha.append (LLim.cons (h.mul (h.div (cst sign) (cst (L : ℝ)) (by exact_mod_cast hL.ne')) hx) LLim.nil))

omit hL hdt in
theorem phNXAdds_lim {u d : ℕ → ℤ → Option ℝ} {u₀ d₀ : ℤ → Option ℝ} (hu : ∀ z, OLim (RLim U) (fun t => u t z) (u₀ z))
    (hd : ∀ z, OLim (RLim U) (fun t => d t z) (d₀ z)) (lGreen o : ℕ) :
    OLim (LLim U) (fun t => phNXAdds (op t) Norb Ncell (u t) (d t) (X t) sign lGreen o)
      (Measurement.phNXAdds Norb Ncell u₀ d₀ X₀ sign lGreen o) := by
  have one : Tendsto (fun _ : ℕ => (1 : ℝ)) U (𝓝 1) := tendsto_const_nhds
  unfold phNXAdds Measurement.phNXAdds
  simp only [Option.bind_eq_bind]
  refine OLim.bind (R := RLim U) (sumM_lim h _ fun i => ?_) fun c c₀ hc => ?_
  · exact (hu _).bind fun x x₀ hx => (hd _).bind fun y y₀ hy => (hX _).bind fun z z₀ hz =>
      OLim.pure (R := RLim U) (h.mul (h.add (h.sub one hx) (h.sub one hy)) hz)
  · exact OLim.pure (LLim.cons (h.mul hc (signcell_lim h hN sign)) LLim.nil)

theorem phAdds_lim {u d : ℕ → ℤ → Option ℝ} {u₀ d₀ : ℤ → Option ℝ} (hu : ∀ z, OLim (RLim U) (fun t => u t z) (u₀ z))
    (hd : ∀ z, OLim (RLim U) (fun t => d t z) (d₀ z)) (nsampl lGreen : ℕ) :
    OLim (LLim U) (fun t => phAdds (op t) Norb Ncell L (u t) (d t) (X t) dt omega sign nsampl lGreen)
      (Measurement.phAdds Norb Ncell L u₀ d₀ X₀ dt omega sign nsampl lGreen) := by
  unfold phAdds Measurement.phAdds
  simp only [Option.bind_eq_bind]
  refine OLim.bind (OLim.loop _ fun l => OLim.loop _ fun o => phSliceAdds_lim h Norb hN hL hX hdt omega sign nsampl l o) fun a a₀ ha => ?_
  refine OLim.bind (OLim.loop _ fun o => phOrbAdds_lim h Norb hN hL hX hdt sign o) fun b b₀ hb => ?_
  refine OLim.bind (OLim.loop _ fun o => phNXAdds_lim h Norb hN hX sign hu hd lGreen o) fun c c₀ hc => ?_
  exact OLim.pure ((ha.append hb).append hc)

end adds

/-! ## Limits of the measurements -/

/-- convergence of accumulated arrays -/
def ArrLim {A : Type} (U : Ultrafilter ℕ) (a : ℕ → Arrays A) (a₀ : Arrays A) : Prop := ∀ f z, Tendsto (fun t => a t f z) U (𝓝 (a₀ f z))

/-- convergence of the measurement data; the numbers of samples agree -/
structure DataLim (U : Ultrafilter ℕ) (m : ℕ → MeasData) (m₀ : MeasData) : Prop where
  eqArr : ArrLim U (fun t => (m t).eq.arr) m₀.eq.arr
  eqSign : Tendsto (fun t => (m t).eq.sign) U (𝓝 m₀.eq.sign)
  uneqArr : ArrLim U (fun t => (m t).uneq.arr) m₀.uneq.arr
  uneqSign : Tendsto (fun t => (m t).uneq.sign) U (𝓝 m₀.uneq.sign)
  phArr : ArrLim U (fun t => (m t).ph.arr) m₀.ph.arr
  phSign : Tendsto (fun t => (m t).ph.sign) U (𝓝 m₀.ph.sign)
  counts : ∀ᶠ t in (U : Filter ℕ), (m t).eq.nsampl = m₀.eq.nsampl ∧ (m t).uneq.nsampl = m₀.uneq.nsampl ∧
    (m t).ph.nsampl = m₀.ph.nsampl ∧ (m t).ph.maxNsampl = m₀.ph.maxNsampl

theorem DataLim.congr' {U : Ultrafilter ℕ} {m m' : ℕ → MeasData} {m₀ : MeasData} (h : DataLim U m m₀)
    (e : ∀ᶠ t in (U : Filter ℕ), m t = m' t) : DataLim U m' m₀ := by
  refine ⟨fun f z => (h.eqArr f z).congr' (e.mono fun t ht => by simp only [ht]), h.eqSign.congr' (e.mono fun t ht => by simp only [ht]),
    fun f z => (h.uneqArr f z).congr' (e.mono fun t ht => by simp only [ht]), h.uneqSign.congr' (e.mono fun t ht => by simp only [ht]),
    fun f z => (h.phArr f z).congr' (e.mono fun t ht => by simp only [ht]), h.phSign.congr' (e.mono fun t ht => by simp only [ht]), ?_⟩
  filter_upwards [h.counts, e] with t x y
  rwa [← y]

/-- Green's functions with the right sign of the determinant throughout -/
theorem GLim.fix {U : Ultrafilter ℕ} {g : ℕ → GreensFn N} {g₀ : GreensFn N} (h : GLim U g g₀) :
    ∃ g' : ℕ → GreensFn N, (∀ᶠ t in (U : Filter ℕ), g' t = g t) ∧ (∀ t, (g' t).sgndet = g₀.sgndet) ∧ MLim U (fun t => (g' t).mat) g₀.mat := by
  have e : ∀ᶠ t in (U : Filter ℕ), (if (g t).sgndet = g₀.sgndet then g t else g₀) = g t := h.sgn.mono fun t ht => if_pos ht
  refine ⟨fun t => if (g t).sgndet = g₀.sgndet then g t else g₀, e, fun t => ?_, h.mat.congr' (e.mono fun t ht => by
    beta_reduce
    rw [ht])⟩
  beta_reduce
  split
  · assumption
  · rfl

/-- a product of a convergent and a null sequence -/
theorem null_mul {U : Ultrafilter ℕ} {x w : ℕ → ℝ} {x₀ : ℝ} (hx : Tendsto x U (𝓝 x₀)) (hw : Tendsto w U (𝓝 0)) :
    Tendsto (fun t => (|x t| + 1) * w t) U (𝓝 0) := by
  have := (hx.abs.add_const 1).mul hw
  rwa [mul_zero] at this

/-- limits of differences are limits of values -/
theorem lim_of_diff {U : Ultrafilter ℕ} {x y : ℕ → ℝ} {x₀ y₀ : ℝ} (hx : Tendsto x U (𝓝 x₀))
    (hd : Tendsto (fun t => y t - x t) U (𝓝 (y₀ - x₀))) : Tendsto y U (𝓝 y₀) := by
  have := hd.add hx
  simpa using this

section counts

theorem exact_eq_count {Norb Ncell : ℕ} {mp : Maps} {Gu Gd : GreensFn N} {m a : EqData}
    (h : Measurement.accumulateEq Norb Ncell mp Gu Gd m = some a) : a.nsampl = m.nsampl + 1 := by
  unfold Measurement.accumulateEq at h
  simp only [Option.bind_eq_bind] at h
  obtain ⟨ws, _, h⟩ := Option.bind_eq_some_iff.1 h
  obtain ⟨arr, _, h⟩ := Option.bind_eq_some_iff.1 h
  rw [← Option.some.inj h]

theorem eq_count {op : Ops} {Norb Ncell : ℕ} {mp : Maps} {Gu Gd : GreensFn N} {m a : EqData}
    (h : Rounded.accumulateEq op Norb Ncell mp Gu Gd m = some a) : a.nsampl = m.nsampl + 1 := by
  unfold Rounded.accumulateEq at h
  simp only [Option.bind_eq_bind] at h
  obtain ⟨ws, _, h⟩ := Option.bind_eq_some_iff.1 h
  obtain ⟨arr, _, h⟩ := Option.bind_eq_some_iff.1 h
  rw [← Option.some.inj h]

theorem exact_uneq_count {Norb Ncell L : ℕ} {mp : Maps} {s : ℝ} {u d : Cur} {m a : UneqData}
    (h : Measurement.accumulateUneq Norb Ncell L mp s u d m = some a) : a.nsampl = m.nsampl + 1 := by
  unfold Measurement.accumulateUneq at h
  simp only [Option.bind_eq_bind] at h
  obtain ⟨ws, _, h⟩ := Option.bind_eq_some_iff.1 h
  obtain ⟨arr, _, h⟩ := Option.bind_eq_some_iff.1 h
  rw [← Option.some.inj h]

theorem uneq_count {op : Ops} {Norb Ncell L : ℕ} {mp : Maps} {s : ℝ} {u d : Cur} {m a : UneqData}
    (h : Rounded.accumulateUneq op Norb Ncell L mp u d s m = some a) : a.nsampl = m.nsampl + 1 := by
  unfold Rounded.accumulateUneq at h
  simp only [Option.bind_eq_bind] at h
  obtain ⟨ws, _, h⟩ := Option.bind_eq_some_iff.1 h
  obtain ⟨arr, _, h⟩ := Option.bind_eq_some_iff.1 h
  rw [← Option.some.inj h]

end counts

section measures

variable {U : Ultrafilter ℕ} {ar : ℕ → Arith N} {k : ℕ} {u : ℕ → ℝ} (hal : Along U ar k u) {Norb Ncell : ℕ} (hN : 0 < Ncell) (mp : Maps)
include hal hN

theorem eq_dataLim {gu gd : ℕ → GreensFn N} {Gu Gd : GreensFn N} {m : ℕ → MeasData} {m₀ : MeasData} {e₁ : EqData} (hu : GLim U gu Gu)
    (hd : GLim U gd Gd) (hm : DataLim U m m₀) (h : Measurement.accumulateEq Norb Ncell mp Gu Gd m₀.eq = some e₁) :
    ∃ a : ℕ → EqData, (∀ᶠ t in (U : Filter ℕ), Rounded.accumulateEq (ar t).toOps Norb Ncell mp (gu t) (gd t) (m t).eq = some (a t)) ∧
      DataLim U (fun t => { m t with eq := a t }) { m₀ with eq := e₁ } := by
  obtain ⟨gu', u1, u2, u3⟩ := hu.fix
  obtain ⟨gd', d1, d2, d3⟩ := hd.fix
  obtain ⟨a, a1, a2, a3⟩ := accumulateEq_lim hal.ops hN mp u3 d3 u2 d2 (m := fun t => (m t).eq) h
  refine ⟨a, ?_, { hm with eqArr := fun f z => ?_, eqSign := ?_, counts := ?_ }⟩
  · filter_upwards [u1, d1] with t x y
    rw [← x, ← y]
    exact a1 t
  · exact lim_of_diff (hm.eqArr f z) (a2 f z (null_mul (hm.eqArr f z) hal.null))
  · exact lim_of_diff hm.eqSign (a3 (null_mul hm.eqSign hal.null))
  · filter_upwards [hm.counts] with t c
    refine ⟨?_, c.2⟩
    rw [eq_count (a1 t), exact_eq_count h, c.1]

theorem ph_dataLim {L : ℕ} (hL : 0 < L) {dt : ℝ} (hdt : dt ≠ 0) (omega : ℕ → ℝ) {gu gd : ℕ → GreensFn N} {Gu Gd : GreensFn N} (l : ℕ)
    {X : ℕ → ℕ → Fin N → ℝ} {X₀ : ℕ → Fin N → ℝ} {m : ℕ → MeasData} {m₀ : MeasData} {e₁ : PhData} (hu : GLim U gu Gu) (hd : GLim U gd Gd)
    (hX : XLim U L X X₀) (hm : DataLim U m m₀) (h : Measurement.accumulatePh Norb Ncell L dt omega Gu Gd l X₀ m₀.ph = some e₁) :
    ∃ a : ℕ → PhData, (∀ᶠ t in (U : Filter ℕ), accumulatePh (ar t).toOps Norb Ncell L dt omega (gu t) (gd t) l (X t) (m t).ph = some (a t)) ∧
      DataLim U (fun t => { m t with ph := a t }) { m₀ with ph := e₁ } := by
  unfold Measurement.accumulatePh at h
  simp only [Option.bind_eq_bind] at h
  obtain ⟨ws₀, hws, h⟩ := Option.bind_eq_some_iff.1 h
  obtain ⟨arr₀, harr, h⟩ := Option.bind_eq_some_iff.1 h
  obtain rfl := Option.some.inj h
  have hl := phAdds_lim hal.ops Norb hN hL (flatX_lim hX) hdt omega ((Gu.sgndet * Gd.sgndet : ℤ) : ℝ) (flat_lim hu.mat) (flat_lim hd.mat)
    m₀.ph.nsampl l
  rw [hws] at hl
  rcases hl with ⟨hl, -⟩ | ⟨ws, ws', e1, e2, e3⟩
  · cases hl
  obtain rfl := Option.some.inj e2
  choose arr ha using execute_some e3 (fun t => (ar t).toOps) (fun t => (m t).ph.arr) harr
  refine ⟨fun t => { m t |>.ph with
    arr := arr t
    sign := (ar t).toOps.add (m t).ph.sign ((Gu.sgndet * Gd.sgndet : ℤ) : ℝ)
    nsampl := (m t).ph.nsampl + 1 }, ?_, { hm with phArr := fun f z => ?_, phSign := ?_, counts := ?_ }⟩
  · filter_upwards [hu.sgn, hd.sgn, hm.counts] with t x y c
    unfold accumulatePh
    simp only [Option.bind_eq_bind, x, y, c.2.2.1, c.2.2.2, e1 t, Option.bind_some, ha t]
    rfl
  · exact lim_of_diff (hm.phArr f z) (execute_lim hal.ops e3 harr ha f z (null_mul (hm.phArr f z) hal.null) (by simp))
  · exact hal.ops.add hm.phSign tendsto_const_nhds
  · filter_upwards [hm.counts] with t c
    exact ⟨c.1, c.2.1, by simp only [c.2.2.1], c.2.2.2⟩

omit hal hN in
/-- time step matrices with fresh products throughout -/
theorem TLim.fix {L len : ℕ} {tsm : ℕ → TSM N} {T : TSM N} {B : ℕ → Mat N} {G : GreensFn N} (h : TLim U ar L len 0 tsm T)
    (hT : SpinInv B L len 0 T G) : ∃ tsm' : ℕ → TSM N, (∀ᶠ t in (U : Filter ℕ), tsm' t = tsm t) ∧ (∀ t, TsmDims L len (tsm' t)) ∧
      (∀ t, ∀ m < (tsm' t).numBprod, RFreshAt (ar t) (tsm' t) m) ∧ (∀ l < L, MLim U (fun t => (tsm' t).B l) (T.B l)) ∧
      ∀ l < L, MLim U (fun t => (tsm' t).invB l) (T.invB l) := by
  classical
  have e : ∀ᶠ t in (U : Filter ℕ), (if TsmDims L len (tsm t) ∧ RFreshFrom (ar t) (tsm t) 0 then tsm t
      else { T with Bprod := fun m => pseq (ar t) (fun i => T.B (m * T.prodBlen + i)) (T.prodBlen - 1) }) = tsm t := by
    filter_upwards [h.dims, h.fresh] with t x y
    exact if_pos ⟨x, y⟩
  refine ⟨_, e, fun t => ?_, fun t => ?_, fun l hl => (h.B l hl).congr' (e.mono fun t ht => by rw [ht]),
    fun l hl => (h.invB l hl).congr' (e.mono fun t ht => by rw [ht])⟩
  · split
    · rename_i x
      exact x.1
    · exact ⟨⟨hT.td.dims.len, hT.td.dims.num, hT.td.dims.mul⟩, hT.td.hL, hT.td.hlen⟩
  · split
    · rename_i x
      exact x.2.all _ (dvd_zero _)
    · exact fun m _ => rfl

omit hN in
theorem cur_lim [NeZero N] {bl : ℕ → BlockArith} {S : ℕ} (hbl : BAlong U bl S k u) {L len : ℕ} (h2 : 2 * len ≤ L) (hS : N * (L / len) ≤ S)
    (alg : BlockCyclic.QRs N) (tau : BlockCyclic.Buf) (old : GreensUneq.Arrays) {tsm : ℕ → TSM N} {T : TSM N} {B : ℕ → Mat N}
    {G : GreensFn N} {A₁ : GreensUneq.Arrays} (h : TLim U ar L len 0 tsm T) (hT : SpinInv B L len 0 T G)
    (hA : GreensUneq.compute alg T L tau old = some A₁) :
    ∃ A : ℕ → GreensUneq.Arrays, (∀ᶠ t in (U : Filter ℕ), compute (ar t) (bl t) (tsm t) L tau old = some (A t)) ∧
      CLim U (fun t => (A t).toCur N L) (A₁.toCur N L) := by
  have hlen : 0 < len := by rw [← hT.td.hlen]; exact hT.td.dims.len
  obtain ⟨tsm', e1, e2, e3, e4, e5⟩ := h.fix hT
  have hne : (1 + cyclicProd T.B L 0).det ≠ 0 :=
    (hT.good.congr fun l hl => (hT.mats l hl).1.symm).det_ne
  obtain ⟨A, A₀, a1, a2, a3⟩ := compute_lim hal hbl e2 e3 e4 e5 (fun l hl => (hT.mats l hl).2) hlen h2 hS hne tau old
  have hnum : 2 ≤ T.numBprod := by
    have := hT.td.dims.mul
    rw [hT.td.hL, hT.td.hlen] at this
    rw [this] at h2
    exact Nat.le_of_mul_le_mul_right h2 hlen
  obtain ⟨A₂, b1, b2⟩ := GreensUneq.compute_toCur alg T hT.td.dims hT.fresh0 hnum (by rw [hT.td.hL]; exact fun l hl => (hT.mats l hl).2)
    (by rw [hT.td.hL]; exact hne) tau old
  rw [hT.td.hL] at b1 b2
  rw [hA] at b1
  obtain rfl := Option.some.inj b1
  refine ⟨A, ?_, ?_⟩
  · filter_upwards [a1, e1] with t x y
    rwa [← y]
  · have := a2.toCur N L
    rwa [a3, ← b2] at this

theorem uneq_dataLim {bu bd : ℕ → Cur} {bu₀ bd₀ : Cur} (hu : CLim U bu bu₀) (hd : CLim U bd bd₀) (L : ℕ) (s : ℝ) {m : ℕ → MeasData}
    {m₀ : MeasData} {e₁ : UneqData} (hm : DataLim U m m₀)
    (h : Measurement.accumulateUneq Norb Ncell L mp s bu₀ bd₀ m₀.uneq = some e₁) :
    ∃ a : ℕ → UneqData, (∀ t, Rounded.accumulateUneq (ar t).toOps Norb Ncell L mp (bu t) (bd t) s (m t).uneq = some (a t)) ∧
      DataLim U (fun t => { m t with uneq := a t }) { m₀ with uneq := e₁ } := by
  obtain ⟨a, a1, a2, a3⟩ := accumulateUneq_lim (U := U) hal.ops Norb Ncell L mp hu hd hN s (m := fun t => (m t).uneq) h
  refine ⟨a, a1, { hm with uneqArr := fun f z => ?_, uneqSign := ?_, counts := ?_ }⟩
  · exact lim_of_diff (hm.uneqArr f z) (a2 f z (null_mul (hm.uneqArr f z) hal.null))
  · exact lim_of_diff hm.uneqSign (a3 (null_mul hm.uneqSign hal.null))
  · filter_upwards [hm.counts] with t c
    refine ⟨c.1, ?_, c.2.2⟩
    rw [uneq_count (a1 t), exact_uneq_count h, c.2.1]

end measures

/-! ## Platforms that become accurate -/

/-- a platform of accuracy `u` for the linear algebra, the elementary functions and the matrices of all blocks, and the tables and
measurement routines that go with it -/
structure Adm (sys : Sys σ N MeasData) (Norb Ncell L : ℕ) (mp : Maps) (dt : ℝ) (omega : ℕ → ℝ) (tau : BlockCyclic.Buf)
    (old : GreensUneq.Arrays) (S k : ℕ) (u : ℝ) (c : Comp N MeasData) : Prop where
  pl : Platform.Within c.pl k u
  log : c.pl.toArith.toOps.LogWithin u
  piv : c.pl.toArith.Pivoted
  tab : c.tab.Within sys u
  ms : ∃ bl : BlockArith, bl.Within S k u ∧ c.ms = roundMeas Norb Ncell L mp dt omega tau old c.pl.toArith bl

theorem Adm.ctx [NeZero N] {sys : Sys σ N MeasData} {Norb Ncell L : ℕ} {mp : Maps} {dt : ℝ} {omega : ℕ → ℝ} {alg : BlockCyclic.QRs N}
    {tau : BlockCyclic.Buf} {old : GreensUneq.Arrays} {S k len : ℕ} {U : Ultrafilter ℕ} {u : ℕ → ℝ} {c : ℕ → Comp N MeasData}
    (hu : Tendsto u U (𝓝 0)) (h : ∀ t, Adm sys Norb Ncell L mp dt omega tau old S k (u t) (c t)) (hN : 0 < Ncell) (hL : 0 < L)
    (hdt : dt ≠ 0) (hS : N * (L / len) ≤ S) (hm : sys.meas = realMeas Norb Ncell L mp dt omega alg tau old) :
    Ctx U DataLim sys L len k (2 * len ≤ L) u c := by
  choose bl hbl hms using fun t => (h t).ms
  have hal : Along U (fun t => (c t).pl.toArith) k u := ⟨hu, Eventually.of_forall fun t => (h t).pl.arith⟩
  refine ⟨hal, Eventually.of_forall fun t => (h t).pl.scalar, Eventually.of_forall fun t => (h t).log,
    Eventually.of_forall fun t => (h t).piv, Eventually.of_forall fun t => (h t).tab, fun m m' m₀ h1 h2 => h1.congr' h2, ?_, ?_, ?_⟩
  · intro gu gd m Gu Gd m₀ m₁ h1 h2 h3 h4
    rw [hm] at h4
    obtain ⟨e₁, h5, rfl⟩ := Option.map_eq_some_iff.1 h4
    obtain ⟨a, a1, a2⟩ := eq_dataLim hal hN mp h1 h2 h3 h5
    refine ⟨_, ?_, a2⟩
    filter_upwards [a1] with t x
    rw [hms]
    show (Rounded.accumulateEq _ _ _ _ _ _ _).map _ = _
    rw [x]
    rfl
  · intro gu gd l X m Gu Gd X₀ m₀ m₁ _ h1 h2 hX h3 h4
    rw [hm] at h4
    obtain ⟨e₁, h5, rfl⟩ := Option.map_eq_some_iff.1 h4
    obtain ⟨a, a1, a2⟩ := ph_dataLim hal hN hL hdt omega l h1 h2 hX h3 h5
    refine ⟨_, ?_, a2⟩
    filter_upwards [a1] with t x
    rw [hms]
    show (accumulatePh _ _ _ _ _ _ _ _ _ _ _).map _ = _
    rw [x]
    rfl
  · intro h2 s tu td m Tu Td m₀ m₁ Bu Bd Gu Gd iu id lu ld h3 h4
    rw [hm] at h4
    obtain ⟨Au, e1, h4⟩ := Option.bind_eq_some_iff.1 h4
    obtain ⟨Ad, e2, h4⟩ := Option.bind_eq_some_iff.1 h4
    obtain ⟨e₁, e3, h4⟩ := Option.bind_eq_some_iff.1 h4
    obtain rfl := Option.some.inj h4
    have hb : BAlong U bl S k u := ⟨hu, Eventually.of_forall hbl⟩
    obtain ⟨xu, a1, a2⟩ := cur_lim hal hb h2 hS alg tau old lu iu e1
    obtain ⟨xd, b1, b2⟩ := cur_lim hal hb h2 hS alg tau old ld id e2
    obtain ⟨a, d1, d2⟩ := uneq_dataLim hal hN mp a2 b2 L (s : ℝ) h3 e3
    refine ⟨_, ?_, d2⟩
    filter_upwards [a1, b1] with t x y
    rw [hms]
    show (compute _ _ _ _ _ _).bind _ = _
    rw [x, Option.bind_some]
    show (compute _ _ _ _ _ _).bind _ = _
    rw [y, Option.bind_some]
    show (Rounded.accumulateUneq _ _ _ _ _ _ _ _ _).bind _ = _
    rw [d1 t, Option.bind_some]
    rfl

end Verif.Rounded.Ph
