import Verif.Props.RoundedPhMeasure
import Verif.Props.FreshStart
import Verif.Props.ReferenceRun

/-! # Property C123, last part: the program with phonons in rounded arithmetic, from the parameters to the results -/

set_option autoImplicit false

namespace Verif.Rounded.Ph

open MeasureTheory Filter Topology Matrix Verif.Lapack Verif.TimeFlow Verif.Greens Verif.Stratonovich Verif.MonteCarlo Verif.Ultra
  Verif.Measurement Verif.Main Verif.Metropolis Verif.DrawSeq Verif.Fock Verif.Progress Verif.Random Verif.Params

variable {N : ℕ} {σ : Type}

/-! ## Specification -/

/-- a number in one of the three data structures -/
inductive Entry
  | eq (f : EqF) (z : ℤ)
  | uneq (f : UneqF) (z : ℤ)
  | ph (f : PhF) (z : ℤ)
  | eqSign
  | uneqSign
  | phSign

/-- its value -/
def Entry.val (m : MeasData) : Entry → ℝ
  | eq f z => m.eq.arr f z
  | uneq f z => m.uneq.arr f z
  | ph f z => m.ph.arr f z
  | eqSign => m.eq.sign
  | uneqSign => m.uneq.sign
  | phSign => m.ph.sign

/-- the two runs have ended in the same way, with the same random numbers, the same field and the same acceptance counters; phonon
coordinates and recorded numbers differ by at most `ε` -/
structure Close (L : ℕ) (ε : ℝ) (es : List Entry) (r r' : LoopResult (State σ N MeasData)) : Prop where
  iteration : r'.iteration = r.iteration
  prog : r'.prog = r.prog
  broke : r'.broke = r.broke
  rng : r'.state.rng = r.state.rng
  s : r'.state.s = r.state.s
  cnt : r'.state.cnt = r.state.cnt
  counts : r'.state.meas.eq.nsampl = r.state.meas.eq.nsampl ∧ r'.state.meas.uneq.nsampl = r.state.meas.uneq.nsampl ∧
    r'.state.meas.ph.nsampl = r.state.meas.ph.nsampl
  X : ∀ l < L, ∀ i, |r'.state.X l i - r.state.X l i| ≤ ε
  meas : ∀ e ∈ es, |e.val r'.state.meas - e.val r.state.meas| ≤ ε

/-! ## From limits to tolerances -/

theorem Entry.lim {U : Ultrafilter ℕ} {m : ℕ → MeasData} {m₀ : MeasData} (h : DataLim U m m₀) (e : Entry) :
    Tendsto (fun t => e.val (m t)) U (𝓝 (e.val m₀)) := by
  cases e with
  | eq f z => exact h.eqArr f z
  | uneq f z => exact h.uneqArr f z
  | ph f z => exact h.phArr f z
  | eqSign => exact h.eqSign
  | uneqSign => exact h.uneqSign
  | phSign => exact h.phSign

theorem near_of_lim {U : Ultrafilter ℕ} {x : ℕ → ℝ} {x₀ ε : ℝ} (h : Tendsto x U (𝓝 x₀)) (hε : 0 < ε) :
    ∀ᶠ t in (U : Filter ℕ), |x t - x₀| ≤ ε := by
  filter_upwards [Metric.tendsto_nhds.1 h ε hε] with t ht
  rw [Real.dist_eq] at ht
  exact ht.le

theorem close_of_lim {U : Ultrafilter ℕ} {L len : ℕ} {c : ℕ → Comp N MeasData} {rt : ℕ → LoopResult (State σ N MeasData)}
    {r : LoopResult (State σ N MeasData)} (h : ResLim DataLim L len U c rt r) {ε : ℝ} (hε : 0 < ε) (es : List Entry) :
    ∀ᶠ t in (U : Filter ℕ), Close L ε es r (rt t) := by
  obtain ⟨h1, h2⟩ := h
  have hX : ∀ᶠ t in (U : Filter ℕ), ∀ l ∈ Set.Iio L, ∀ i, |(rt t).state.X l i - r.state.X l i| ≤ ε :=
    (eventually_all_finite (Set.finite_Iio L)).2 fun l hl => eventually_all.2 fun i => near_of_lim (h2.X l hl i) hε
  have hM : ∀ᶠ t in (U : Filter ℕ), ∀ e ∈ {e | e ∈ es}, |e.val (rt t).state.meas - e.val r.state.meas| ≤ ε :=
    (eventually_all_finite (List.finite_toSet es)).2 fun e _ => near_of_lim (e.lim h2.meas) hε
  filter_upwards [h1, h2.rng, h2.s, h2.cnt, h2.meas.counts, hX, hM] with t a b c d e f g
  exact ⟨a.1, a.2.1, a.2.2, b, c, d, ⟨e.1, e.2.1, e.2.2.1⟩, f, g⟩

variable [MeasurableSpace σ] {P : Measure σ} {rest : Measure ℝ} [SigmaFinite rest]

/-- C123: for almost all initial configurations and random numbers the exact run is defined, and every run in rounded arithmetic of
sufficient accuracy from nearby phonon coordinates is defined, takes the same decisions and records nearly the same numbers -/
theorem simulate_close [NeZero N] {sys : Sys σ N MeasData} {ph : Phonon} {cfg : Cfg} {Q : ℕ → MeasData → Prop} {Norb Ncell : ℕ}
    {mp : Maps} {dt : ℝ} {omega : ℕ → ℝ} {alg : BlockCyclic.QRs N} {tau : BlockCyclic.Buf} {old : GreensUneq.Arrays} {S : ℕ} (k : ℕ)
    (hP : sys.rng.Ideal N P) (hok : sys.Ok cfg.prodBlen) (hdt : ph.dt ≠ 0) (hL : 2 ≤ cfg.L) (hd : cfg.prodBlen ∣ cfg.L)
    (hp : cfg.usePhonons = true) (hQ : Budget sys cfg.L Q) (h2 : 0 < cfg.nuneqlt → 2 * cfg.prodBlen ≤ cfg.L)
    (hmu : cfg.nuneqlt > 0 → ∀ (st : State σ N MeasData) n, AtRest sys ph cfg st → Q n st.meas →
      ∃ m, sys.meas.uneq (st.Gu.sgndet * st.Gd.sgndet) st.tsmU st.tsmD st.meas = some m ∧ Q n m)
    (hc : 0 < Ncell) (hdt' : dt ≠ 0) (hS : N * (cfg.L / cfg.prodBlen) ≤ S)
    (hm : sys.meas = realMeas Norb Ncell cfg.L mp dt omega alg tau old)
    (stop : ℤ → Bool) (it : ℤ) (cnt : Counters) (meas : MeasData) (hq : Q (samples cfg it) meas) :
    ∀ᵐ y ∂(confDist sys ph rest cfg.L).prod P, ∀ s X expX, fieldOf cfg.L s = y.1.1 → pathsOf cfg.L X = y.1.2 →
      (∀ l < cfg.L, ∀ i, expX l i = sys.expOf ph X l i) →
      ∃ r, MonteCarlo.simulate sys ph cfg stop it y.2 s X expX cnt meas = some r ∧
        ∀ ε, 0 < ε → ∀ es, ∃ u₀, 0 < u₀ ∧ ∀ (u : ℝ) (c : Comp N MeasData), 0 ≤ u → u ≤ u₀ →
          Adm sys Norb Ncell cfg.L mp dt omega tau old S k u c → ∀ X' expX' : ℕ → Fin N → ℝ,
          (∀ l < cfg.L, ∀ i, |X' l i - X l i| ≤ u₀) → (∀ l < cfg.L, ∀ i, expX' l i = expOf c sys ph i (X' l i)) →
          ∃ r', simulate c sys ph cfg stop it y.2 s X' expX' cnt meas = some r' ∧ Close cfg.L ε es r r' := by
  filter_upwards [simulate_follows (mlim := DataLim) (k := k) (q := 2 * cfg.prodBlen ≤ cfg.L) (rest := rest) hP hok hdt hL hd hp hQ
    h2 hmu stop it cnt meas hq] with y hy s X expX hs hx hE
  obtain ⟨r, e, h⟩ := hy s X expX hs hx hE
  refine ⟨r, e, fun ε hε es => ?_⟩
  by_contra hcon
  push Not at hcon
  choose u c h0 h1 hA Xt Et hXt hEt hbad using fun n : ℕ => hcon (1 / ((n : ℝ) + 1)) (by positivity)
  have hnull : Tendsto (fun n : ℕ => 1 / ((n : ℝ) + 1)) (hyperfilter ℕ) (𝓝 0) :=
    tendsto_one_div_add_atTop_nhds_zero_nat.mono_left (Nat.hyperfilter_le_atTop)
  have hu : Tendsto u (hyperfilter ℕ) (𝓝 0) := squeeze_zero h0 h1 hnull
  have hctx := Adm.ctx (U := hyperfilter ℕ) (len := cfg.prodBlen) hu hA hc (by omega) hdt' hS hm
  have lX : XLim (hyperfilter ℕ) cfg.L Xt X := fun l hl i => by
    have := squeeze_zero (fun n => abs_nonneg _) (fun n => hXt n l hl i) hnull
    have := (tendsto_zero_iff_abs_tendsto_zero _).2 this
    have := this.add_const (X l i)
    simpa using this
  have lE : XLim (hyperfilter ℕ) cfg.L Et expX := fun l hl i => by
    rw [hE l hl i]
    exact (expOf_lim hctx i (lX l hl i)).congr' (Eventually.of_forall fun t => (hEt t l hl i).symm)
  obtain ⟨rt, h3, h4⟩ := h (hyperfilter ℕ) u c hctx Xt Et (fun _ => meas) lX lE
    ⟨fun _ _ => tendsto_const_nhds, tendsto_const_nhds, fun _ _ => tendsto_const_nhds, tendsto_const_nhds,
      fun _ _ => tendsto_const_nhds, tendsto_const_nhds, Eventually.of_forall fun _ => ⟨rfl, rfl, rfl, rfl⟩⟩
  obtain ⟨t, h5, h6⟩ := (h3.and (close_of_lim h4 hε es)).exists
  exact hbad t _ h5 h6

/-! ## Runs from scratch -/

section start

omit [MeasurableSpace σ]

theorem after_congr {α : Type} {step step' : ℕ → σ → α × σ} (h : ∀ k r, (step k r).2 = (step' k r).2) (n : ℕ) (r : σ) :
    after step n r = after step' n r := by
  induction n with
  | zero => rfl
  | succ n ih =>
    show (step n (after step n r)).2 = (step' n (after step' n r)).2
    rw [ih, h]

open Classical in
/-- one phonon coordinate with coupling `g` -/
noncomputable def placeR (op : Ops) (rng : Rng σ) (ph : Phonon) (g : ℝ) (r : σ) : ℝ × σ :=
  if g = 0 then (0, r) else (op.mul (op.sub (rng.uniform r).1 0.5) ph.localBox, (rng.uniform r).2)

theorem drawPhonons_eq (op : Ops) (rng : Rng σ) (ph : Phonon) (Ncell N L : ℕ) (r : σ) : drawPhonons op rng ph Ncell N L r
    = (fun k => if k < L * N then (placeR op rng ph (ph.g (k % N / Ncell))
        (after (fun k => place rng ph (ph.g (k % N / Ncell))) k r)).1 else 0,
      after (fun k => place rng ph (ph.g (k % N / Ncell))) (L * N) r) := by
  have e : ∀ n, after (fun k => placeR op rng ph (ph.g (k % N / Ncell))) n r
      = after (fun k => place rng ph (ph.g (k % N / Ncell))) n r := fun n => after_congr (fun k r => by
    unfold placeR place
    split <;> rfl) n r
  have h := fold_draws (fun k => placeR op rng ph (ph.g (k % N / Ncell))) (fun _ => 0) (L * N) r
  simp only [e] at h
  rw [← h]
  unfold drawPhonons
  congr 1
  funext a k
  unfold placeR
  split <;> rfl

theorem drawPhonons_seed (op : Ops) (rng : Rng σ) (ph : Phonon) (Ncell N L : ℕ) (r : σ) :
    (drawPhonons op rng ph Ncell N L r).2 = (Main.drawPhonons rng ph Ncell N L r).2 := by
  rw [drawPhonons_eq, drawPhonons_draws]

theorem place_near {op : Ops} {u : ℝ} (hu : u ≤ 1) (hs : ∀ x y, |op.sub x y - (x - y)| ≤ u * |x - y|)
    (hm : ∀ x y, |op.mul x y - x * y| ≤ u * |x * y|) (rng : Rng σ) (ph : Phonon) (g : ℝ) (r : σ) :
    |(placeR op rng ph g r).1 - (place rng ph g r).1| ≤ 3 * u * |(place rng ph g r).1| := by
  unfold placeR place
  by_cases hg : g = 0
  · simp [hg]
  · simp only [if_neg hg]
    set a := (rng.uniform r).1 - 0.5 with ha
    set b := ph.localBox
    set a' := op.sub (rng.uniform r).1 0.5
    have h1 : |a' - a| ≤ u * |a| := hs _ _
    have h2 : |op.mul a' b - a' * b| ≤ u * |a' * b| := hm _ _
    have hu0 : 0 ≤ u * |a| := (abs_nonneg _).trans h1
    have h3 : |a'| ≤ 2 * |a| := by
      have := abs_add_le (a' - a) a
      rw [sub_add_cancel] at this
      nlinarith [abs_nonneg a]
    have h4 : |op.mul a' b - a * b| ≤ |op.mul a' b - a' * b| + |a' - a| * |b| := by
      rw [← abs_mul]
      refine le_trans (le_of_eq ?_) (abs_add_le _ _)
      congr 1
      ring
    have h5 : u * |a' * b| ≤ 2 * (u * |a|) * |b| := by
      rw [abs_mul]
      rcases le_or_gt 0 u with h | h
      · nlinarith [mul_le_mul_of_nonneg_left h3 (mul_nonneg h (abs_nonneg b))]
      · have : |a| = 0 := le_antisymm (by nlinarith [abs_nonneg a]) (abs_nonneg a)
        rw [this] at h3 ⊢
        have : |a'| = 0 := le_antisymm (by linarith) (abs_nonneg a')
        rw [this]
        simp
    have h6 : |a' - a| * |b| ≤ u * |a| * |b| := mul_le_mul_of_nonneg_right h1 (abs_nonneg b)
    rw [abs_mul]
    linarith [show 3 * u * (|a| * |b|) = 3 * (u * |a|) * |b| by ring, mul_assoc u |a| |b|]

theorem drawPhonons_near {op : Ops} {u : ℝ} (hu : u ≤ 1) (hs : ∀ x y, |op.sub x y - (x - y)| ≤ u * |x - y|)
    (hm : ∀ x y, |op.mul x y - x * y| ≤ u * |x * y|) (rng : Rng σ) (ph : Phonon) (Ncell N L : ℕ) (r : σ) (k : ℕ) :
    |(drawPhonons op rng ph Ncell N L r).1 k - (Main.drawPhonons rng ph Ncell N L r).1 k|
      ≤ 3 * u * |(Main.drawPhonons rng ph Ncell N L r).1 k| := by
  rw [drawPhonons_eq, drawPhonons_draws]
  simp only
  split
  · exact place_near hu hs hm rng ph _ _
  · simp

end start

/-- C123 for runs from scratch -/
theorem fresh_close [NeZero N] {sys : Sys σ N MeasData} {ph : Phonon} {cfg : Cfg} {Q : ℕ → MeasData → Prop} {Norb Ncell : ℕ}
    {mp : Maps} {dt : ℝ} {omega : ℕ → ℝ} {alg : BlockCyclic.QRs N} {tau : BlockCyclic.Buf} {old : GreensUneq.Arrays} {S : ℕ} (k : ℕ)
    (hP : sys.rng.Ideal N P) (hok : sys.Ok cfg.prodBlen) (hdt : ph.dt ≠ 0) (hL : 2 ≤ cfg.L) (hd : cfg.prodBlen ∣ cfg.L)
    (hp : cfg.usePhonons = true) (hQ : Budget sys cfg.L Q) (h2 : 0 < cfg.nuneqlt → 2 * cfg.prodBlen ≤ cfg.L)
    (hmu : cfg.nuneqlt > 0 → ∀ (st : State σ N MeasData) n, AtRest sys ph cfg st → Q n st.meas →
      ∃ m, sys.meas.uneq (st.Gu.sgndet * st.Gd.sgndet) st.tsmU st.tsmD st.meas = some m ∧ Q n m)
    (hc : 0 < Ncell) (hdt' : dt ≠ 0) (hS : N * (cfg.L / cfg.prodBlen) ≤ S)
    (hm : sys.meas = realMeas Norb Ncell cfg.L mp dt omega alg tau old)
    (hbox : ∀ i, ph.g (sys.orb i) ≠ 0 → ph.localBox ≠ 0)
    (hw : ∀ s : ℕ → Fin N → Fin 2, ∃ X, sys.weight cfg.L s (sys.expOf ph X) ≠ 0)
    (stop : ℤ → Bool) (it : ℤ) (cnt : Counters) (meas : MeasData) (hq : Q (samples cfg it) meas) :
    ∀ᵐ r ∂P,
      let f := drawField sys.rng (cfg.L * N) r
      let x := Main.drawPhonons sys.rng ph sys.Ncell N cfg.L f.2
      ∃ res, MonteCarlo.simulate sys ph cfg stop it x.2 (unflat f.1) (unflat x.1)
          (Main.expPhonons ph sys.Ncell cfg.L (unflat x.1)) cnt meas = some res ∧
        ∀ ε, 0 < ε → ∀ es, ∃ u₀, 0 < u₀ ∧ ∀ (u : ℝ) (c : Comp N MeasData), 0 ≤ u → u ≤ u₀ →
          Adm sys Norb Ncell cfg.L mp dt omega tau old S k u c →
          let x' := drawPhonons c.pl.toOps sys.rng ph sys.Ncell N cfg.L f.2
          ∃ res', simulate c sys ph cfg stop it x'.2 (unflat f.1) (unflat x'.1)
            (expPhonons c.pl ph sys.Ncell cfg.L (unflat x'.1)) cnt meas = some res' ∧ Close cfg.L ε es res res' := by
  have := hP.prob
  have hL0 : 0 < cfg.L := by omega
  have h := simulate_close (rest := Measure.dirac 0) k hP hok hdt hL hd hp hQ h2 hmu hc hdt' hS hm stop it cnt meas hq
  have hw' : ∀ s : Field cfg.L N, ∃ X, confWeight sys ph cfg.L (s, X) ≠ 0 := fun s => by
    obtain ⟨X, hX⟩ := hw (Fock.extend s)
    refine ⟨pathsOf cfg.L X, ?_⟩
    have e := confWeight_view (sys := sys) (ph := ph) hL0 (Fock.extend s) X
    rw [fieldOf_extend] at e
    rw [e]
    exact mul_ne_zero hX (Real.exp_ne_zero _)
  have hac : (confBase sys ph (Measure.dirac 0) cfg.L).prod P ≪ (confDist sys ph (Measure.dirac 0) cfg.L).prod P :=
    (confBase_ac hw').prod Measure.AbsolutelyContinuous.rfl
  filter_upwards [(fresh_quasi (ph := ph) (L := cfg.L) hP hbox).ae (hac.ae_le h)] with r hr
  intro f x
  obtain ⟨res, e, h3⟩ := hr (unflat f.1) (unflat x.1) (Main.expPhonons ph sys.Ncell cfg.L (unflat x.1)) rfl rfl
    fun l hl i => by
      unfold Main.expPhonons
      rw [if_pos hl]
      rfl
  refine ⟨res, e, fun ε hε es => ?_⟩
  obtain ⟨u₀, h0, h4⟩ := h3 ε hε es
  set b := ∑ k ∈ Finset.range (cfg.L * N), |x.1 k| with hb
  have hb0 : 0 ≤ b := Finset.sum_nonneg fun _ _ => abs_nonneg _
  refine ⟨min (min 1 u₀) (u₀ / (3 * (b + 1))), by positivity, fun u c hu hu₀ hA => ?_⟩
  have u1 : u ≤ 1 := hu₀.trans ((min_le_left _ _).trans (min_le_left _ _))
  have u2 : u ≤ u₀ := hu₀.trans ((min_le_left _ _).trans (min_le_right _ _))
  have u3 : u * (3 * (b + 1)) ≤ u₀ := (le_div_iff₀ (by positivity)).1 (hu₀.trans (min_le_right _ _))
  intro x'
  have hx' : x'.2 = x.2 := drawPhonons_seed _ _ _ _ _ _ _
  rw [hx']
  refine h4 u c hu u2 hA _ _ (fun l hl i => ?_) fun l hl i => ?_
  · have h5 := drawPhonons_near u1 hA.pl.scalar.sub hA.pl.scalar.mul sys.rng ph sys.Ncell N cfg.L f.2 (i + l * N)
    refine h5.trans ?_
    have h6 : |x.1 (i + l * N)| ≤ b := Finset.single_le_sum (f := fun k => |x.1 k|) (fun _ _ => abs_nonneg _)
      (Finset.mem_range.2 (index_lt ⟨l, hl⟩ i))
    have h7 : u * |x.1 (i + l * N)| ≤ u * (b + 1) := mul_le_mul_of_nonneg_left (by linarith) hu
    show 3 * u * |x.1 (i + l * N)| ≤ u₀
    linarith [mul_assoc 3 u |x.1 (i + l * N)|]
  · unfold expPhonons
    rw [if_pos hl]
    rfl

/-! ## The program -/

theorem platform_mono {pl : Platform N} {k : ℕ} {u u' : ℝ} (h : pl.Within k u) (hu : u ≤ u') : pl.Within k u' where
  arith := h.arith.mono hu
  scalar := by
    have H : ∀ {a b : ℝ}, a ≤ u * |b| → a ≤ u' * |b| := fun h => h.trans (mul_le_mul_of_nonneg_right hu (abs_nonneg _))
    exact ⟨fun a b => H (h.scalar.add a b), fun a b => H (h.scalar.sub a b), fun a b => H (h.scalar.mul a b),
      fun a b => H (h.scalar.div a b), fun x => H (h.scalar.sqrt x), fun x => H (h.scalar.exp x), fun x => H (h.scalar.expm1 x)⟩
  gemmT := fun b A B hb hbe hA hB => Near.mono (h.gemmT b A B hb ((mul_le_mul_of_nonneg_left hu (by linarith)).trans hbe) hA hB)
    (mul_le_mul_of_nonneg_right hu (by positivity))
  syev := fun b A hb hbe hA => by
    obtain ⟨V, h1, h2, h3⟩ := h.syev b A hb ((mul_le_mul_of_nonneg_left hu (by linarith)).trans hbe) hA
    have E : u * b ^ k ≤ u' * b ^ k := mul_le_mul_of_nonneg_right hu (by positivity)
    exact ⟨V, h1, Near.mono h2 E, Near.mono h3 E⟩

theorem log_mono {op : Ops} {u u' : ℝ} (h : op.LogWithin u) (hu : u ≤ u') : op.LogWithin u' := fun b x hb hbu h1 h2 =>
  (h b x hb ((mul_le_mul_of_nonneg_left hu (by linarith)).trans hbu) h1 h2).trans (mul_le_mul_of_nonneg_right hu (by linarith))

/-- a logarithm with relative error `u` -/
theorem log_within {op : Ops} {u : ℝ} (hu : 0 ≤ u) (h : ∀ x, 0 < x → |op.log x - Real.log x| ≤ u * |Real.log x|) : op.LogWithin u := by
  intro b x hb _ h1 h2
  have hx : 0 < x := by
    by_contra hx
    nlinarith [not_lt.1 hx]
  refine (h x hx).trans (mul_le_mul_of_nonneg_left ?_ hu)
  have h3 := Real.log_le_sub_one_of_pos hx
  have h4 := Real.log_le_sub_one_of_pos (inv_pos.2 hx)
  rw [Real.log_inv] at h4
  have h5 : x⁻¹ ≤ b := by
    rw [inv_le_iff_one_le_mul₀ hx]
    exact h1
  exact abs_le.2 ⟨by linarith, by linarith⟩

variable {mc : Machine} {p : SimParams ℝ}

/-- the program in rounded arithmetic: platform, tables computed on it, and measurements -/
noncomputable def compOf (mc : Machine) (p : SimParams ℝ) (pl : Platform (sites p)) (bl : BlockArith) (tab : Tables (sites p)) :
    Comp (sites p) MeasData where
  pl := pl
  tab := tab
  ms := roundMeas p.Norb.toNat (p.Nx.toNat * p.Ny.toNat) p.L.toNat (Maps.construct p.Nx.toNat p.Ny.toNat p.pbcShift mc.maps) p.dt
    (fun o => p.phonon.omega o) mc.tau mc.green pl.toArith bl

/-- C123: the program with phonons in rounded arithmetic, from the parameters to the results, for runs from scratch -/
theorem program_rounded_ph [NeZero (sites p)] (hmc : mc.Rounds) (hv : Admissible p) (hg : Guards p) (hN : sites p < 2 ^ 31)
    (hp : p.usePhonons = true) (hL : 2 ≤ p.L) (hdt : p.dt ≠ 0) (hcoupled : ∀ o : ℕ, o < p.Norb.toNat → p.phonon.g o ≠ 0)
    (hbox : p.phonon.localBoxWidth ≠ 0) (fnbase : String) (rng : Rng σ) (hlaw : rng.Lawful (sites p))
    (hP : rng.Ideal (sites p) P) (sys : Sys Seed (sites p) MeasData) (hsys : sysOf mc p = some sys) (stop : ℤ → Bool) (k S : ℕ)
    (hS : sites p * (p.L.toNat / p.prodBlen.toNat) ≤ S) :
    let su := mkSetup mc p fnbase
    ∀ᵐ r ∂P,
      let f := drawField rng su.LxN r
      let x := Main.drawPhonons rng su.ph su.Ncell (sites p) su.cfg.L f.2
      ∃ res, MonteCarlo.simulate (sys.withRng rng) su.ph su.cfg stop 0 x.2 (unflat f.1) (unflat x.1)
          (Main.expPhonons su.ph su.Ncell su.cfg.L (unflat x.1)) zeroCounters (MeasData.allocate su.maxNsampl) = some res ∧
        ∀ ε, 0 < ε → ∀ es, ∃ u₀, 0 < u₀ ∧ ∀ (u : ℝ) (pl : Platform (sites p)) (bl : BlockArith), 0 ≤ u → u ≤ u₀ → pl.Within k u →
          pl.toOps.LogWithin u → pl.toArith.Pivoted → bl.Within S k u →
          ∃ tab, tables p pl = some tab ∧
            let x' := drawPhonons pl.toOps rng su.ph su.Ncell (sites p) su.cfg.L f.2
            ∃ res', simulate (compOf mc p pl bl tab) (sys.withRng rng) su.ph su.cfg stop 0 x'.2 (unflat f.1) (unflat x'.1)
                (expPhonons pl su.ph su.Ncell su.cfg.L (unflat x'.1)) zeroCounters (MeasData.allocate su.maxNsampl) = some res' ∧
              Close su.cfg.L ε es res res' := by
  intro su
  obtain ⟨sys0, e0, hok0, -, hm⟩ := sys_defined hmc hv hg.U hg.shift hN fnbase
  obtain rfl : sys0 = sys := Option.some.inj (e0.symm.trans hsys)
  have hncell : sys0.Ncell = p.Nx.toNat * p.Ny.toNat := by
    unfold sysOf at hsys
    simp only [Option.bind_eq_bind] at hsys
    obtain ⟨a, -, hsys⟩ := Option.bind_eq_some_iff.1 hsys
    obtain ⟨b, -, hsys⟩ := Option.bind_eq_some_iff.1 hsys
    obtain rfl := Option.some.inj hsys
    rfl
  have hok : (sys0.withRng rng).Ok su.cfg.prodBlen := ⟨hok0.expK, hok0.hs, hlaw, hok0.dvd⟩
  have hL' : 2 ≤ su.cfg.L := by show 2 ≤ p.L.toNat; omega
  have hd : su.cfg.prodBlen ∣ su.cfg.L := toNat_dvd hv.prodBlen hv.l hv.dvdL
  have hP' : (sys0.withRng rng).rng.Ideal (sites p) P := hP
  have hQ : Budget (sys0.withRng rng) su.cfg.L Room := room_budget hv hg hm
  have hq : Room (samples su.cfg 0) (MeasData.allocate su.maxNsampl) := room_start hv (hg.neqlt hp) fnbase 0 _ rfl
  have hgo : ∀ i, su.ph.g ((sys0.withRng rng).orb i) ≠ 0 := fun i => by
    refine hcoupled _ ?_
    show i.val / sys0.Ncell < _
    have h1 := i.2
    unfold sites at h1
    rw [hncell]
    refine Nat.div_lt_of_lt_mul ?_
    calc i.val < _ := h1
      _ = _ := by ring
  have h2 : 0 < su.cfg.nuneqlt → 2 * su.cfg.prodBlen ≤ su.cfg.L := fun h => by
    have h3 : p.prodBlen.toNat ≠ p.L.toNat := by
      have := hg.blocks h
      have := hv.prodBlen
      omega
    obtain ⟨n, hn⟩ := hd
    show 2 * p.prodBlen.toNat ≤ p.L.toNat
    have hn : p.L.toNat = p.prodBlen.toNat * n := hn
    have : 2 ≤ n := by
      rcases n with _ | _ | n
      · have := hv.l
        omega
      · omega
      · omega
    rw [hn, mul_comm]
    exact Nat.mul_le_mul_left _ this
  have hcell : 0 < p.Nx.toNat * p.Ny.toNat := by
    have := hv.nx
    have := hv.ny
    exact Nat.mul_pos (by omega) (by omega)
  have h := fresh_close (ph := su.ph) (S := S) k hP' hok hdt hL' hd hp hQ h2
    (fun hn st n hst hm' => room_uneq (sys := sys0.withRng rng) hv hg hn rfl rfl hm st n hst hm') hcell hdt hS hm (fun _ _ => hbox)
    (weight_exists (by omega) hdt hgo) stop 0 zeroCounters (MeasData.allocate su.maxNsampl) hq
  have hnc : (sys0.withRng rng).Ncell = su.Ncell := hncell
  rw [hnc] at h
  obtain ⟨C, δ, hC, hδ, ht⟩ := tables_close hv hg rng sys0 hsys k
  filter_upwards [h] with r hr
  intro f x
  obtain ⟨res, e, h3⟩ := hr
  refine ⟨res, e, fun ε hε es => ?_⟩
  obtain ⟨u₁, h4, h5⟩ := h3 ε hε es
  have hC0 : 0 < C := by linarith
  refine ⟨min (u₁ / C) (δ / 2), by positivity, fun u pl bl hu hu₀ hpl hlog hpiv hbl => ?_⟩
  have hu1 : C * u ≤ u₁ := by
    have := (le_div_iff₀ hC0).1 (hu₀.trans (min_le_left _ _))
    linarith [mul_comm u C]
  have hu2 : u < δ := by
    have := hu₀.trans (min_le_right _ _)
    linarith
  have hle : u ≤ C * u := le_mul_of_one_le_left hu hC
  obtain ⟨tab, t1, t2⟩ := ht u pl hu hu2 hpl
  exact ⟨tab, t1, h5 (C * u) (compOf mc p pl bl tab) (by positivity) hu1
    ⟨platform_mono hpl hle, log_mono hlog hle, hpiv, t2, bl, Reference.blocks_mono hbl hle, rfl⟩⟩

open Verif.Reference in
/-- C123: the program with phonons in rounded arithmetic and with the textbook algorithms for all calls of BLAS and LAPACK but `dsyev`,
from the parameters to the results: with probability one all decisions are those of the exact program if the relative errors of the
scalar operations are small enough, and the recorded numbers are as close to those of the exact program as desired. -/
theorem program_reference_ph [NeZero (sites p)] (hmc : mc.Rounds) (hv : Admissible p) (hg : Guards p) (hN : sites p < 2 ^ 31)
    (hp : p.usePhonons = true) (hL : 2 ≤ p.L) (hdt : p.dt ≠ 0) (hcoupled : ∀ o : ℕ, o < p.Norb.toNat → p.phonon.g o ≠ 0)
    (hbox : p.phonon.localBoxWidth ≠ 0) (fnbase : String) (rng : Rng σ) (hlaw : rng.Lawful (sites p))
    (hP : rng.Ideal (sites p) P) (sys : Sys Seed (sites p) MeasData) (hsys : sysOf mc p = some sys) (stop : ℤ → Bool) (k : ℕ) :
    let su := mkSetup mc p fnbase
    ∀ᵐ r ∂P,
      let f := drawField rng su.LxN r
      let x := Main.drawPhonons rng su.ph su.Ncell (sites p) su.cfg.L f.2
      ∃ res, MonteCarlo.simulate (sys.withRng rng) su.ph su.cfg stop 0 x.2 (unflat f.1) (unflat x.1)
          (Main.expPhonons su.ph su.Ncell su.cfg.L (unflat x.1)) zeroCounters (MeasData.allocate su.maxNsampl) = some res ∧
        ∀ ε, 0 < ε → ∀ es, ∃ u₀, 0 < u₀ ∧ ∀ (u : ℝ) (lib : Lib (sites p)) (piv : Mat (sites p) → Equiv.Perm (Fin (sites p))),
          lib.Relative k u → (∀ x, 0 < x → |lib.log x - Real.log x| ≤ u * |Real.log x|) → u ≤ u₀ →
          let pl := refPlatform lib piv
          ∃ tab, tables p pl = some tab ∧
            let x' := drawPhonons pl.toOps rng su.ph su.Ncell (sites p) su.cfg.L f.2
            ∃ res', simulate (compOf mc p pl (refBlocks lib.toFlOps) tab) (sys.withRng rng) su.ph su.cfg stop 0 x'.2 (unflat f.1)
                (unflat x'.1) (expPhonons pl su.ph su.Ncell su.cfg.L (unflat x'.1)) zeroCounters (MeasData.allocate su.maxNsampl)
                = some res' ∧
              Close su.cfg.L ε es res res' := by
  intro su
  set S := sites p * (p.L.toNat / p.prodBlen.toNat) with hS
  obtain ⟨k₁, hk⟩ := refArith_within (sites p)
  obtain ⟨l, hl⟩ := refBlocks_within S
  set K := k₁ + l + k + 1 with hK
  filter_upwards [program_rounded_ph hmc hv hg hN hp hL hdt hcoupled hbox fnbase rng hlaw hP sys hsys stop K S le_rfl] with r hr
  intro f x
  obtain ⟨res, e1, h⟩ := hr
  refine ⟨res, e1, fun ε hε es => ?_⟩
  obtain ⟨u₀, h0, H⟩ := h ε hε es
  have hp' : (0 : ℝ) < K := by exact_mod_cast Nat.succ_pos _
  set c := min 1 u₀ with hc
  have hc0 : 0 < c := by positivity
  refine ⟨c ^ K / K, by positivity, fun u lib piv ho hlog hs => ?_⟩
  have hu := ho.ops.nonneg
  obtain ⟨e, ha, he⟩ := accuracy_exists K (by omega) hu
  rw [le_div_iff₀ hp'] at hs
  have hec : e ≤ c := le_of_pow_le_pow_left₀ (n := K) (by omega) hc0.le (by
    rw [he]
    linarith [mul_comm u (K : ℝ)])
  have h1 : e ≤ 1 := hec.trans (min_le_left _ _)
  have h4 : u ≤ e := by
    have h5 : e ^ K ≤ e := pow_le_of_le_one ha.nonneg h1 (by omega)
    have h6 : (1 : ℝ) ≤ K := by exact_mod_cast Nat.succ_pos _
    have h7 : u ≤ K * u := le_mul_of_one_le_left hu h6
    linarith
  have hA := hk K (by omega) lib.toFlOps u e piv ho.ops ha
  have hB := hl K (by omega) lib.toFlOps u e ho.ops ha
  exact H e (refPlatform lib piv) (refBlocks lib.toFlOps) ha.nonneg (hec.trans (min_le_right _ _))
    (platform_within ho hA h4 (by omega)) (log_mono (log_within hu hlog) h4)
    (fun A i j h => getrf_pivoted (op := lib.toOps) (h4.trans h1) ho.ops.div _ A i j h) hB

/-! ## Examples -/

open Verif.Reference in
/-- library functions with rounding errors which meet the requirements -/
theorem lib_exists_log (N k : ℕ) {u : ℝ} (hu : 0 < u) :
    ∃ lib : Lib N, lib.Relative k u ∧ lib.add 1 1 ≠ 2 ∧ ∀ x, 0 < x → |lib.log x - Real.log x| ≤ u * |Real.log x| := by
  obtain ⟨lib, h1, h2⟩ := lib_exists N k hu
  refine ⟨{ lib with log := fun x => (1 + u) * Real.log x }, ⟨⟨h1.ops.add, h1.ops.sub, h1.ops.mul, h1.ops.div, h1.ops.sqrt⟩, h1.exp,
    h1.expm1, h1.syev⟩, h2, fun x _ => ?_⟩
  show |(1 + u) * Real.log x - Real.log x| ≤ _
  rw [show (1 + u) * Real.log x - Real.log x = u * Real.log x by ring, abs_mul, abs_of_pos hu]

open Verif.Reference in
/-- non-vacuity: the small system with phonons satisfies all hypotheses, and for any tolerance there are library functions which do not
compute exactly -/
example : ∃ mc : Machine, ∃ sys : Sys Seed (sites exQ) MeasData, mc.Rounds ∧ sysOf mc exQ = some sys ∧
    ∀ᵐ r ∂(independent (drawDist (sites exQ))),
      let su := mkSetup mc exQ ""
      let rng := idealRng (sites exQ)
      let f := drawField rng su.LxN r
      let x := Main.drawPhonons rng su.ph su.Ncell (sites exQ) su.cfg.L f.2
      ∃ res, MonteCarlo.simulate (sys.withRng rng) su.ph su.cfg (fun _ => false) 0 x.2 (unflat f.1) (unflat x.1)
          (Main.expPhonons su.ph su.Ncell su.cfg.L (unflat x.1)) zeroCounters (MeasData.allocate su.maxNsampl) = some res ∧
        ∃ lib : Lib (sites exQ), lib.add 1 1 ≠ 2 ∧ ∃ tab, tables exQ (refPlatform lib fun _ => 1) = some tab ∧
          let x' := drawPhonons lib.toOps rng su.ph su.Ncell (sites exQ) su.cfg.L f.2
          ∃ res', simulate (compOf mc exQ (refPlatform lib fun _ => 1) (refBlocks lib.toFlOps) tab) (sys.withRng rng) su.ph su.cfg
              (fun _ => false) 0 x'.2 (unflat f.1) (unflat x'.1)
              (expPhonons (refPlatform lib fun _ => 1) su.ph su.Ncell su.cfg.L (unflat x'.1)) zeroCounters
              (MeasData.allocate su.maxNsampl) = some res' ∧
            Close su.cfg.L (1 / 1000) [.ph .nX 0, .ph .ke 0, .eq .densityU 0] res res' := by
  obtain ⟨mc, hmc⟩ := machine_exists
  obtain ⟨sys, hsys, -⟩ := sys_defined hmc exQ_admissible exQ_guards.U exQ_guards.shift (by decide) ""
  refine ⟨mc, sys, hmc, hsys, ?_⟩
  filter_upwards [program_reference_ph hmc exQ_admissible exQ_guards (by decide) rfl (le_refl _) (by norm_num [exQ, exPph, exP])
    (fun _ _ => by norm_num [exQ, exPph, exP]) (by norm_num [exQ, exPph, exP]) "" _ (idealRng_lawful _) (idealRng_ideal _) sys hsys
    (fun _ => false) 1] with r hr
  obtain ⟨res, e, h⟩ := hr
  refine ⟨res, e, ?_⟩
  obtain ⟨u₀, h0, H⟩ := h (1 / 1000) (by norm_num) [.ph .nX 0, .ph .ke 0, .eq .densityU 0]
  obtain ⟨lib, h1, h2, h3⟩ := lib_exists_log (sites exQ) 1 h0
  exact ⟨lib, h2, H u₀ lib (fun _ => 1) h1 h3 le_rfl⟩

end Verif.Rounded.Ph
