import Verif.Props.PathChain
import Verif.Props.AlmostSure
import Verif.Props.Convergence
import Verif.Lemmas.Settle

/-!
# Property C105: long runs with phonons

A run with phonons applies the maps of `PathChain` to the configuration and the state of the source, and every
measurement adds a function of the configuration.  So what a long run accumulates is an average along the iterates of a
map, which settles.
-/

set_option autoImplicit false

namespace Verif.MonteCarlo

open MeasureTheory Filter Topology Verif.Metropolis Verif.Fock Verif.Greens Verif.Progress Verif.Links Verif.MeanErgodic

variable {σ : Type} {N : ℕ} {M : Type} {sys : Sys σ N M} {ph : Phonon} {L len l : ℕ} {st st' : State σ N M}

/-! ## What a run does -/

section path

variable {f : σ → Equiv.Perm (Fin N) × σ} {g : σ → Fin N × σ}
  (hf : ∀ r, sys.rng.shuffle N r = some ((List.finRange N).map (f r).1, (f r).2))
  (hg : ∀ r, sys.rng.site N r = some (g r))

include hf in
theorem hsSlice_map (hok : sys.Ok len) (hl : l < L) (hm : PhMid sys ph L len l st) (hs : hsSlice sys l st = some st') :
    viewPh L st' = hsMap sys ph L f l (viewPh L st) := by
  unfold hsSlice at hs
  rw [hf] at hs
  simp only [Option.bind_eq_bind, Option.bind_some, Option.pure_def, Option.some.injEq] at hs
  rw [← hs, hsFold_viewPh (st := { st with rng := (f st.rng).2 }) ⟨⟨hm.mid.up, hm.mid.down⟩, hm.coh⟩ hok hl]
  rfl

include hf in
theorem localSlice_map (hok : sys.Ok len) (hL : 2 ≤ L) (hl : l < L) (hm : PhMid sys ph L len l st)
    (hs : localSlice sys ph l st = some st') : viewPh L st' = localMap sys ph L f l (viewPh L st) := by
  unfold localSlice at hs
  rw [hf] at hs
  simp only [Option.bind_eq_bind, Option.bind_some] at hs
  obtain ⟨sites, e2, hs⟩ := Option.bind_eq_some_iff.1 hs
  simp only [Option.pure_def, Option.some.injEq] at hs
  rw [← hs, localFold_viewPh (st := { st with rng := (f st.rng).2 }) ⟨⟨hm.mid.up, hm.mid.down⟩, hm.coh⟩ hok hL hl]
  unfold localMap
  rw [show (viewPh L st).2 = st.rng from rfl, e2]
  rfl

variable {rest : Measure ℝ} {φ : M → ℝ} {q : ℕ → Conf L N → ℝ} {qu : Conf L N → ℝ}

open Classical in
/-- what the measurement after slice `l` adds, if the sweep begins at `y` -/
noncomputable def sliceAdd (sys : Sys σ N M) (ph : Phonon) (L : ℕ) (f : σ → Equiv.Perm (Fin N) × σ) (noHS : Bool)
    (neqlt : ℕ) (q : ℕ → Conf L N → ℝ) (l : ℕ) (y : Conf L N × σ) : ℝ :=
  if neqlt > 0 ∧ (l + 1) % neqlt = 0 then q l (slicesMap sys ph L f noHS (l + 1) y).1 else 0

include hf in
theorem phTimeSlice_map [NeZero N] (hok : sys.Ok len) (hL : 2 ≤ L) (hl : l < L) (noHS : Bool) (neqlt : ℕ)
    (hq : AddsPh sys ph rest L len φ q qu) {y : Conf L N × σ} (hv : viewPh L st = slicesMap sys ph L f noHS l y)
    (h : PhInv sys ph L len l st) (hs : phTimeSlice sys ph noHS neqlt st l = some st') :
    viewPh L st' = slicesMap sys ph L f noHS (l + 1) y ∧ PhInv sys ph L len (l + 1) st' ∧
      φ st'.meas = φ st.meas + sliceAdd sys ph L f noHS neqlt q l y := by
  have hi := (phTimeSlice_inv hok hl noHS neqlt (fun _ => True)
    (fun _ _ _ _ _ _ _ _ _ _ _ _ _ _ _ => trivial) h trivial hs).1
  obtain ⟨st1, st2, e1, hm, hm1, hmeas1, e2, hmeas2, hinv, e3⟩ := phTimeSlice_split hok hl noHS neqlt h hs
  have h1 : viewPh L st1 = (if noHS then id else hsMap sys ph L f l) (viewPh L st) := by
    cases noHS
    · exact (hsSlice_map hf hok hl hm e1).trans rfl
    · rw [← Option.some.inj e1]
      rfl
  have h2 : viewPh L (MonteCarlo.updatePhB sys l st2) = slicesMap sys ph L f noHS (l + 1) y := by
    rw [slicesMap, Function.comp_apply, ← hv, sliceMap, Function.comp_apply, ← h1]
    exact (show viewPh L (MonteCarlo.updatePhB sys l st2) = viewPh L st2 from rfl).trans
      (localSlice_map hf hok hL hl hm1 e2)
  unfold sliceAdd
  unfold measurePh at e3
  split at e3
  · rename_i hc
    simp only [Option.bind_eq_bind] at e3
    obtain ⟨m1, e4, e3⟩ := Option.bind_eq_some_iff.1 e3
    obtain ⟨m2, e5, e3⟩ := Option.bind_eq_some_iff.1 e3
    simp only [Option.pure_def, Option.some.injEq] at e3
    have hv' : viewPh L st' = slicesMap sys ph L f noHS (l + 1) y := by
      rw [← e3]
      exact h2
    refine ⟨hv', hi, ?_⟩
    have h3 := hq.eq _ _ l _ _ _ _ _ hl ⟨hinv.inv.up.good, hinv.inv.down.good⟩ e4 e5
    rw [if_pos hc, ← h2, ← e3, ← hmeas2]
    exact h3
  · rename_i hc
    rw [if_neg hc, add_zero, ← Option.some.inj e3]
    exact ⟨h2, by rw [Option.some.inj e3]; exact hi, by rw [← hmeas2]; rfl⟩

include hf in
theorem phSlices_map [NeZero N] (hok : sys.Ok len) (hL : 2 ≤ L) (noHS : Bool) (neqlt : ℕ)
    (hq : AddsPh sys ph rest L len φ q qu) (h : PhInv sys ph L len 0 st) (k : ℕ) (hk : k ≤ L)
    (hs : (List.range k).foldlM (phTimeSlice sys ph noHS neqlt) st = some st') :
    viewPh L st' = slicesMap sys ph L f noHS k (viewPh L st) ∧ PhInv sys ph L len k st' ∧
      φ st'.meas = φ st.meas + ∑ l ∈ Finset.range k, sliceAdd sys ph L f noHS neqlt q l (viewPh L st) := by
  induction k generalizing st' with
  | zero =>
    obtain rfl : st = st' := Option.some.inj hs
    rw [Finset.sum_range_zero, add_zero]
    exact ⟨rfl, h, rfl⟩
  | succ k ih =>
    rw [List.range_succ, List.foldlM_append] at hs
    obtain ⟨st1, e1, e2⟩ := Option.bind_eq_some_iff.1 hs
    rw [List.foldlM_cons] at e2
    obtain ⟨st2, e3, e4⟩ := Option.bind_eq_some_iff.1 e2
    rw [List.foldlM_nil] at e4
    cases e4
    obtain ⟨h1, h2, h3⟩ := ih (by omega) e1
    obtain ⟨h4, h5, h6⟩ := phTimeSlice_map hf hok hL (by omega) noHS neqlt hq h1 h2 e3
    refine ⟨h4, h5, ?_⟩
    rw [h6, h3, Finset.sum_range_succ, add_assoc]

theorem iterateM_view {α Y : Type} {v : α → Y} {I : α → Prop} {F : Y → Y} {step : α → Option α} {ψ : α → ℝ}
    (h : ∀ a b, I a → step a = some b → v b = F (v a) ∧ I b ∧ ψ b = ψ a) (n : ℕ) {a b : α} (ha : I a)
    (hs : iterateM step n a = some b) : v b = F^[n] (v a) ∧ I b ∧ ψ b = ψ a := by
  induction n generalizing a with
  | zero =>
    obtain rfl : a = b := Option.some.inj hs
    exact ⟨rfl, ha, rfl⟩
  | succ n ih =>
    obtain ⟨c, e1, e2⟩ := Option.bind_eq_some_iff.1 hs
    obtain ⟨h1, h2, h3⟩ := h a c ha e1
    obtain ⟨h4, h5, h6⟩ := ih h2 e2
    exact ⟨by rw [h4, h1, Function.iterate_succ_apply], h5, h6.trans h3⟩

include hf hg in
theorem phIteration_map [NeZero N] (hok : sys.Ok len) (hL : 2 ≤ L) (noHS : Bool) (neqlt : ℕ)
    (hq : AddsPh sys ph rest L len φ q qu) (h : PhInv sys ph L len 0 st)
    (hs : phIteration sys ph noHS neqlt st = some st') :
    viewPh L st' = iterMap sys ph L f g noHS (viewPh L st) ∧ PhInv sys ph L len 0 st' ∧
      φ st'.meas = φ st.meas + ∑ l ∈ Finset.range L, sliceAdd sys ph L f noHS neqlt q l (viewPh L st) := by
  have hs' : ((List.range L).foldlM (phTimeSlice sys ph noHS neqlt) st).bind
      (fun st => (iterateM (blockUpdate sys ph) ph.nBlock st).bind (iterateM (flipUpdate sys ph) ph.nBlock))
      = some st' := by
    unfold phIteration at hs
    rw [h.inv.up.td.hL] at hs
    exact hs
  obtain ⟨st1, e1, hs'⟩ := Option.bind_eq_some_iff.1 hs'
  obtain ⟨st2, e2, e3⟩ := Option.bind_eq_some_iff.1 hs'
  obtain ⟨h1, h2, h3⟩ := phSlices_map hf hok hL noHS neqlt hq h L le_rfl e1
  obtain ⟨h4, h5, h6⟩ := iterateM_view (v := viewPh L) (I := PhInv sys ph L len 0) (F := blockMap sys ph L g)
    (ψ := fun st => φ st.meas) (fun a b hi e => ⟨blockUpdate_viewPh hok hi e g hg, (blockUpdate_inv hok hi e).1, by
      show φ b.meas = φ a.meas
      rw [(blockUpdate_inv hok hi e).2]⟩) ph.nBlock h2.next e2
  obtain ⟨h7, h8, h9⟩ := iterateM_view (v := viewPh L) (I := PhInv sys ph L len 0) (F := mirrorMap sys ph L g)
    (ψ := fun st => φ st.meas) (fun a b hi e => ⟨flipUpdate_viewPh hok hi e g hg, (flipUpdate_inv hok hi e).1, by
      show φ b.meas = φ a.meas
      rw [(flipUpdate_inv hok hi e).2]⟩) ph.nBlock h5 e3
  refine ⟨?_, h8, ?_⟩
  · rw [h7, h4, h1]
    rfl
  · exact h9.trans (h6.trans h3)

end path

section run

variable {f : σ → Equiv.Perm (Fin N) × σ} {g : σ → Fin N × σ}
  (hf : ∀ r, sys.rng.shuffle N r = some ((List.finRange N).map (f r).1, (f r).2))
  (hg : ∀ r, sys.rng.site N r = some (g r))
  {rest : Measure ℝ} {cfg : Cfg} {φ : M → ℝ} {q : ℕ → Conf cfg.L N → ℝ} {qu : Conf cfg.L N → ℝ}

open Classical in
/-- what iteration `it` adds, if it begins at `y` -/
noncomputable def iterAdd (sys : Sys σ N M) (ph : Phonon) (f : σ → Equiv.Perm (Fin N) × σ) (g : σ → Fin N × σ) (cfg : Cfg)
    (q : ℕ → Conf cfg.L N → ℝ) (qu : Conf cfg.L N → ℝ) (it : ℤ) (y : Conf cfg.L N × σ) : ℝ :=
  (∑ l ∈ Finset.range cfg.L, sliceAdd sys ph cfg.L f cfg.noHS (effNeqlt cfg it) q l y) +
    if it ≥ cfg.nequil ∧ cfg.nuneqlt > 0 ∧ it.tmod cfg.nuneqlt = 0 then qu (iterMap sys ph cfg.L f g cfg.noHS y).1 else 0

include hf hg

theorem simBody_map [NeZero N] (hok : sys.Ok cfg.prodBlen) (hL : 2 ≤ cfg.L) (hp : cfg.usePhonons = true)
    (hq : AddsPh sys ph rest cfg.L cfg.prodBlen φ q qu) (it : ℤ) (h : PhInv sys ph cfg.L cfg.prodBlen 0 st)
    (hs : simBody sys ph cfg it st = some st') :
    viewPh cfg.L st' = iterMap sys ph cfg.L f g cfg.noHS (viewPh cfg.L st) ∧ PhInv sys ph cfg.L cfg.prodBlen 0 st' ∧
      φ st'.meas = φ st.meas + iterAdd sys ph f g cfg q qu it (viewPh cfg.L st) := by
  have hs' : (phIteration sys ph cfg.noHS (effNeqlt cfg it) st).bind (fun st => measureUneq sys cfg it st) = some st' := by
    unfold simBody at hs
    rw [hp] at hs
    exact hs
  obtain ⟨st1, e1, e2⟩ := Option.bind_eq_some_iff.1 hs'
  obtain ⟨h1, h2, h3⟩ := phIteration_map hf hg hok hL cfg.noHS (effNeqlt cfg it) hq h e1
  unfold iterAdd
  rw [← add_assoc, ← h3]
  unfold measureUneq at e2
  split at e2
  · rename_i hc
    simp only [Option.bind_eq_bind] at e2
    obtain ⟨m, e3, e2⟩ := Option.bind_eq_some_iff.1 e2
    simp only [Option.pure_def, Option.some.injEq] at e2
    rw [if_pos hc, ← e2, ← h1]
    exact ⟨rfl, ⟨⟨h2.inv.up, h2.inv.down⟩, h2.coh⟩, hq.uneq _ _ h2 e3⟩
  · rename_i hc
    rw [if_neg hc, add_zero, ← Option.some.inj e2]
    exact ⟨h1, h2, rfl⟩

theorem runs_map [NeZero N] (hok : sys.Ok cfg.prodBlen) (hL : 2 ≤ cfg.L) (hp : cfg.usePhonons = true)
    (hq : AddsPh sys ph rest cfg.L cfg.prodBlen φ q qu) (it : ℤ) (h : PhInv sys ph cfg.L cfg.prodBlen 0 st) (m : ℕ)
    (hs : runs (simBody sys ph cfg) it m st = some st') :
    viewPh cfg.L st' = (iterMap sys ph cfg.L f g cfg.noHS)^[m] (viewPh cfg.L st) ∧ PhInv sys ph cfg.L cfg.prodBlen 0 st' ∧
      φ st'.meas = φ st.meas + ∑ j ∈ Finset.range m, iterAdd sys ph f g cfg q qu (it + j)
        ((iterMap sys ph cfg.L f g cfg.noHS)^[j] (viewPh cfg.L st)) := by
  induction m generalizing st' with
  | zero =>
    obtain rfl : st = st' := Option.some.inj hs
    rw [Finset.sum_range_zero, add_zero]
    exact ⟨rfl, h, rfl⟩
  | succ m ih =>
    obtain ⟨st1, e1, e2⟩ := Option.bind_eq_some_iff.1 hs
    obtain ⟨h1, h2, h3⟩ := ih e1
    obtain ⟨h4, h5, h6⟩ := simBody_map hf hg hok hL hp hq (it + m) h2 e2
    refine ⟨by rw [h4, h1, Function.iterate_succ_apply'], h5, ?_⟩
    rw [h6, h3, h1, Finset.sum_range_succ, add_assoc]

/-- what a run that is not stopped accumulates -/
theorem simulate_map [NeZero N] (hok : sys.Ok cfg.prodBlen) (hL : 2 ≤ cfg.L) (hd : cfg.prodBlen ∣ cfg.L)
    (hp : cfg.usePhonons = true) (hq : AddsPh sys ph rest cfg.L cfg.prodBlen φ q qu) (y : Conf cfg.L N × σ)
    {s : ℕ → Fin N → Fin 2} {X expX : ℕ → Fin N → ℝ} (hy1 : fieldOf cfg.L s = y.1.1) (hy2 : pathsOf cfg.L X = y.1.2)
    (hE : ∀ l < cfg.L, ∀ i, expX l i = sys.expOf ph X l i) (cnt : Counters) (meas : M) (r : LoopResult (State σ N M))
    (hr : simulate sys ph cfg (fun _ => false) 0 y.2 s X expX cnt meas = some r) :
    viewPh cfg.L r.state = (iterMap sys ph cfg.L f g cfg.noHS)^[(cfg.nequil + cfg.nsampl).toNat] y ∧
    φ r.state.meas = φ meas + ∑ j ∈ Finset.range (cfg.nequil + cfg.nsampl).toNat,
      iterAdd sys ph f g cfg q qu j ((iterMap sys ph cfg.L f g cfg.noHS)^[j] y) := by
  unfold simulate at hr
  simp only [Option.bind_eq_bind] at hr
  obtain ⟨st, e1, hr⟩ := Option.bind_eq_some_iff.1 hr
  have e2 := simLoop_iterations _ _ _ _ _ _ _ hr
  have hi := startState_phInv hok (by omega) hd hp _ _ _ _ _ _ hE _ e1
  obtain ⟨-, f1, f2, f3, -, f4⟩ := startState_frame cfg _ _ _ _ _ _ _ e1
  have hv : viewPh cfg.L st = y := by
    unfold viewPh
    rw [f2, f3, f4, hy1, hy2]
  obtain ⟨h1, -, h3⟩ := runs_map hf hg hok hL hp hq 0 hi _ e2
  rw [iterations_never, sub_zero, hv] at h1 h3
  rw [f1] at h3
  simp only [zero_add] at h3
  exact ⟨h1, h3⟩

end run

/-! ## Averages -/

section limit

variable [MeasurableSpace σ] {P : Measure σ} [NeZero N] {rest : Measure ℝ} [SigmaFinite rest]
  {f : σ → Equiv.Perm (Fin N) × σ} {g : σ → Fin N × σ}

/-- the averages over the iterations of a function of the configuration after the first `k` slices -/
theorem slice_settles {noHS : Bool} (hP : sys.rng.Ideal N P) (hf : Shuffles P f) (hg : Picks P g)
    (hm : Mobile sys ph rest L noHS) [IsFiniteMeasure (confDist sys ph rest L)] (hμ : confDist sys ph rest L ≠ 0)
    {h : Conf L N → ℝ} (hi : Integrable h (confDist sys ph rest L)) (hv : ∀ a x, h (vary sys a x) = h x) {k : ℕ}
    (hk : k ≤ L) :
    Settles ((confDist sys ph rest L).prod P) (iterMap sys ph L f g noHS)
      (fun y => h (slicesMap sys ph L f noHS k y).1)
      ((∫ x, h x ∂confDist sys ph rest L) / (confDist sys ph rest L).real Set.univ) := by
  have := hP.prob
  have e : (globalMap sys ph L g ∘ laterMap sys ph L f noHS k (L - k)) ∘ slicesMap sys ph L f noHS k
      = iterMap sys ph L f g noHS := by
    rw [Function.comp_assoc, laterMap_comp, Nat.add_sub_cancel' hk]
    rfl
  have hs := settles_integrable (P := P) (fun a => vary_preserves (sys := sys) (ph := ph) (rest := rest) (L := L) a)
    vary_vary (slicesMap_step hP hf noHS hk)
    ((laterMap_step hP hf noHS (k := k) (n := L - k) (by omega)).comp (globalMap_step hP hg)) (fun h hh hl => by
      rw [e] at hl
      exact constant_link hm hP hf (globalMap_step hP hg) h hh hl) hμ hi hv
  rw [e] at hs
  exact hs

/-- the averages over every `n`th iteration of a function of the configuration at its end -/
theorem sweep_settles {noHS : Bool} (hP : sys.rng.Ideal N P) (hf : Shuffles P f) (hg : Picks P g)
    (hm : Mobile sys ph rest L noHS) [IsFiniteMeasure (confDist sys ph rest L)] (hμ : confDist sys ph rest L ≠ 0)
    {h : Conf L N → ℝ} (hi : Integrable h (confDist sys ph rest L)) (hv : ∀ a x, h (vary sys a x) = h x) {n : ℕ}
    (hn : 0 < n) :
    Settles ((confDist sys ph rest L).prod P) (iterMap sys ph L f g noHS)^[n]
      (fun y => h (iterMap sys ph L f g noHS y).1)
      ((∫ x, h x ∂confDist sys ph rest L) / (confDist sys ph rest L).real Set.univ) := by
  have := hP.prob
  have s1 := iterMap_step (ph := ph) (rest := rest) (L := L) hP hf hg noHS
  have e : (iterMap sys ph L f g noHS)^[n - 1] ∘ iterMap sys ph L f g noHS = (iterMap sys ph L f g noHS)^[n] := by
    rw [← Function.iterate_succ]
    congr 1
    omega
  have hs := settles_integrable (P := P) (fun a => vary_preserves (sys := sys) (ph := ph) (rest := rest) (L := L) a)
    vary_vary s1 (s1.iterate (n - 1)) (fun h hh hl => by
      refine constant_link (noHS := noHS) (T := (iterMap sys ph L f g noHS)^[n - 1] ∘ globalMap sys ph L g) hm hP hf
        ((globalMap_step hP hg).comp (s1.iterate (n - 1))) h hh ?_
      exact hl) hμ hi hv
  rw [e] at hs
  exact hs

/-! ## Starts -/

/-- initial configurations `ρ ω` of runs with their arrays, where `ω` is random with distribution `ν`: sets of
configurations without weight have probability zero -/
structure Start {Ω : Type} [MeasurableSpace Ω] (sys : Sys σ N M) (ph : Phonon) (rest : Measure ℝ) (L : ℕ) (P : Measure σ)
    (ν : Measure Ω) (ρ : Ω → Conf L N × σ) (s : Ω → ℕ → Fin N → Fin 2) (X expX : Ω → ℕ → Fin N → ℝ) : Prop where
  quasi : Measure.QuasiMeasurePreserving ρ ν ((confDist sys ph rest L).prod P)
  field : ∀ ω, fieldOf L (s ω) = (ρ ω).1.1
  paths : ∀ ω, pathsOf L (X ω) = (ρ ω).1.2
  exps : ∀ ω, ∀ l < L, ∀ i, expX ω l i = sys.expOf ph (X ω) l i

omit [NeZero N] [SigmaFinite rest] in
/-- the initial configuration is distributed according to the weights -/
theorem start_stationary : Start sys ph rest L P ((confDist sys ph rest L).prod P) id (fun y => Fock.extend y.1.1)
    (fun y => extendX y.1.2) fun y => sys.expOf ph (extendX y.1.2) :=
  ⟨Measure.QuasiMeasurePreserving.id _, fun _ => fieldOf_extend _, fun _ => pathsOf_extendX _, fun _ _ _ _ => rfl⟩

/-- convergence in probability for random initial configurations -/
theorem inMeasure_start {Ω Y : Type} [MeasurableSpace Ω] [MeasurableSpace Y] {ν : Measure Ω} [IsFiniteMeasure ν]
    {μ : Measure Y} [IsFiniteMeasure μ] {ρ : Ω → Y} (hρ : Measure.QuasiMeasurePreserving ρ ν μ) {F : ℕ → Y → ℝ} {c : ℝ}
    (h : TendstoInMeasure μ F atTop fun _ => c) : TendstoInMeasure ν (fun n ω => F n (ρ ω)) atTop fun _ => c := by
  have h1 := inMeasure_of_ac (ν := ν.map ρ) hρ.absolutelyContinuous h
  intro ε hε
  refine tendsto_of_tendsto_of_tendsto_of_le_of_le tendsto_const_nhds (h1 ε hε) (fun n => zero_le) fun n => ?_
  exact Measure.le_map_apply (μ := ν) hρ.measurable.aemeasurable {y | ε ≤ edist (F n y) c}

variable {Ω : Type} [MeasurableSpace Ω] {ν : Measure Ω} [IsFiniteMeasure ν]

/-! ## Equal times -/

/-- number of the measurements at equal times in an iteration -/
def eqTimes (L neqlt : ℕ) : ℕ := ((Finset.range L).filter fun l => neqlt > 0 ∧ (l + 1) % neqlt = 0).card

variable {cfg : Cfg} {φ : M → ℝ}

/-- C105: what the measurements at equal times accumulate in the iterations, on average -/
theorem equal_limit (hP : sys.rng.Ideal N P) (hok : sys.Ok cfg.prodBlen) (hL : 2 ≤ cfg.L) (hd : cfg.prodBlen ∣ cfg.L)
    (hp : cfg.usePhonons = true) (hnq : 0 ≤ cfg.nequil) (hm : Mobile sys ph rest cfg.L cfg.noHS)
    [IsFiniteMeasure (confDist sys ph rest cfg.L)] (hμ : confDist sys ph rest cfg.L ≠ 0)
    {q : ℕ → Conf cfg.L N → ℝ} (hq : AddsPh sys ph rest cfg.L cfg.prodBlen φ q fun _ => 0)
    (hv : ∀ l < cfg.L, ∀ a x, q l (vary sys a x) = q l x) {a : ℝ}
    (ha : ∀ l < cfg.L, ∫ x, q l x ∂confDist sys ph rest cfg.L = a) (cnt : Counters) (meas : ℕ → M)
    (hφ : ∀ n, φ (meas n) = 0) {ρ : Ω → Conf cfg.L N × σ} {s : Ω → ℕ → Fin N → Fin 2} {X expX : Ω → ℕ → Fin N → ℝ}
    (hst : Start sys ph rest cfg.L P ν ρ s X expX) (R : ℕ → Ω → LoopResult (State σ N M))
    (hR : ∀ n : ℕ, ∀ᵐ ω ∂ν, simulate sys ph { cfg with nsampl := n } (fun _ => false) 0 (ρ ω).2 (s ω) (X ω) (expX ω) cnt
      (meas n) = some (R n ω)) :
    TendstoInMeasure ν (fun (n : ℕ) ω => (n : ℝ)⁻¹ * φ (R n ω).state.meas) atTop
      fun _ => eqTimes cfg.L cfg.neqlt.toNat * (a / (confDist sys ph rest cfg.L).real Set.univ) := by
  have := hP.prob
  obtain ⟨f, hf, ef⟩ := hP.shuffle
  obtain ⟨g, hg, eg⟩ := hP.site
  set T := iterMap sys ph cfg.L f g cfg.noHS with hT
  have sT := iterMap_step (ph := ph) (rest := rest) (L := cfg.L) hP hf hg cfg.noHS
  set F : Conf cfg.L N × σ → ℝ := fun y => ∑ l ∈ Finset.range cfg.L,
    sliceAdd sys ph cfg.L f cfg.noHS cfg.neqlt.toNat q l y with hF
  have hmeas : ∀ l ∈ Finset.range cfg.L, AEStronglyMeasurable (sliceAdd sys ph cfg.L f cfg.noHS cfg.neqlt.toNat q l)
      ((confDist sys ph rest cfg.L).prod P) := by
    intro l hl
    unfold sliceAdd
    split
    · have s1 := slicesMap_step (ph := ph) (rest := rest) (L := cfg.L) hP hf cfg.noHS (k := l + 1)
        (Finset.mem_range.1 hl)
      exact ((hq.intEq l (Finset.mem_range.1 hl)).comp_fst P).1.comp_measurePreserving s1.mp
    · exact aestronglyMeasurable_const
  have hset : Settles ((confDist sys ph rest cfg.L).prod P) T F
      (eqTimes cfg.L cfg.neqlt.toNat * (a / (confDist sys ph rest cfg.L).real Set.univ)) := by
    have e : (eqTimes cfg.L cfg.neqlt.toNat : ℝ) * (a / (confDist sys ph rest cfg.L).real Set.univ)
        = ∑ l ∈ Finset.range cfg.L, if cfg.neqlt.toNat > 0 ∧ (l + 1) % cfg.neqlt.toNat = 0
          then a / (confDist sys ph rest cfg.L).real Set.univ else 0 := by
      rw [← Finset.sum_filter, Finset.sum_const, nsmul_eq_mul]
      rfl
    rw [e]
    refine Settles.sum sT.mp _ hmeas fun l hl => ?_
    have hl := Finset.mem_range.1 hl
    unfold sliceAdd
    split
    · rw [← ha l hl]
      exact slice_settles hP hf hg hm hμ (hq.intEq l hl) (hv l hl) hl
    · exact settles_zero T
  have hFm : AEStronglyMeasurable F ((confDist sys ph rest cfg.L).prod P) :=
    Finset.aestronglyMeasurable_fun_sum _ hmeas
  refine (inMeasure_start hst.quasi (hset.inMeasure sT.mp (sT.mp.iterate cfg.nequil.toNat) hFm)).congr (fun n => ?_)
    (ae_eq_refl _)
  filter_upwards [hR n] with ω hy
  obtain ⟨-, h2⟩ := simulate_map (cfg := { cfg with nsampl := n }) ef eg hok hL hd hp hq (ρ ω)
    (hst.field ω) (hst.paths ω) (hst.exps ω) cnt (meas n) (R n ω) hy
  rw [h2, hφ, zero_add]
  unfold avg
  congr 1
  have hiter : ∀ (j : ℕ) (z : Conf cfg.L N × σ), iterAdd sys ph f g { cfg with nsampl := n } q (fun _ => 0) j z
      = if cfg.nequil.toNat ≤ j then F z else 0 := by
    intro j z
    unfold iterAdd
    simp only [ite_self, add_zero]
    have e : effNeqlt { cfg with nsampl := n } j = if cfg.nequil.toNat ≤ j then cfg.neqlt.toNat else 0 := by
      unfold effNeqlt
      by_cases h : cfg.nequil.toNat ≤ j
      · rw [if_pos h, if_pos (by show (j : ℤ) ≥ cfg.nequil; omega)]
      · rw [if_neg h, if_neg (by show ¬ (j : ℤ) ≥ cfg.nequil; omega)]
        rfl
    rw [e]
    split
    · rfl
    · refine Finset.sum_eq_zero fun l _ => ?_
      unfold sliceAdd
      rw [if_neg]
      rintro ⟨h, -⟩
      exact absurd h (lt_irrefl 0)
  simp only [hiter]
  rw [show ((cfg.nequil + (n : ℤ)).toNat) = cfg.nequil.toNat + n by omega, Finset.sum_range_add,
    Finset.sum_eq_zero (s := Finset.range cfg.nequil.toNat), zero_add]
  · refine Finset.sum_congr rfl fun k _ => ?_
    rw [if_pos (Nat.le_add_right _ _), ← Function.iterate_add_apply, add_comm k]
  · intro j hj
    rw [if_neg (by have := Finset.mem_range.1 hj; omega)]

/-! ## Unequal times -/

/-- number of the multiples of `d` from `e` to `e + n - 1` -/
def multiples (e d n : ℕ) : ℕ := (e + n + d - 1) / d - (e + d - 1) / d

theorem sum_multiples (h : ℕ → ℝ) (e d n : ℕ) (hd : 0 < d) :
    ∑ j ∈ Finset.range (e + n), (if e ≤ j ∧ j % d = 0 then h j else 0)
      = ∑ k ∈ Finset.range (multiples e d n), h (d * ((e + d - 1) / d + k)) := by
  rw [← Finset.sum_filter]
  symm
  refine Finset.sum_nbij' (fun k => d * ((e + d - 1) / d + k)) (fun j => j / d - (e + d - 1) / d) ?_ ?_ ?_ ?_ ?_
  · intro k hk
    have hk := Finset.mem_range.1 hk
    unfold multiples at hk
    rw [Finset.mem_filter, Finset.mem_range]
    have h1 := Nat.div_add_mod (e + d - 1) d
    have h2 := Nat.mod_lt (e + d - 1) hd
    have h3 : (e + d - 1) / d + k + 1 ≤ (e + n + d - 1) / d := by omega
    have h4 := (Nat.le_div_iff_mul_le hd).1 h3
    refine ⟨?_, ?_, Nat.mul_mod_right _ _⟩
    · have e1 : d * ((e + d - 1) / d + k) + d = ((e + d - 1) / d + k + 1) * d := by ring
      omega
    · rw [Nat.mul_add]
      have := Nat.zero_le (d * k)
      omega
  · intro j hj
    rw [Finset.mem_filter, Finset.mem_range] at hj
    obtain ⟨h1, h2, h3⟩ := hj
    rw [Finset.mem_range]
    unfold multiples
    have h4 : (e + d - 1) / d ≤ j / d := by
      have e1 := Nat.div_add_mod j d
      rw [h3, add_zero] at e1
      refine Nat.le_of_lt_succ ((Nat.div_lt_iff_lt_mul hd).2 ?_)
      rw [Nat.succ_mul, mul_comm (j / d), e1]
      omega
    have h5 : j / d + 1 ≤ (e + n + d - 1) / d := by
      rw [Nat.le_div_iff_mul_le hd, Nat.succ_mul, mul_comm (j / d)]
      have e1 := Nat.div_add_mod j d
      omega
    omega
  · intro k hk
    rw [Nat.mul_div_cancel_left _ hd]
    omega
  · intro j hj
    rw [Finset.mem_filter, Finset.mem_range] at hj
    obtain ⟨h1, h2, h3⟩ := hj
    have e1 := Nat.div_add_mod j d
    have h4 : (e + d - 1) / d ≤ j / d := by
      refine Nat.le_of_lt_succ ((Nat.div_lt_iff_lt_mul hd).2 ?_)
      rw [Nat.succ_mul, mul_comm (j / d)]
      omega
    rw [Nat.add_sub_cancel' h4]
    omega
  · intro k hk
    rfl

theorem multiples_tendsto (e d : ℕ) (hd : 0 < d) : Tendsto (multiples e d) atTop atTop := by
  refine tendsto_atTop.2 fun b => ?_
  filter_upwards [eventually_ge_atTop (d * (b + 1))] with n hn
  unfold multiples
  have h1 : (e + d - 1) / d + b ≤ (e + n + d - 1) / d := by
    rw [Nat.le_div_iff_mul_le hd, Nat.add_mul]
    have h2 := Nat.div_mul_le_self (e + d - 1) d
    have h3 : d * (b + 1) = b * d + d := by ring
    omega
  omega

/-- C105: what the measurements at unequal times accumulate, on average -/
theorem unequal_limit (hP : sys.rng.Ideal N P) (hok : sys.Ok cfg.prodBlen) (hL : 2 ≤ cfg.L) (hd : cfg.prodBlen ∣ cfg.L)
    (hp : cfg.usePhonons = true) (hnq : 0 ≤ cfg.nequil) (hnu : 0 < cfg.nuneqlt)
    (hm : Mobile sys ph rest cfg.L cfg.noHS)
    [IsFiniteMeasure (confDist sys ph rest cfg.L)] (hμ : confDist sys ph rest cfg.L ≠ 0)
    {qu : Conf cfg.L N → ℝ} (hq : AddsPh sys ph rest cfg.L cfg.prodBlen φ (fun _ _ => 0) qu)
    (hv : ∀ a x, qu (vary sys a x) = qu x) (cnt : Counters) (meas : ℕ → M)
    (hφ : ∀ n, φ (meas n) = 0) {ρ : Ω → Conf cfg.L N × σ} {s : Ω → ℕ → Fin N → Fin 2} {X expX : Ω → ℕ → Fin N → ℝ}
    (hst : Start sys ph rest cfg.L P ν ρ s X expX) (R : ℕ → Ω → LoopResult (State σ N M))
    (hR : ∀ n : ℕ, ∀ᵐ ω ∂ν, simulate sys ph { cfg with nsampl := n } (fun _ => false) 0 (ρ ω).2 (s ω) (X ω) (expX ω) cnt
      (meas n) = some (R n ω)) :
    TendstoInMeasure ν
      (fun n ω => (multiples cfg.nequil.toNat cfg.nuneqlt.toNat n : ℝ)⁻¹ * φ (R n ω).state.meas) atTop
      fun _ => (∫ x, qu x ∂confDist sys ph rest cfg.L) / (confDist sys ph rest cfg.L).real Set.univ := by
  have := hP.prob
  obtain ⟨f, hf, ef⟩ := hP.shuffle
  obtain ⟨g, hg, eg⟩ := hP.site
  set T := iterMap sys ph cfg.L f g cfg.noHS with hT
  have sT := iterMap_step (ph := ph) (rest := rest) (L := cfg.L) hP hf hg cfg.noHS
  obtain ⟨d, hd1, hd2⟩ : ∃ d : ℕ, 0 < d ∧ cfg.nuneqlt = d := ⟨cfg.nuneqlt.toNat, by omega, by omega⟩
  rw [hd2, Int.toNat_natCast]
  set e := cfg.nequil.toNat with he
  have hset := sweep_settles (n := d) hP hf hg hm hμ hq.intUneq hv hd1
  have hFm : AEStronglyMeasurable (fun y => qu (T y).1) ((confDist sys ph rest cfg.L).prod P) :=
    (hq.intUneq.comp_fst P).1.comp_measurePreserving sT.mp
  have h1 := hset.inMeasure (sT.mp.iterate d) (sT.mp.iterate (d * ((e + d - 1) / d))) hFm
  have h2 : TendstoInMeasure ((confDist sys ph rest cfg.L).prod P) (fun n y => avg T^[d] (fun y => qu (T y).1)
      (multiples e d n) (T^[d * ((e + d - 1) / d)] y)) atTop
      fun _ => (∫ x, qu x ∂confDist sys ph rest cfg.L) / (confDist sys ph rest cfg.L).real Set.univ :=
    fun ε hε => (h1 ε hε).comp (multiples_tendsto e d hd1)
  refine (inMeasure_start hst.quasi h2).congr (fun n => ?_) (ae_eq_refl _)
  filter_upwards [hR n] with ω hy
  obtain ⟨-, h3⟩ := simulate_map (cfg := { cfg with nsampl := n }) ef eg hok hL hd hp hq (ρ ω)
    (hst.field ω) (hst.paths ω) (hst.exps ω) cnt (meas n) (R n ω) hy
  rw [h3, hφ, zero_add]
  unfold avg
  congr 1
  have hiter : ∀ (j : ℕ) (z : Conf cfg.L N × σ), iterAdd sys ph f g { cfg with nsampl := n } (fun _ _ => 0) qu j z
      = if e ≤ j ∧ j % d = 0 then qu (T z).1 else 0 := by
    intro j z
    unfold iterAdd sliceAdd
    simp only [ite_self, Finset.sum_const_zero, zero_add, hd2]
    refine if_congr ?_ rfl rfl
    rw [Int.tmod_eq_emod_of_nonneg (by omega), ← Int.natCast_mod]
    omega
  simp only [hiter]
  rw [show ((cfg.nequil + (n : ℤ)).toNat) = e + n by omega, sum_multiples (fun j => qu (T (T^[j] (ρ ω))).1) e d n
    hd1]
  refine Finset.sum_congr rfl fun k _ => ?_
  rw [← Function.iterate_mul, ← Function.iterate_add_apply]
  congr 4
  ring

end limit

end Verif.MonteCarlo
