import Verif.Props.RoundedPhTies

/-! # Property C123, fifth part: whole runs with phonons in rounded arithmetic -/

set_option autoImplicit false

namespace Verif.Rounded.Ph

open MeasureTheory Filter Topology Matrix Verif.Lapack Verif.TimeFlow Verif.Greens Verif.Stratonovich Verif.MonteCarlo Verif.Ultra
  Verif.Metropolis

variable {N : ℕ} {σ : Type} {M : Type}

/-! ## Rounded operations that follow exact ones -/

/-- a notion of convergence that may depend on the platforms -/
abbrev Conv (N : ℕ) (M α : Type) : Type := Ultrafilter ℕ → (ℕ → Comp N M) → (ℕ → α) → α → Prop

/-- convergence of states before or inside slice `l` -/
def At (mlim : Ultrafilter ℕ → (ℕ → M) → M → Prop) (L len l : ℕ) : Conv N M (State σ N M) := fun U c => StLim U mlim L len c l

/-- convergence of results: the loops have ended in the same way -/
def ResLim (mlim : Ultrafilter ℕ → (ℕ → M) → M → Prop) (L len : ℕ) : Conv N M (LoopResult (State σ N M)) := fun U c rt r =>
  (∀ᶠ t in (U : Filter ℕ), (rt t).iteration = r.iteration ∧ (rt t).prog = r.prog ∧ (rt t).broke = r.broke) ∧
  StLim U mlim L len c 0 (fun t => (rt t).state) r.state

variable {mlim : Ultrafilter ℕ → (ℕ → M) → M → Prop} {sys : Sys σ N M} {ph : Phonon} {rest : Measure ℝ} [SigmaFinite rest] {L len l k : ℕ}
  {q : Prop} {α β γ : Type}

/-- on any sequence of platforms that become accurate the results of the rounded operation converge -/
def Follows (mlim : Ultrafilter ℕ → (ℕ → M) → M → Prop) (sys : Sys σ N M) (L len k : ℕ) (q : Prop) (A : Conv N M α) (B : Conv N M β)
    (fr : Comp N M → α → Option β) (a : α) (b : β) : Prop :=
  ∀ (U : Ultrafilter ℕ) (u : ℕ → ℝ) (c : ℕ → Comp N M), Ctx U mlim sys L len k q u c → ∀ at', A U c at' a →
    ∃ bt, (∀ᶠ t in (U : Filter ℕ), fr (c t) (at' t) = some (bt t)) ∧ B U c bt b

theorem Follows.comp {A : Conv N M α} {B : Conv N M β} {C : Conv N M γ} {fr : Comp N M → α → Option β} {gr : Comp N M → β → Option γ}
    {a : α} {b : β} {d : γ} (hf : Follows mlim sys L len k q A B fr a b) (hg : Follows mlim sys L len k q B C gr b d) :
    Follows mlim sys L len k q A C (fun c x => (fr c x).bind (gr c)) a d := by
  intro U u c hc at' ha
  obtain ⟨bt, e1, hb⟩ := hf U u c hc at' ha
  obtain ⟨dt, e2, hd⟩ := hg U u c hc bt hb
  refine ⟨dt, ?_, hd⟩
  filter_upwards [e1, e2] with t x y
  rw [x]
  exact y

/-- almost surely the operation is defined and the rounded one follows it; it changes the configuration by a map that preserves the measure -/
def AeF (mlim : Ultrafilter ℕ → (ℕ → M) → M → Prop) (sys : Sys σ N M) (L len k : ℕ) (q : Prop) {Y : Type} [MeasurableSpace Y] (μ : Measure Y)
    (v : α → Y) (I : α → Prop) (A : Conv N M α) (v' : β → Y) (I' : β → Prop) (B : Conv N M β)
    (f : α → Option β) (fr : Comp N M → α → Option β) : Prop :=
  ∃ G : Y → Y, MeasurePreserving G μ μ ∧
    ∀ᵐ y ∂μ, ∀ a, v a = y → I a → ∃ b, f a = some b ∧ v' b = G y ∧ I' b ∧ Follows mlim sys L len k q A B fr a b

section ae

variable {Y : Type} [MeasurableSpace Y] {μ : Measure Y} {v : α → Y} {I : α → Prop} {v' : β → Y} {I' : β → Prop} {v'' : γ → Y} {I'' : γ → Prop}
  {A : Conv N M α} {B : Conv N M β} {C : Conv N M γ}

theorem AeF.of_ae {f : α → Option β} {fr : Comp N M → α → Option β} (hf : Ae μ v I v' I' f)
    (h : ∀ᵐ y ∂μ, ∀ a b, v a = y → I a → f a = some b → Follows mlim sys L len k q A B fr a b) :
    AeF mlim sys L len k q μ v I A v' I' B f fr := by
  obtain ⟨G, hG, h1⟩ := hf
  refine ⟨G, hG, ?_⟩
  filter_upwards [h1, h] with y h1 h2 a hv hi
  obtain ⟨b, e1, e2, e3⟩ := h1 a hv hi
  exact ⟨b, e1, e2, e3, h2 a b hv hi e1⟩

theorem AeF.comp {f : α → Option β} {g : β → Option γ} {fr : Comp N M → α → Option β} {gr : Comp N M → β → Option γ}
    (hf : AeF mlim sys L len k q μ v I A v' I' B f fr) (hg : AeF mlim sys L len k q μ v' I' B v'' I'' C g gr) :
    AeF mlim sys L len k q μ v I A v'' I'' C (fun a => (f a).bind g) fun c a => (fr c a).bind (gr c) := by
  obtain ⟨F, hF, h1⟩ := hf
  obtain ⟨G, hG, h2⟩ := hg
  refine ⟨G ∘ F, hG.comp hF, ?_⟩
  filter_upwards [h1, hF.quasiMeasurePreserving.ae h2] with y h1 h2 a hv hi
  obtain ⟨b, e1, e2, e3, e⟩ := h1 a hv hi
  obtain ⟨c, e4, e5, e6, e'⟩ := h2 b e2 e3
  exact ⟨c, by rw [e1]; exact e4, e5, e6, e.comp e'⟩

theorem AeF.congr {f g : α → Option β} {fr gr : Comp N M → α → Option β} (hf : AeF mlim sys L len k q μ v I A v' I' B f fr)
    (h : ∀ a, I a → f a = g a) (hr : ∀ a b, I a → Follows mlim sys L len k q A B fr a b → Follows mlim sys L len k q A B gr a b) :
    AeF mlim sys L len k q μ v I A v' I' B g gr := by
  obtain ⟨F, hF, h1⟩ := hf
  refine ⟨F, hF, ?_⟩
  filter_upwards [h1] with y h1 a hv hi
  rw [← h a hi]
  obtain ⟨b, e1, e2, e3, e4⟩ := h1 a hv hi
  exact ⟨b, e1, e2, e3, hr a b hi e4⟩

theorem AeF.mono {J : α → Prop} {J' : β → Prop} {f : α → Option β} {fr : Comp N M → α → Option β}
    (hf : AeF mlim sys L len k q μ v I A v' I' B f fr) (h : ∀ a, J a → I a) (h' : ∀ b, I' b → J' b) :
    AeF mlim sys L len k q μ v J A v' J' B f fr := by
  obtain ⟨F, hF, h1⟩ := hf
  refine ⟨F, hF, ?_⟩
  filter_upwards [h1] with y h1 a hv hi
  obtain ⟨b, e1, e2, e3, e4⟩ := h1 a hv (h a hi)
  exact ⟨b, e1, e2, h' b e3, e4⟩

theorem AeF.still {f : α → Option β} {fr : Comp N M → α → Option β}
    (h : ∀ a, I a → ∃ b, f a = some b ∧ v' b = v a ∧ I' b ∧ Follows mlim sys L len k q A B fr a b) :
    AeF mlim sys L len k q μ v I A v' I' B f fr :=
  ⟨id, MeasurePreserving.id _, Filter.Eventually.of_forall fun y a hv hi => by
    obtain ⟨b, e1, e2, e3, e4⟩ := h a hi
    exact ⟨b, e1, e2.trans hv, e3, e4⟩⟩

theorem Follows.refl (a : α) : Follows mlim sys L len k q A A (fun _ x => some x) a a :=
  fun _ _ _ _ at' ha => ⟨at', Eventually.of_forall fun _ => rfl, ha⟩

theorem AeF.iterate {f : α → Option α} {fr : Comp N M → α → Option α} (hf : AeF mlim sys L len k q μ v I A v I A f fr) (n : ℕ) :
    AeF mlim sys L len k q μ v I A v I A (iterateM f n) fun c => iterateM (fr c) n := by
  induction n with
  | zero => exact AeF.still fun a hi => ⟨a, rfl, rfl, hi, Follows.refl a⟩
  | succ n ih => exact hf.comp ih

end ae

/-! ## The parts of a run -/

section run

variable [MeasurableSpace σ] {P : Measure σ} {Q : ℕ → M → Prop} {cfg : Cfg}

theorem hsFree_ae (hP : sys.rng.Ideal N P) (hl : l < L) :
    ∀ᵐ y ∂(confDist sys ph rest L).prod P, ∀ order r, sys.rng.shuffle N y.2 = some (order, r) →
      Free (fun i => MapTie sys ph L (flipConf l i)) (fun y i => mapStep sys ph L (flipConf l i) y) order (y.1, r) := by
  have := hP.prob
  obtain ⟨f, hf, e⟩ := hP.shuffle
  have h := free_ae (μ := (confDist sys ph rest L).prod P) (fun i => MapTie sys ph L (flipConf l i))
    (fun y i => mapStep sys ph L (flipConf l i) y) (fun i => flipConf_step hP hl i) fun i => mapTie_ae hP _ (by
      exact ((count_involution _ (flipAt_flipAt hl i)).measurable.comp measurable_fst).prodMk measurable_snd)
  filter_upwards [(after_choice (sys := sys) (ph := ph) (rest := rest) (L := L) f hf).quasiMeasurePreserving.ae h] with y hy order r hs
  rw [e] at hs
  obtain ⟨-, rfl⟩ := Prod.mk.inj (Option.some.inj hs)
  exact hy order

theorem localFree_ae (hP : sys.rng.Ideal N P) (l : ℕ) :
    ∀ᵐ y ∂(confDist sys ph rest L).prod P, ∀ order sites r, sys.rng.shuffle N y.2 = some (order, r) → localOrder order ph.nLocal = some sites →
      Free (LocalTie sys ph L l) (localStep sys ph L l) sites (y.1, r) := by
  have := hP.prob
  obtain ⟨f, hf, e⟩ := hP.shuffle
  have h := free_ae (μ := (confDist sys ph rest L).prod P) (LocalTie sys ph L l) (localStep sys ph L l) (fun i => localStep_preserves hP l i)
    fun i => (shiftTie_ae hP _ (spike_measurable l i ph.localBox)).mono fun y hy ht => hy ht.2
  filter_upwards [(after_choice (sys := sys) (ph := ph) (rest := rest) (L := L) f hf).quasiMeasurePreserving.ae h] with y hy order sites r hs _
  rw [e] at hs
  obtain ⟨-, rfl⟩ := Prod.mk.inj (Option.some.inj hs)
  exact hy sites

/-- C123: a time slice in rounded arithmetic follows the exact one almost surely -/
theorem phTimeSlice_aeF [NeZero N] (hP : sys.rng.Ideal N P) (hok : sys.Ok len) (hdt : ph.dt ≠ 0) (hL : 2 ≤ L) (hl : l < L)
    (noHS : Bool) (neqlt n : ℕ) (hQ : Budget sys L Q) :
    AeF mlim sys L len k q ((confDist sys ph rest L).prod P) (viewPh L) (Ready sys ph L len Q l (n + hit neqlt l)) (At mlim L len l) (viewPh L)
      (Ready sys ph L len Q (l + 1) n) (At mlim L len (l + 1)) (fun st => MonteCarlo.phTimeSlice sys ph noHS neqlt st l)
      fun c st => phTimeSlice c sys ph noHS neqlt st l := by
  refine AeF.of_ae (phTimeSlice_ae hP hok hL hl noHS neqlt n hQ) ?_
  obtain ⟨F1, hF1, hv1⟩ := hsSlice_viewPh (ph := ph) (rest := rest) (L := L) (l := l) hP hok hl
  have hF : MeasurePreserving (if noHS then id else F1) ((confDist sys ph rest L).prod P) ((confDist sys ph rest L).prod P) := by
    split
    exacts [MeasurePreserving.id _, hF1]
  filter_upwards [hsFree_ae (sys := sys) (ph := ph) (rest := rest) hP hl,
    hF.quasiMeasurePreserving.ae (localFree_ae (sys := sys) (ph := ph) (rest := rest) hP l)] with y y1 y2 a b hv hi hb U u c hc at' ha
  obtain ⟨st1, st2, e1, hm, hm1, -, e2, -, hi3, e3⟩ := phTimeSlice_split hok hl noHS neqlt hi.1 hb
  have hm2 := (hm1.localSlice hok hl e2).1
  have w := wrap_stLim hc ha hl
  have h1 : viewPh L st1 = (if noHS then id else F1) y := by
    rw [← hv]
    cases noHS
    · exact hv1 (MonteCarlo.wrap l a) st1 hm e1
    · rw [← Option.some.inj e1]
      rfl
  obtain ⟨b1, r1, l1⟩ : ∃ bt, (∀ᶠ t in (U : Filter ℕ), (if noHS then some (wrap (c t) l (at' t)) else hsSlice (c t) sys l (wrap (c t) l (at' t))) =
      some (bt t)) ∧ StLim U mlim L len c l bt st1 := by
    cases noHS
    · simp only [Bool.false_eq_true, if_false] at e1 ⊢
      refine hsSlice_stLim hc hok hl w hm e1 ?_
      rw [← hv] at y1
      exact y1
    · simp only [if_true] at e1 ⊢
      rw [← Option.some.inj e1]
      exact ⟨_, Eventually.of_forall fun _ => rfl, w⟩
  obtain ⟨b2, r2, l2⟩ := localSlice_stLim hc hdt hok hL hl l1 hm1 e2 (by
    rw [← h1] at y2
    exact y2)
  have l3 := updatePhB_stLim hc l2 hl hm2
  obtain ⟨b4, r4, l4⟩ := maybeRecompute_stLim hc hok l3 hi3
  obtain ⟨b5, r5, l5⟩ := measurePh_stLim hc l4 hl e3
  refine ⟨b5, ?_, l5⟩
  filter_upwards [r1, r2, r4, r5] with t x1 x2 x4 x5
  unfold phTimeSlice
  cases noHS
  · simp only [Option.bind_eq_bind, Bool.false_eq_true, if_false] at x1 ⊢
    rw [x1, Option.bind_some, x2, Option.bind_some, x4, Option.bind_some, x5]
  · simp only [Option.bind_eq_bind, if_true] at x1 ⊢
    rw [x1, Option.bind_some, x2, Option.bind_some, x4, Option.bind_some, x5]

theorem phSlices_aeF [NeZero N] (hP : sys.rng.Ideal N P) (hok : sys.Ok len) (hdt : ph.dt ≠ 0) (hL : 2 ≤ L)
    (noHS : Bool) (neqlt n : ℕ) (hQ : Budget sys L Q) (j : ℕ) (hj : j ≤ L) :
    AeF mlim sys L len k q ((confDist sys ph rest L).prod P) (viewPh L)
      (Ready sys ph L len Q 0 (n + ((List.range j).map (hit neqlt)).sum)) (At mlim L len 0) (viewPh L)
      (Ready sys ph L len Q j n) (At mlim L len j) (fun st => (List.range j).foldlM (MonteCarlo.phTimeSlice sys ph noHS neqlt) st)
      fun c st => (List.range j).foldlM (phTimeSlice c sys ph noHS neqlt) st := by
  have hsplit : ∀ (f : State σ N M → ℕ → Option (State σ N M)) (j : ℕ) (st : State σ N M),
      (((List.range j).foldlM f st).bind fun st => f st j) = (List.range (j + 1)).foldlM f st := by
    intro f j st
    rw [List.range_succ, List.foldlM_append]
    show _ = Option.bind _ _
    congr 1
    funext st1
    rw [List.foldlM_cons]
    show _ = Option.bind (f st1 j) fun x => some x
    cases f st1 j <;> rfl
  induction j generalizing n with
  | zero => exact AeF.still fun st hi => ⟨st, rfl, rfl, hi, Follows.refl st⟩
  | succ j ih =>
    refine (((ih (n + hit neqlt j) (by omega)).comp
      (phTimeSlice_aeF hP hok hdt hL (show j < L by omega) noHS neqlt n hQ)).mono (fun st hi => ?_) fun _ hi => hi).congr
      (fun st _ => hsplit _ _ _) fun a b _ h => ?_
    · rw [List.range_succ, List.map_append, List.sum_append] at hi
      simp only [List.map_cons, List.map_nil, List.sum_cons, List.sum_nil, add_zero] at hi
      rw [add_assoc, add_comm (hit neqlt j)]
      exact hi
    · have : (fun (c : Comp N M) (st : State σ N M) => (List.range (j + 1)).foldlM (phTimeSlice c sys ph noHS neqlt) st)
          = fun c st => ((List.range j).foldlM (phTimeSlice c sys ph noHS neqlt) st).bind fun st => phTimeSlice c sys ph noHS neqlt st j :=
        funext fun c => funext fun st => (hsplit _ _ _).symm
      rw [this]
      exact h

theorem blockUpdate_aeF [NeZero N] (hP : sys.rng.Ideal N P) (hok : sys.Ok len) (hL : 2 ≤ L) (n : ℕ) :
    AeF mlim sys L len k q ((confDist sys ph rest L).prod P) (viewPh L) (Ready sys ph L len Q 0 n) (At mlim L len 0) (viewPh L)
      (Ready sys ph L len Q 0 n) (At mlim L len 0) (MonteCarlo.blockUpdate sys ph) fun c => blockUpdate c sys ph := by
  have := hP.prob
  have hL0 : 0 < L := by omega
  obtain ⟨F1, hF1, hv1⟩ := block_viewPh (ph := ph) (rest := rest) (L := L) hP hok
  obtain ⟨f, hf, e⟩ := hP.site
  have hties : ∀ᵐ y ∂(confDist sys ph rest L).prod P, ∀ i, ¬ ShiftTie sys ph L (fun u => column i ((u - 0.5) * ph.blockBox)) y :=
    ae_all_iff.2 fun i => shiftTie_ae hP _ (column_measurable i _)
  refine AeF.of_ae ⟨F1, hF1, ?_⟩ ?_
  · filter_upwards [block_ae (sys := sys) (ph := ph) (rest := rest) (L := L) (len := len) hP (by omega)] with y hy st hv hi
    obtain ⟨st', e⟩ := hy st hv hi.1
    obtain ⟨i1, i2⟩ := blockUpdate_inv hok hi.1 e
    exact ⟨st', e, by rw [← hv]; exact hv1 _ _ hi.1 e, i1, by rw [i2]; exact hi.2⟩
  · filter_upwards [(after_choice (sys := sys) (ph := ph) (rest := rest) (L := L) f hf).quasiMeasurePreserving.ae hties]
      with y hy a b hv hi hb U u c hc at' ha
    refine blockUpdate_stLim hc hok ha hi.1 hb fun i r hs _ ht => hy i ?_
    rw [← hv]
    rw [e] at hs
    have hs := Option.some.inj hs
    unfold ShiftTie viewPh
    simp only
    rw [hs, ← pathsOf_block, confWeight_view hL0, confWeight_view hL0]
    exact ht

theorem flipUpdate_aeF [NeZero N] (hP : sys.rng.Ideal N P) (hok : sys.Ok len) (hL : 2 ≤ L) (n : ℕ) :
    AeF mlim sys L len k q ((confDist sys ph rest L).prod P) (viewPh L) (Ready sys ph L len Q 0 n) (At mlim L len 0) (viewPh L)
      (Ready sys ph L len Q 0 n) (At mlim L len 0) (MonteCarlo.flipUpdate sys ph) fun c => flipUpdate c sys ph := by
  have := hP.prob
  have hL0 : 0 < L := by omega
  obtain ⟨F1, hF1, hv1⟩ := flip_viewPh (ph := ph) (rest := rest) (L := L) hP hok
  obtain ⟨f, hf, e⟩ := hP.site
  have hties : ∀ᵐ y ∂(confDist sys ph rest L).prod P, ∀ i, ph.g (sys.orb i) ≠ 0 →
      ¬ MapTie sys ph L (mirror i (2 * ph.mu / ph.g (sys.orb i))) y :=
    ae_all_iff.2 fun i => by
      by_cases hg : ph.g (sys.orb i) = 0
      · exact Eventually.of_forall fun _ h => absurd hg h
      · exact (mapTie_ae hP _ (mirror_preserves (sys := sys) (ph := ph) (rest := rest) i hg _).measurable).mono fun y hy _ => hy
  refine AeF.of_ae ⟨F1, hF1, ?_⟩ ?_
  · filter_upwards [flip_ae (sys := sys) (ph := ph) (rest := rest) (L := L) (len := len) hP (by omega)] with y hy st hv hi
    obtain ⟨st', e⟩ := hy st hv hi.1
    obtain ⟨i1, i2⟩ := flipUpdate_inv hok hi.1 e
    exact ⟨st', e, by rw [← hv]; exact hv1 _ _ hi.1 e, i1, by rw [i2]; exact hi.2⟩
  · filter_upwards [(after_choice (sys := sys) (ph := ph) (rest := rest) (L := L) f hf).quasiMeasurePreserving.ae hties]
      with y hy a b hv hi hb U u c hc at' ha
    refine flipUpdate_stLim hc hok ha hi.1 hb fun i r hs hg ht => hy i hg ?_
    rw [← hv]
    rw [e] at hs
    have hs := Option.some.inj hs
    unfold MapTie viewPh
    simp only
    rw [hs, ← pathsOf_mirror, confWeight_view hL0, confWeight_view hL0]
    exact ht

omit [MeasurableSpace σ] in
theorem StLim.next {U : Ultrafilter ℕ} {c : ℕ → Comp N M} {at' : ℕ → State σ N M} {a : State σ N M} (h : StLim U mlim L len c L at' a)
    (hd : len ∣ L) : StLim U mlim L len c 0 at' a := by
  have key : ∀ {tsm : ℕ → TSM N} {tsm₀ : TSM N}, TLim U (fun t => (c t).pl.toArith) L len L tsm tsm₀ →
      TLim U (fun t => (c t).pl.toArith) L len 0 tsm tsm₀ := by
    intro tsm tsm₀ ht
    refine ⟨ht.dims, ?_, ht.B, ht.invB⟩
    filter_upwards [ht.dims, ht.fresh] with t x y m hm _
    exact RFreshFrom.all _ y (by rw [x.hlen]; exact hd) m hm
  exact { h with
    up := key h.up
    down := key h.down }

theorem phIteration_aeF [NeZero N] (hP : sys.rng.Ideal N P) (hok : sys.Ok len) (hdt : ph.dt ≠ 0) (hL : 2 ≤ L) (noHS : Bool)
    (neqlt n : ℕ) (hQ : Budget sys L Q) :
    AeF mlim sys L len k q ((confDist sys ph rest L).prod P) (viewPh L) (Ready sys ph L len Q 0 (n + L / neqlt)) (At mlim L len 0) (viewPh L)
      (Ready sys ph L len Q 0 n) (At mlim L len 0) (fun st => MonteCarlo.phIteration sys ph noHS neqlt st)
      fun c st => phIteration c sys ph noHS neqlt st := by
  have h1 := phSlices_aeF (mlim := mlim) (k := k) (q := q) (ph := ph) (rest := rest) hP hok hdt hL noHS neqlt n hQ L le_rfl
  rw [sum_hit] at h1
  have h1' : AeF mlim sys L len k q ((confDist sys ph rest L).prod P) (viewPh L) (Ready sys ph L len Q 0 (n + L / neqlt)) (At mlim L len 0) (viewPh L)
      (Ready sys ph L len Q 0 n) (At mlim L len 0) (fun st => (List.range L).foldlM (MonteCarlo.phTimeSlice sys ph noHS neqlt) st)
      fun c st => (List.range L).foldlM (phTimeSlice c sys ph noHS neqlt) st := by
    obtain ⟨G, hG, h⟩ := h1
    refine ⟨G, hG, ?_⟩
    filter_upwards [h] with y hy a hv hi
    obtain ⟨b, e1, e2, e3, e4⟩ := hy a hv hi
    refine ⟨b, e1, e2, ⟨e3.1.next, e3.2⟩, fun U u c hc at' ha => ?_⟩
    obtain ⟨bt, x1, x2⟩ := e4 U u c hc at' ha
    exact ⟨bt, x1, x2.next hi.1.inv.up.td.dvd⟩
  refine ((h1'.comp ((blockUpdate_aeF hP hok hL n).iterate ph.nBlock)).comp
    ((flipUpdate_aeF hP hok hL n).iterate ph.nBlock)).congr (fun st hi => ?_) fun a b hi h U u c hc at' ha => ?_
  · unfold MonteCarlo.phIteration
    rw [hi.1.inv.up.td.hL]
    exact Option.bind_assoc _ _ _
  · obtain ⟨bt, e, hb⟩ := h U u c hc at' ha
    refine ⟨bt, ?_, hb⟩
    filter_upwards [e, StLim.up ha |>.dims] with t x y
    unfold phIteration
    rw [y.hL, ← x]
    exact (Option.bind_assoc _ _ _).symm

theorem simBody_aeF [NeZero N] (hP : sys.rng.Ideal N P) (hok : sys.Ok cfg.prodBlen) (hdt : ph.dt ≠ 0) (hL : 2 ≤ cfg.L)
    (hp : cfg.usePhonons = true) (hQ : Budget sys cfg.L Q) (hq : 0 < cfg.nuneqlt → q)
    (hmu : cfg.nuneqlt > 0 → ∀ (st : State σ N M) n, AtRest sys ph cfg st → Q n st.meas →
      ∃ m, sys.meas.uneq (st.Gu.sgndet * st.Gd.sgndet) st.tsmU st.tsmD st.meas = some m ∧ Q n m)
    (it : ℤ) (hit : it < cfg.nequil + cfg.nsampl) :
    AeF mlim sys cfg.L cfg.prodBlen k q ((confDist sys ph rest cfg.L).prod P) (viewPh cfg.L) (Ready sys ph cfg.L cfg.prodBlen Q 0 (samples cfg it))
      (At mlim cfg.L cfg.prodBlen 0)
      (viewPh cfg.L) (Ready sys ph cfg.L cfg.prodBlen Q 0 (samples cfg (it + 1))) (At mlim cfg.L cfg.prodBlen 0)
      (MonteCarlo.simBody sys ph cfg it) fun c => simBody c sys ph cfg it := by
  have hsplit : samples cfg it = samples cfg (it + 1) + cfg.L / effNeqlt cfg it := by
    unfold samples effNeqlt
    by_cases hc : it ≥ cfg.nequil
    · rw [if_pos hc, ← Nat.succ_mul]
      congr 1
      omega
    · rw [if_neg hc, show Int.toNat 0 = 0 from rfl, Nat.div_zero, add_zero]
      congr 2
      omega
  have h1 := phIteration_aeF (mlim := mlim) (k := k) (q := q) (ph := ph) (rest := rest) hP hok hdt hL cfg.noHS (effNeqlt cfg it)
    (samples cfg (it + 1)) hQ
  rw [← hsplit] at h1
  refine (h1.comp (g := fun st => MonteCarlo.measureUneq sys cfg it st) (gr := fun c st => measureUneq c cfg it st) (AeF.still (v' := viewPh cfg.L)
    (I' := Ready sys ph cfg.L cfg.prodBlen Q 0 (samples cfg (it + 1))) (B := At mlim cfg.L cfg.prodBlen 0) fun st hi => ?_)).congr
    (fun st _ => ?_) fun a b _ h => h
  · have hdef : ∃ b, MonteCarlo.measureUneq sys cfg it st = some b ∧ viewPh cfg.L b = viewPh cfg.L st ∧
        Ready sys ph cfg.L cfg.prodBlen Q 0 (samples cfg (it + 1)) b := by
      unfold MonteCarlo.measureUneq
      split
      · rename_i hc
        obtain ⟨m, hm, qm⟩ := hmu hc.2.1 st _ (by unfold AtRest; rw [hp]; exact hi.1) hi.2
        rw [hm]
        exact ⟨_, rfl, rfl, ⟨⟨hi.1.inv.up, hi.1.inv.down⟩, hi.1.coh⟩, qm⟩
      · exact ⟨_, rfl, rfl, hi⟩
    obtain ⟨b, e1, e2, e3⟩ := hdef
    exact ⟨b, e1, e2, e3, fun U u c hc at' ha => measureUneq_stLim hc hq ha hi.1 e1⟩
  · unfold MonteCarlo.simBody
    rw [hp]
    rfl

theorem simLoop_aeF [NeZero N] (hP : sys.rng.Ideal N P) (hok : sys.Ok cfg.prodBlen) (hdt : ph.dt ≠ 0) (hL : 2 ≤ cfg.L)
    (hp : cfg.usePhonons = true) (hQ : Budget sys cfg.L Q) (hq : 0 < cfg.nuneqlt → q)
    (hmu : cfg.nuneqlt > 0 → ∀ (st : State σ N M) n, AtRest sys ph cfg st → Q n st.meas →
      ∃ m, sys.meas.uneq (st.Gu.sgndet * st.Gd.sgndet) st.tsmU st.tsmD st.meas = some m ∧ Q n m)
    (stop : ℤ → Bool) (j : ℕ) (it : ℤ) (hj : j ≤ (cfg.nequil + cfg.nsampl - it).toNat) (p : Progress.Prog) :
    AeF mlim sys cfg.L cfg.prodBlen k q ((confDist sys ph rest cfg.L).prod P) (viewPh cfg.L) (Ready sys ph cfg.L cfg.prodBlen Q 0 (samples cfg it))
      (At mlim cfg.L cfg.prodBlen 0) (fun r => viewPh cfg.L (LoopResult.state r)) (fun _ => True) (ResLim mlim cfg.L cfg.prodBlen)
      (fun st => simLoop (MonteCarlo.simBody sys ph cfg) stop j it st p) fun c st => simLoop (simBody c sys ph cfg) stop j it st p := by
  induction j generalizing it p with
  | zero => exact AeF.still fun st _ => ⟨_, rfl, rfl, trivial, fun U u c hc at' ha =>
      ⟨_, Eventually.of_forall fun _ => rfl, Eventually.of_forall fun _ => ⟨rfl, rfl, rfl⟩, ha⟩⟩
  | succ j ih =>
    by_cases hs : stop it = true
    · refine AeF.still fun st _ => ?_
      simp only [simLoop, if_pos hs]
      exact ⟨_, rfl, rfl, trivial, fun U u c hc at' ha =>
        ⟨_, Eventually.of_forall fun _ => rfl, Eventually.of_forall fun _ => ⟨rfl, rfl, rfl⟩, ha⟩⟩
    · refine ((simBody_aeF hP hok hdt hL hp hQ hq hmu it (by omega)).comp (ih (it + 1) (by omega) (Progress.update it p))).congr
        (fun st _ => ?_) fun a b _ h U u c hc at' ha => ?_
      · rw [simLoop, if_neg hs]
        rfl
      · obtain ⟨bt, e, hb⟩ := h U u c hc at' ha
        refine ⟨bt, ?_, hb⟩
        filter_upwards [e] with t x
        rw [simLoop, if_neg hs]
        exact x

/-- C123: for almost all initial configurations and random numbers the exact run is defined, and on every sequence of platforms that become
accurate the runs are defined in the end, take the same decisions, and their results converge -/
theorem simulate_follows [NeZero N] (hP : sys.rng.Ideal N P) (hok : sys.Ok cfg.prodBlen) (hdt : ph.dt ≠ 0) (hL : 2 ≤ cfg.L)
    (hd : cfg.prodBlen ∣ cfg.L) (hp : cfg.usePhonons = true) (hQ : Budget sys cfg.L Q) (hq : 0 < cfg.nuneqlt → q)
    (hmu : cfg.nuneqlt > 0 → ∀ (st : State σ N M) n, AtRest sys ph cfg st → Q n st.meas →
      ∃ m, sys.meas.uneq (st.Gu.sgndet * st.Gd.sgndet) st.tsmU st.tsmD st.meas = some m ∧ Q n m)
    (stop : ℤ → Bool) (it : ℤ) (cnt : Counters) (meas : M) (hm : Q (samples cfg it) meas) :
    ∀ᵐ y ∂(confDist sys ph rest cfg.L).prod P, ∀ s X expX, fieldOf cfg.L s = y.1.1 → pathsOf cfg.L X = y.1.2 →
      (∀ l < cfg.L, ∀ i, expX l i = sys.expOf ph X l i) →
      ∃ r, MonteCarlo.simulate sys ph cfg stop it y.2 s X expX cnt meas = some r ∧
        ∀ (U : Ultrafilter ℕ) (u : ℕ → ℝ) (c : ℕ → Comp N M), Ctx U mlim sys cfg.L cfg.prodBlen k q u c →
          ∀ (Xt Et : ℕ → ℕ → Fin N → ℝ) (mt : ℕ → M), XLim U cfg.L Xt X → XLim U cfg.L Et expX → mlim U mt meas →
          ∃ rt, (∀ᶠ t in (U : Filter ℕ), simulate (c t) sys ph cfg stop it y.2 s (Xt t) (Et t) cnt (mt t) = some (rt t)) ∧
            ResLim mlim cfg.L cfg.prodBlen U c rt r := by
  have := hP.prob
  have hL0 : 0 < cfg.L := by omega
  obtain ⟨G, hG, h⟩ := simLoop_aeF (mlim := mlim) (k := k) (q := q) (rest := rest) hP hok hdt hL hp hQ hq hmu stop _ it le_rfl
    (Progress.update it (Progress.start cfg.nequil cfg.nsampl))
  have hw : ∀ᵐ y ∂(confDist sys ph rest cfg.L).prod P, confWeight sys ph cfg.L y.1 ≠ 0 :=
    Measure.quasiMeasurePreserving_fst.ae confWeight_ae
  filter_upwards [h, hw] with y h hw s X expX hs hx hE
  have hw0 : sys.weight cfg.L s expX ≠ 0 := fun h0 => hw (by
    rw [show y.1 = (fieldOf cfg.L s, pathsOf cfg.L X) from Prod.ext hs.symm hx.symm, confWeight_view hL0]
    unfold Sys.fullWeight
    rw [← weight_congr hL0 (fun _ _ => rfl) fun k hk => funext fun i => hE k hk i, h0, zero_mul])
  obtain ⟨st, e1⟩ := startState_defined_ph hL0 hd hp y.2 _ X _ cnt meas hw0
  have hi := startState_phInv hok hL0 hd hp _ _ _ _ _ _ hE st e1
  obtain ⟨-, f1, f2, f3, -, f4⟩ := startState_frame cfg _ _ _ _ _ _ _ e1
  obtain ⟨r, e2, -, -, hf⟩ := h st (by
    unfold viewPh
    rw [f2, f3, f4, hs, hx]) ⟨hi, by rw [f1]; exact hm⟩
  refine ⟨r, by unfold MonteCarlo.simulate; rw [e1]; exact e2, fun U u c hc Xt Et mt hX hEt hmt => ?_⟩
  obtain ⟨bt, e3, hb⟩ := startState_stLim hc rfl rfl hp hok hL0 hd y.2 s hX hEt (fun l hl i => by
    rw [hE l hl i]
    exact (Real.exp_pos _).ne') cnt hmt e1
  obtain ⟨rt, e4, hr⟩ := hf U u c hc bt hb
  refine ⟨rt, ?_, hr⟩
  filter_upwards [e3, e4] with t x1 x2
  unfold simulate
  rw [x1]
  exact x2

end run

end Verif.Rounded.Ph
