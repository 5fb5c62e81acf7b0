import Verif.Props.Runs
import Verif.Lemmas.Additive

/-! # Runs with another number of iterations, crashes and phonons: C48, C50, C55, C59 -/

set_option autoImplicit false

namespace Verif.Main

open Verif.Random Verif.Measurement Verif.MonteCarlo Verif.Files Verif.Params

variable {N : ℕ} {su : Setup N}

/-! ## What the next process finds -/

/-- the measurement data loaded by the next process: those which the last one wrote, but no phonon
data -/
theorem loadMeas_written (fs : FS) (r : LoopResult (State Seed N MeasData))
    (he : ∀ a z, ¬ (0 ≤ z ∧ z < EqF.size su.Norb su.Ncell a) → r.state.meas.eq.arr a z = 0)
    (hu : ∀ a z, ¬ (0 ≤ z ∧ z < UneqF.size su.Norb su.Ncell su.cfg.L a) → r.state.meas.uneq.arr a z = 0)
    (hn : ¬ su.cfg.nuneqlt > 0 → r.state.meas.uneq = UneqData.allocate)
    (h1 : r.state.meas.eq.nsampl < 2 ^ 31) (h2 : r.state.meas.uneq.nsampl < 2 ^ 31) :
    loadMeas su (putAll fs (finalWrites su r)) =
      ⟨(normalized su r.iteration r.state.meas).eq, (normalized su r.iteration r.state.meas).uneq,
        PhData.allocate su.maxNsampl⟩ := by
  have hmem := putAll_mem fs _ (finalWrites_nodup (su := su) r)
  have te : ∀ a z, ¬ (0 ≤ z ∧ z < EqF.size su.Norb su.Ncell a) →
      (normalized su r.iteration r.state.meas).eq.arr a z = 0 := by
    intro a z hz
    unfold normalized
    split
    · simp only [normalizeEq, scale, if_neg hz]
      exact he a z hz
    · exact he a z hz
  have tu : ∀ a z, ¬ (0 ≤ z ∧ z < UneqF.size su.Norb su.Ncell su.cfg.L a) →
      (normalized su r.iteration r.state.meas).uneq.arr a z = 0 := by
    intro a z hz
    unfold normalized
    split
    · simp only
      split
      · simp only [normalizeUneq, scale, if_neg hz]
        exact hu a z hz
      · exact hu a z hz
    · exact hu a z hz
  have tn : ¬ su.cfg.nuneqlt > 0 →
      (normalized su r.iteration r.state.meas).uneq = UneqData.allocate := by
    intro h
    unfold normalized
    split
    · simp only
      exact hn h
    · exact hn h
  have c1 : (normalized su r.iteration r.state.meas).eq.nsampl < 2 ^ 31 := by
    unfold normalized
    split <;> exact h1
  have c2 : (normalized su r.iteration r.state.meas).uneq.nsampl < 2 ^ 31 := by
    unfold normalized
    split
    · simp only
      split <;> exact h2
    · exact h2
  have hw : ∀ w ∈ resultWrites su (normalized su r.iteration r.state.meas) r.state.cnt,
      putAll fs (finalWrites su r) w.1 = some w.2 := fun w hw => hmem w (List.mem_append_right _ hw)
  generalize putAll fs (finalWrites su r) = g at hw
  generalize normalized su r.iteration r.state.meas = nm at *
  have e1 : (loadMeas su g).eq = nm.eq := by
    have hs : saveEq su.Norb su.Ncell (fun _ => .none) g su.fnbase nm.eq = g := by
      unfold saveEq
      rw [writeAll_none]
      refine putAll_id _ _ fun w hw' => hw w ?_
      unfold resultWrites
      simp only [List.mem_append]
      tauto
    show loadEq _ _ _ _ _ _ = _
    rw [← hs, loadEq_saveEq_partial su.F su.fnbase _ _ _ _ _ c1]
    have ext : ∀ (x : EqData) (f : Arrays EqF), f = x.arr →
        ({ sign := x.sign, nsampl := x.nsampl, arr := f } : EqData) = x := by
      intro x f h
      rw [h]
    refine ext _ _ ?_
    funext a z
    split
    · rfl
    · rename_i hz
      exact (te a z hz).symm
  have e2 : (loadMeas su g).uneq = nm.uneq := by
    show (if su.cfg.nuneqlt > 0 then _ else _ : UneqData) = _
    split
    · rename_i hu
      have hs : saveUneq su.Norb su.Ncell su.cfg.L (fun _ => .none) g su.fnbase nm.uneq = g := by
        unfold saveUneq
        rw [writeAll_none]
        refine putAll_id _ _ fun w hw' => hw w ?_
        unfold resultWrites
        rw [if_pos hu]
        simp only [List.mem_append]
        tauto
      rw [← hs, loadUneq_saveUneq_partial su.F su.fnbase _ _ _ _ _ _ c2]
      have ext : ∀ (x : UneqData) (f : Arrays UneqF), f = x.arr →
          ({ sign := x.sign, nsampl := x.nsampl, arr := f } : UneqData) = x := by
        intro x f h
        rw [h]
      refine ext _ _ ?_
      funext a z
      split
      · rfl
      · rename_i hz
        exact (tu a z hz).symm
    · rename_i hu
      exact (tn hu).symm
  have e3 : (loadMeas su g).ph = PhData.allocate su.maxNsampl := rfl
  generalize loadMeas su g = a at e1 e2 e3
  cases a
  simp only at e1 e2 e3
  subst e1 e2 e3
  rfl

/-- the same parameters with another number `n` of sampling iterations -/
def Setup.withSampl (su : Setup N) (n : ℤ) (mx : ℕ) : Setup N :=
  { su with cfg := { su.cfg with nsampl := n }, maxNsampl := mx }

/-- the start of a process with possibly another number of iterations after a run without write
errors -/
theorem startup_next (fs : FS) (r : LoopResult (State Seed N MeasData)) (n : ℤ) (mx : ℕ)
    (hit : r.iteration ≠ su.cfg.nequil + n)
    (hb : -2 ^ 31 ≤ r.iteration ∧ r.iteration < 2 ^ 31)
    (hs : ∀ l, su.cfg.L ≤ l → ∀ i, r.state.s l i = 0)
    (he : ∀ a z, ¬ (0 ≤ z ∧ z < EqF.size su.Norb su.Ncell a) → r.state.meas.eq.arr a z = 0)
    (hu : ∀ a z, ¬ (0 ≤ z ∧ z < UneqF.size su.Norb su.Ncell su.cfg.L a) → r.state.meas.uneq.arr a z = 0)
    (hn : ¬ su.cfg.nuneqlt > 0 → r.state.meas.uneq = UneqData.allocate)
    (h1 : r.state.meas.eq.nsampl < 2 ^ 31) (h2 : r.state.meas.uneq.nsampl < 2 ^ 31) :
    startup (su.withSampl n mx) (putAll fs (finalWrites su r)) =
      some (.go r.iteration (restored r.state.rng) r.state.s
        ⟨(normalized su r.iteration r.state.meas).eq, (normalized su r.iteration r.state.meas).uneq,
          PhData.allocate mx⟩) := by
  obtain ⟨c1, c2⟩ := checkpoint_final (su := su) fs r ⟨0, su.junk.seed, su.junk.s⟩
  obtain ⟨d1, d2, d3⟩ := newCkpt_same su.F su.LxN (ckptOf r.iteration r.state)
    ⟨0, su.junk.seed, su.junk.s⟩ hb.1 hb.2
  generalize newCkpt su.F su.LxN (ckptOf r.iteration r.state) ⟨0, su.junk.seed, su.junk.s⟩ = k at *
  have d1' : k.iteration = r.iteration := d1
  have d2' : k.seed = restored r.state.rng := d2
  have d3' : bytesField su.LxN N k.s = some r.state.s :=
    bytesField_fieldBytes su.cfg.L r.state.s hs _ d3
  have hm := loadMeas_written (su := su) fs r he hu hn h1 h2
  have hm' : loadMeas (su.withSampl n mx) (putAll fs (finalWrites su r)) =
      ⟨(normalized su r.iteration r.state.meas).eq, (normalized su r.iteration r.state.meas).uneq,
        PhData.allocate mx⟩ := by
    have e1 := congrArg MeasData.eq hm
    have e2 := congrArg MeasData.uneq hm
    simp only at e1 e2
    rw [← e1, ← e2]
    rfl
  unfold startup
  rw [show searchCheckpoint (putAll fs (finalWrites su r)) (su.withSampl n mx).fnbase = 0 from c1, hm',
    show loadCheckpoint (su.withSampl n mx).F (putAll fs (finalWrites su r)) (su.withSampl n mx).fnbase
      (su.withSampl n mx).LxN { (su.withSampl n mx).junk with iteration := 0 } = (0, k) from c2]
  simp only [ne_eq, not_true_eq_false, if_false, lt_irrefl]
  rw [d1', if_neg (show ¬ r.iteration = (su.withSampl n mx).total from hit),
    show bytesField (su.withSampl n mx).LxN N k.s = some r.state.s from d3', d2']
  rfl

/-! ## Samples of sign one -/

/-- if all determinants are positive, the sum of the signs grows with the number of samples -/
theorem signs_one {sys : Sys Seed N MeasData} {ph : Phonon} {cfg : Cfg} (hm : RealMeas su sys.meas)
    (hdet : ∀ (s : ℕ → Fin N → Fin 2) (E : ℕ → Fin N → ℝ) (l : ℕ), (∀ l i, 0 < E l i) →
      0 < (1 + TimeFlow.cyclicProd (sys.fieldB sys.hs.expVu s E) cfg.L l).det ∧
      0 < (1 + TimeFlow.cyclicProd (sys.fieldB sys.hs.expVd s E) cfg.L l).det) (c : ℝ) :
    MeasInv sys ph cfg fun m => m.eq.sign = m.eq.nsampl + c := by
  have key : ∀ (gu gd : Greens.GreensFn N) (m m' : MeasData), gu.sgndet * gd.sgndet = 1 →
      m.eq.sign = m.eq.nsampl + c → sys.meas.eq gu gd m = some m' → m'.eq.sign = m'.eq.nsampl + c := by
    intro gu gd m m' h1 h2 e
    obtain ⟨mp, dt, omega, alg, tau, old, h⟩ := hm
    rw [h] at e
    simp only [realMeas, Option.map_eq_some_iff] at e
    obtain ⟨x, e, rfl⟩ := e
    unfold accumulateEq at e
    simp only [Option.bind_eq_bind] at e
    obtain ⟨ws, -, e⟩ := Option.bind_eq_some_iff.1 e
    obtain ⟨arr, -, e⟩ := Option.bind_eq_some_iff.1 e
    simp only [Option.pure_def, Option.some.injEq] at e
    subst e
    simp only [h1, h2]
    push_cast
    ring
  refine ⟨fun _ neqlt s l gu gd m m' _ _ _ hE hP e => ?_,
    fun _ neqlt s X l gu gd m m1 m2 _ _ _ hE hP e1 e2 => ?_, fun st m _ hP e => ?_⟩
  · obtain ⟨a, b⟩ := hdet s (fun _ _ => 1) (l + 1) fun _ _ => one_pos
    exact key _ _ _ _ (hE.sign_eq_one_iff.2 (mul_pos a b)) hP e
  · obtain ⟨a, b⟩ := hdet s (sys.expOf ph X) (l + 1) fun _ _ => Real.exp_pos _
    have h := key _ _ _ _ (hE.sign_eq_one_iff.2 (mul_pos a b)) hP e1
    obtain ⟨mp, dt, omega, alg, tau, old, hr⟩ := hm
    rw [hr] at e2
    simp only [realMeas, Option.map_eq_some_iff] at e2
    obtain ⟨x, -, rfl⟩ := e2
    exact h
  · obtain ⟨mp, dt, omega, alg, tau, old, hr⟩ := hm
    rw [hr] at e
    simp only [realMeas, Option.bind_eq_bind] at e
    obtain ⟨u, -, e⟩ := Option.bind_eq_some_iff.1 e
    obtain ⟨d, -, e⟩ := Option.bind_eq_some_iff.1 e
    obtain ⟨x, e1, e⟩ := Option.bind_eq_some_iff.1 e
    simp only [Option.pure_def, Option.some.injEq] at e
    subst e
    exact hP

theorem restored_nonZero {sd : Seed} (h : sd.NonZero) : (restored sd).NonZero := by
  obtain ⟨i, hi⟩ := h
  refine ⟨i + sd.p, ?_⟩
  show sd.s (i + sd.p - sd.p) ≠ 0
  rwa [add_sub_cancel_right]

/-! ## Files at the end -/

/-- a run that is not asked to stop does all iterations -/
theorem never_iteration [NeZero N] {it : ℤ} {seed : Seed} {s : ℕ → Fin N → Fin 2} {meas : MeasData}
    {r : LoopResult (State Seed N MeasData)} (h : perform su (fun _ => false) it seed s meas = some r) :
    r.iteration = max it su.total ∧ r.broke = false := by
  unfold perform at h
  simp only [Option.bind_eq_bind] at h
  obtain ⟨sys, -, h⟩ := Option.bind_eq_some_iff.1 h
  unfold simulate at h
  simp only [Option.bind_eq_bind] at h
  obtain ⟨st0, -, h⟩ := Option.bind_eq_some_iff.1 h
  obtain ⟨m, m1, m2, -, -, -, m6, m7⟩ := simLoop_spec _ _ _ _ _ _ _ h
  have ht : su.total = su.cfg.nequil + su.cfg.nsampl := rfl
  cases hb : r.broke with
  | true => exact absurd (m6 hb).2 Bool.false_ne_true
  | false =>
    refine ⟨?_, rfl⟩
    have := m7 hb
    omega

/-- the content of the file with the average sign -/
theorem sign_file (fs : FS) (r : LoopResult (State Seed N MeasData)) :
    putAll fs (finalWrites su r) (su.fnbase ++ "_eqlt_sign.dat") = some (encDouble
      (avg (r.iteration = su.total) r.state.meas.eq.nsampl r.state.meas.eq.sign)) := by
  have := final_file (su := su) fs r (su.fnbase ++ "_eqlt_sign.dat", encDouble
    (avg (r.iteration = su.total) r.state.meas.eq.nsampl r.state.meas.eq.sign)) ?_
  · exact this
  · refine List.mem_append_right _ ?_
    unfold resultWrites
    rw [eq_results]
    simp only [List.mem_append]
    exact Or.inl (Or.inl List.mem_cons_self)

/-- the content of the file with the number of samples -/
theorem nsampl_file (fs : FS) (r : LoopResult (State Seed N MeasData)) :
    putAll fs (finalWrites su r) (su.fnbase ++ "_eqlt_nsampl.dat") =
      some (encInt r.state.meas.eq.nsampl) := by
  have := final_file (su := su) fs r (su.fnbase ++ "_eqlt_nsampl.dat",
    encInt r.state.meas.eq.nsampl) ?_
  · exact this
  · refine List.mem_append_right _ ?_
    unfold resultWrites
    rw [eq_results]
    simp only [List.mem_append]
    exact Or.inl (Or.inl (List.mem_cons_of_mem _ List.mem_cons_self))

/-! ## Other numbers of iterations -/

theorem Setup.Ok.withSampl {sys : Sys Seed N MeasData} (h : su.Ok sys) (n : ℤ) (mx : ℕ) :
    (su.withSampl n mx).Ok sys :=
  ⟨h.defined, h.ok, h.L, h.dvd, h.phonons, h.meas, h.rng⟩

/-- the start of a process does not depend on the number of iterations -/
theorem startup_withSampl (fs : FS) (it : ℤ) (seed : Seed) (s : ℕ → Fin N → Fin 2) (meas : MeasData)
    (h : startup su fs = some (.go it seed s meas)) (n : ℤ) (mx : ℕ) (hit : it ≠ su.cfg.nequil + n) :
    startup (su.withSampl n mx) fs = some (.go it seed s { meas with ph := PhData.allocate mx }) := by
  unfold startup at h ⊢
  by_cases hc : searchCheckpoint fs su.fnbase ≠ 0
  · rw [if_pos hc] at h
    rw [if_pos (show searchCheckpoint fs (su.withSampl n mx).fnbase ≠ 0 from hc)]
    simp only [Option.some.injEq, Start.go.injEq] at h
    obtain ⟨rfl, rfl, rfl, rfl⟩ := h
    rfl
  · rw [if_neg hc] at h
    rw [if_neg (show ¬ searchCheckpoint fs (su.withSampl n mx).fnbase ≠ 0 from hc)]
    have e : loadCheckpoint (su.withSampl n mx).F fs (su.withSampl n mx).fnbase (su.withSampl n mx).LxN
      { (su.withSampl n mx).junk with iteration := 0 } =
      loadCheckpoint su.F fs su.fnbase su.LxN { su.junk with iteration := 0 } := rfl
    rw [e]
    generalize loadCheckpoint su.F fs su.fnbase su.LxN { su.junk with iteration := 0 } = k at h ⊢
    simp only at h ⊢
    split at h
    · simp at h
    · rename_i h1
      rw [if_neg h1]
      split at h
      · simp at h
      · simp only [Option.map_eq_some_iff, Start.go.injEq] at h
        obtain ⟨s', h2, h3, h4, h5, h6⟩ := h
        rw [if_neg (by rw [h3]; exact hit), show bytesField (su.withSampl n mx).LxN N k.2.s = some s' from h2,
          h3, h4, h5, ← h6]
        rfl

/-- the data which a process finds instead of those at the end of the last process, as a difference -/
noncomputable def gap (su : Setup N) (r : LoopResult (State Seed N MeasData)) (mx : ℕ) : MeasData where
  eq := { sign := (normalized su r.iteration r.state.meas).eq.sign - r.state.meas.eq.sign
          nsampl := 0
          arr := fun a z => (normalized su r.iteration r.state.meas).eq.arr a z - r.state.meas.eq.arr a z }
  uneq := { sign := (normalized su r.iteration r.state.meas).uneq.sign - r.state.meas.uneq.sign
            nsampl := 0
            arr := fun a z =>
              (normalized su r.iteration r.state.meas).uneq.arr a z - r.state.meas.uneq.arr a z }
  ph := PhData.allocate mx

theorem gap_plus (r : LoopResult (State Seed N MeasData)) (mx : ℕ) :
    MeasData.plus (gap su r mx) r.state.meas =
      ⟨(normalized su r.iteration r.state.meas).eq, (normalized su r.iteration r.state.meas).uneq,
        PhData.allocate mx⟩ := by
  have h1 : (normalized su r.iteration r.state.meas).eq.nsampl = r.state.meas.eq.nsampl := by
    unfold normalized
    split <;> rfl
  have h2 : (normalized su r.iteration r.state.meas).uneq.nsampl = r.state.meas.uneq.nsampl := by
    unfold normalized
    split
    · simp only
      split <;> rfl
    · rfl
  unfold MeasData.plus EqData.plus UneqData.plus gap plus
  generalize normalized su r.iteration r.state.meas = nm at *
  obtain ⟨⟨a1, a2, a3⟩, ⟨b1, b2, b3⟩, c⟩ := nm
  simp only at h1 h2
  subst h1 h2
  simp only [add_sub_cancel, add_zero]

/-- C48, exactly, when the generator is at one of two of its sixteen positions and there are no phonons:
a run of any number of iterations, stopped or finished, is followed by a run with a larger number of
iterations.  The latter ends like one longer run, except that its sums contain, in place of those at the
end of the first run, the values which the first run wrote. -/
theorem extension_exact_partial [NeZero N] {sys : Sys Seed N MeasData} (hok : su.Ok sys) (inp : RunInput)
    (hc : inp.Clean) (fs : FS) (it : ℤ) (seed : Seed) (s : ℕ → Fin N → Fin 2) (meas : MeasData)
    (r : LoopResult (State Seed N MeasData))
    (hstart : startup su fs = some (.go it seed s meas))
    (hrun : perform su inp.stop it seed s meas = some r)
    (hb : -2 ^ 31 ≤ r.iteration ∧ r.iteration < 2 ^ 31)
    (h1 : r.state.meas.eq.nsampl < 2 ^ 31) (h2 : r.state.meas.uneq.nsampl < 2 ^ 31)
    (hpos : r.state.rng.p = 0 ∨ r.state.rng.p = 8) (n : ℤ) (mx : ℕ)
    (hn : r.iteration < su.cfg.nequil + n) (out : FS × ℤ)
    (hnever : process (su.withSampl n mx) never fs = some out) :
    ∃ fs1 code r2 r3, process su inp fs = some (fs1, code) ∧
      perform (su.withSampl n mx) never.stop it seed s { meas with ph := PhData.allocate mx } = some r3 ∧
      out = (putAll fs (finalWrites (su.withSampl n mx) r3), 0) ∧
      process (su.withSampl n mx) never fs1 =
        some (putAll fs1 (finalWrites (su.withSampl n mx) r2), 0) ∧
      r2.iteration = su.cfg.nequil + n ∧ r3.iteration = su.cfg.nequil + n ∧
      r2.state.Same (r3.state.mapMeas (MeasData.plus (gap su r mx))) := by
  have hok' := hok.withSampl n mx
  obtain ⟨hs, hm⟩ := startup_tidy fs it seed s meas hstart
  have hle : it ≤ r.iteration := by
    have hr := hrun
    rw [perform_eq hok] at hr
    exact (simulate_count su.cfg hok.meas.counts.1 _ _ _ _ _ _ _ _ _ hr).1
  have hstart3 := startup_withSampl fs it seed s meas hstart n mx (by omega)
  obtain ⟨r3, e3, hout⟩ := (process_go never_clean hstart3 _).1 hnever
  obtain ⟨i3, b3⟩ := never_iteration e3
  have ht : (su.withSampl n mx).total = su.cfg.nequil + n := rfl
  rw [ht] at i3
  rw [perform_eq hok] at hrun
  rw [perform_eq hok'] at e3
  have hX : (su.withSampl n mx).expX0 = su.expX0 := rfl
  rw [hX] at e3
  obtain ⟨i1, t1, k1⟩ := simulate_rest (P := MeasTidy su) hok.ok hok.L hok.dvd hok.phonons
    (fun gu gd m m' => hok.meas.eq_tidy gu gd m m')
    (fun hn sg tu td m m' => hok.meas.uneq_tidy hn sg tu td m m') inp.stop it seed s meas hs hm r hrun
  -- the long run with the data structure for phonons of the first run
  set z : MeasData := ⟨⟨fun _ _ => 0, 0, 0⟩, ⟨fun _ _ => 0, 0, 0⟩, PhData.allocate mx⟩ with hz
  have hz0 : ∀ m : MeasData, MeasData.plus z m = { m with ph := PhData.allocate mx } := by
    intro m
    obtain ⟨⟨a1, a2, a3⟩, ⟨b1, b2, b3⟩, c⟩ := m
    simp only [MeasData.plus, EqData.plus, UneqData.plus, plus_zero, hz, add_zero]
  have e3' := simulate_plus hok'.meas su.ph (su.withSampl n mx).cfg hok'.phonons z (fun _ => false) it seed s
    (unflat fun _ => 0) su.expX0 zeroCounters meas
  rw [hz0] at e3'
  have e3'' := e3'.symm.trans e3
  obtain ⟨r0, f0, f1⟩ := Option.map_eq_some_iff.1 e3''
  -- the first run as a part of the long run
  obtain ⟨q, b, g1⟩ := simulate_other n inp.stop it seed s _ _ _ meas r hrun hn.le
  obtain ⟨q', g2⟩ := simulate_resume hok'.ok hok'.L hok'.dvd hok'.phonons _ it seed s meas hs _ r0 g1 f0
  simp only at g2
  obtain ⟨rnd, junk, hr⟩ := hok.rng
  obtain ⟨r', g3, g4, g5, -, g7⟩ := simulate_same (su.withSampl n mx).cfg hr su.ph (fun _ => false)
    r.iteration r.state.rng (restored r.state.rng) (key_restored _ hpos).symm _ _ _ _ _ _ g2
  have g8 := simulate_plus hok'.meas su.ph (su.withSampl n mx).cfg hok'.phonons (gap su r mx)
    (fun _ => false) r.iteration (restored r.state.rng) r.state.s (unflat fun _ => 0) su.expX0 zeroCounters
    r.state.meas
  rw [gap_plus, g3, Option.map_some] at g8
  have hst := startup_next (su := su) fs r n mx (by omega) hb t1.field k1.meas.eq k1.meas.uneq k1.meas.none
    h1 h2
  have hp2 : perform (su.withSampl n mx) never.stop r.iteration (restored r.state.rng) r.state.s
      ⟨(normalized su r.iteration r.state.meas).eq, (normalized su r.iteration r.state.meas).uneq,
        PhData.allocate mx⟩ = some ⟨r'.iteration, r'.state.mapMeas (MeasData.plus (gap su r mx)), r'.prog,
        r'.broke⟩ := by
    rw [perform_eq hok']
    exact g8
  refine ⟨putAll fs (finalWrites su r), if r.broke ∨ inp.late then 1 else 0,
    ⟨r'.iteration, r'.state.mapMeas (MeasData.plus (gap su r mx)), r'.prog, r'.broke⟩, r3,
    (process_go hc hstart _).2 ⟨r, (perform_eq hok _ _ _ _ _).trans hrun, rfl⟩, (perform_eq hok' _ _ _ _ _).trans e3, ?_,
    (process_go never_clean hst _).2 ⟨_, hp2, ?_⟩, ?_, by omega, ?_⟩
  · rw [hout, b3]
    rfl
  · rw [show r'.broke = false from g7]
    rfl
  · show r'.iteration = _
    rw [g4]
    have : r0.iteration = r3.iteration := by rw [← f1]
    simp only
    omega
  · have e0 : r3.state.mapMeas (MeasData.plus (gap su r mx)) =
        r0.state.mapMeas (MeasData.plus (gap su r mx)) := by
      rw [← f1]
      show (r0.state.mapMeas (MeasData.plus z)).mapMeas _ = _
      simp only [State.mapMeas, hz0]
      rfl
    rw [e0]
    have g5' : r'.state.mapRng key = r0.state.mapRng key := g5
    show (r'.state.mapMeas (MeasData.plus (gap su r mx))).mapRng key =
      (r0.state.mapMeas (MeasData.plus (gap su r mx))).mapRng key
    have c : ∀ x : State Seed N MeasData, (x.mapMeas (MeasData.plus (gap su r mx))).mapRng key =
      (x.mapRng key).mapMeas (MeasData.plus (gap su r mx)) := fun _ => rfl
    rw [c, c, g5']

/-- C48 for a run that was stopped before its end: a longer run goes on as if the larger number of
iterations had been asked for from the beginning -/
theorem extension_unfinished_partial [NeZero N] {sys : Sys Seed N MeasData} (hok : su.Ok sys)
    (inp : RunInput) (hc : inp.Clean) (fs : FS) (it : ℤ) (seed : Seed) (s : ℕ → Fin N → Fin 2)
    (meas : MeasData) (r : LoopResult (State Seed N MeasData))
    (hstart : startup su fs = some (.go it seed s meas))
    (hrun : perform su inp.stop it seed s meas = some r) (hit : r.iteration ≠ su.total)
    (hb : -2 ^ 31 ≤ r.iteration ∧ r.iteration < 2 ^ 31)
    (h1 : r.state.meas.eq.nsampl < 2 ^ 31) (h2 : r.state.meas.uneq.nsampl < 2 ^ 31)
    (hpos : r.state.rng.p = 0 ∨ r.state.rng.p = 8) (n : ℤ) (mx : ℕ)
    (hn : r.iteration < su.cfg.nequil + n) (out : FS × ℤ)
    (hnever : process (su.withSampl n mx) never fs = some out) :
    ∃ fs1 code, process su inp fs = some (fs1, code) ∧ process (su.withSampl n mx) never fs1 = some out := by
  obtain ⟨fs1, code, r2, r3, a1, a0, a2, a3, a4, a5, a6⟩ := extension_exact_partial hok inp hc fs it seed s meas
    r hstart hrun hb h1 h2 hpos n mx hn out hnever
  refine ⟨fs1, code, a1, ?_⟩
  have e : fs1 = putAll fs (finalWrites su r) := by
    obtain ⟨r', x1, x2⟩ := (process_go hc hstart _).1 a1
    obtain rfl : r = r' := Option.some.inj (hrun.symm.trans x1)
    exact congrArg Prod.fst x2
  have hw : finalWrites (su.withSampl n mx) r2 = finalWrites (su.withSampl n mx) r3 := by
    have hnorm : normalized su r.iteration r.state.meas = r.state.meas := by
      unfold normalized
      rw [if_neg hit]
    have hg : ∀ m : MeasData, MeasData.plus (gap su r mx) m = { m with ph := PhData.allocate mx } := by
      intro m
      obtain ⟨⟨b1, b2, b3⟩, ⟨c1, c2, c3⟩, c⟩ := m
      simp only [MeasData.plus, EqData.plus, UneqData.plus, plus_zero, gap, hnorm, sub_self, add_zero]
    refine (finalWrites_same (b := ⟨r3.iteration, r3.state.mapMeas (MeasData.plus (gap su r mx)), r3.prog,
      r3.broke⟩) (a4.trans a5.symm) a6).trans ?_
    unfold finalWrites
    simp only [State.mapMeas, hg]
    refine congrArg₂ _ rfl ?_
    have hp : (su.withSampl n mx).cfg.usePhonons = false := hok.phonons
    unfold resultWrites normalized
    simp only [hp, Bool.false_eq_true, if_false]
    split <;> rfl
  have hnames : (finalWrites su r).map Prod.fst = (finalWrites (su.withSampl n mx) r3).map Prod.fst :=
    (finalWrites_names r).trans (finalWrites_names (su := su.withSampl n mx) r3).symm
  rw [a3, a2, hw, e, putAll_twice _ _ _ hnames]

/-- C48 for a finished run: the average sign after an extension is `(S / k + T) / (k + l)` where the one
longer run gives `(S + T) / (k + l)`, with sums `S` of the first `k` and `T` of the other `l` samples -/
theorem extension_finished_partial [NeZero N] {sys : Sys Seed N MeasData} (hok : su.Ok sys)
    (inp : RunInput) (hc : inp.Clean) (fs : FS) (it : ℤ) (seed : Seed) (s : ℕ → Fin N → Fin 2)
    (meas : MeasData) (r : LoopResult (State Seed N MeasData))
    (hstart : startup su fs = some (.go it seed s meas))
    (hrun : perform su inp.stop it seed s meas = some r) (hit : r.iteration = su.total)
    (hb : -2 ^ 31 ≤ r.iteration ∧ r.iteration < 2 ^ 31)
    (h1 : r.state.meas.eq.nsampl < 2 ^ 31) (h2 : r.state.meas.uneq.nsampl < 2 ^ 31)
    (hpos : r.state.rng.p = 0 ∨ r.state.rng.p = 8) (n : ℤ) (mx : ℕ)
    (hn : su.cfg.nsampl < n) (out : FS × ℤ)
    (hnever : process (su.withSampl n mx) never fs = some out) :
    ∃ (fs1 fs2 : FS) (code : ℤ) (S T : ℝ) (k l : ℕ), process su inp fs = some (fs1, code) ∧
      process (su.withSampl n mx) never fs1 = some (fs2, 0) ∧
      k = r.state.meas.eq.nsampl ∧ S = r.state.meas.eq.sign ∧
      fs1 (su.fnbase ++ "_eqlt_sign.dat") = some (encDouble (S / k)) ∧
      out.1 (su.fnbase ++ "_eqlt_sign.dat") = some (encDouble ((S + T) / (k + l : ℕ))) ∧
      fs2 (su.fnbase ++ "_eqlt_sign.dat") = some (encDouble ((S / k + T) / (k + l : ℕ))) := by
  have hn' : r.iteration < su.cfg.nequil + n := by
    rw [hit]
    show su.cfg.nequil + su.cfg.nsampl < _
    omega
  obtain ⟨fs1, code, r2, r3, a1, a0, a2, a3, a4, a5, a6⟩ := extension_exact_partial hok inp hc fs it seed s meas
    r hstart hrun hb h1 h2 hpos n mx hn' out hnever
  obtain ⟨r', x1, x2⟩ := (process_go hc hstart _).1 a1
  obtain rfl : r = r' := Option.some.inj (hrun.symm.trans x1)
  obtain ⟨rfl, -⟩ := Prod.mk.inj x2
  have hm : r2.state.meas = MeasData.plus (gap su r mx) r3.state.meas := by
    have := congrArg (fun x => State.meas x) (show r2.state.mapRng key = _ from a6)
    exact this
  have hl : ∃ l, r3.state.meas.eq.nsampl = r.state.meas.eq.nsampl + l := by
    have hok' := hok.withSampl n mx
    have hrr := hrun
    rw [perform_eq hok] at hrr
    rw [perform_eq hok'] at a0
    have z1 := simulate_count su.cfg hok.meas.counts.1 _ _ _ _ _ _ _ _ _ hrr
    have z2 := (simulate_count (su.withSampl n mx).cfg hok'.meas.counts.1 _ _ _ _ _ _ _ _ _ a0).2
    have z3 := totalSamples_split su.cfg 1 0 0 it r.iteration r3.iteration z1.1 (by omega)
    refine ⟨su.cfg.totalSamples 1 0 0 r.iteration r3.iteration, ?_⟩
    rw [z2, z1.2, add_assoc, ← z3]
    rfl
  obtain ⟨l, hl⟩ := hl
  refine ⟨_, _, code, r.state.meas.eq.sign, r3.state.meas.eq.sign - r.state.meas.eq.sign,
    r.state.meas.eq.nsampl, l, a1, a3, rfl, rfl, ?_, ?_, ?_⟩
  · rw [sign_file]
    unfold avg
    rw [if_pos hit]
  · rw [a2]
    have := sign_file (su := su.withSampl n mx) fs r3
    refine this.trans ?_
    unfold avg
    rw [if_pos (show r3.iteration = (su.withSampl n mx).total from a5), hl]
    congr 3
    ring
  · have := sign_file (su := su.withSampl n mx) (putAll fs (finalWrites su r)) r2
    refine this.trans ?_
    unfold avg
    rw [if_pos (show r2.iteration = (su.withSampl n mx).total from a4), hm]
    have e1 : (MeasData.plus (gap su r mx) r3.state.meas).eq.nsampl = r.state.meas.eq.nsampl + l := by
      rw [← hl]
      rfl
    have e2 : (MeasData.plus (gap su r mx) r3.state.meas).eq.sign = r3.state.meas.eq.sign +
        (r.state.meas.eq.sign * (1.0 / r.state.meas.eq.nsampl) - r.state.meas.eq.sign) := by
      show r3.state.meas.eq.sign + ((normalized su r.iteration r.state.meas).eq.sign - _) = _
      unfold normalized
      rw [if_pos hit]
      rfl
    rw [e1, e2]
    congr 3
    norm_num
    ring

/-! ## Runs of a single site -/

section OneSite

variable {mc : Machine} {p : SimParams ℝ}

/-- what is known of a run of a single site -/
structure Ran (su : Setup N) (it : ℤ) (meas : MeasData) (r : LoopResult (State Seed N MeasData)) :
    Prop where
  live : r.state.rng.NonZero
  le : it ≤ r.iteration
  eqN : r.state.meas.eq.nsampl = meas.eq.nsampl + su.cfg.totalSamples 1 0 0 it r.iteration
  uneqN : r.state.meas.uneq.nsampl = meas.uneq.nsampl + su.cfg.totalSamples 0 0 1 it r.iteration
  sign : r.state.meas.eq.sign = meas.eq.sign + su.cfg.totalSamples 1 0 0 it r.iteration
  field : ∀ l, su.cfg.L ≤ l → ∀ i, r.state.s l i = 0
  tidy : MeasTidy su r.state.meas

/-- runs of a single site without phonons -/
theorem one_site_run [NeZero (sites p)] (hmc : mc.Rounds) (hv : Admissible p) (hg : Guards p)
    (h1 : sites p = 1) (hp : p.usePhonons = false) (fnbase : String) (stop : ℤ → Bool) (fs : FS) (it : ℤ)
    (seed : Seed) (hseed : seed.NonZero) (s : ℕ → Fin (sites p) → Fin 2) (meas : MeasData)
    (hstart : startup (mkSetup mc p fnbase) fs = some (.go it seed s meas)) :
    ∃ r, perform (mkSetup mc p fnbase) stop it seed s meas = some r ∧
      Ran (mkSetup mc p fnbase) it meas r := by
  have hN : sites p < 2 ^ 31 := by omega
  obtain ⟨sys, a1, a2, a3, a4⟩ := sys_defined hmc hv hg.U hg.shift hN fnbase
  obtain ⟨sys', a1', hok⟩ := mkSetup_ok hmc hv hg hN hp fnbase
  obtain rfl : sys = sys' := Option.some.inj (a1.symm.trans a1')
  obtain ⟨hs, hm⟩ := startup_tidy fs it seed s meas hstart
  obtain ⟨r, hr, hlive⟩ := simulate_live (ph := (mkSetup mc p fnbase).ph)
    (cfg := (mkSetup mc p fnbase).cfg) (P := Seed.NonZero) (a3 ▸ xorshift_keeps _ _) a2 hok.L hok.dvd
    hok.phonons stop it seed hseed s (unflat fun _ => 0) (mkSetup mc p fnbase).expX0 zeroCounters meas
    (weight_one_site hmc hv hg h1 sys a1 _ s _ fun _ _ => one_pos)
    (fun sd hsd => a3 ▸ xorshift_shuffle hmc _ hN sd hsd)
    (eq_defined hv hg a4) (fun hn st hst => uneq_defined hv hg hn rfl rfl a4 st hst _)
  obtain ⟨c1, -, c3⟩ := hok.meas.counts
  obtain ⟨le, n1⟩ := simulate_count (mkSetup mc p fnbase).cfg c1 _ _ _ _ _ _ _ _ _ hr
  obtain ⟨-, n2⟩ := simulate_count (mkSetup mc p fnbase).cfg c3 _ _ _ _ _ _ _ _ _ hr
  obtain ⟨-, t1, k1⟩ := simulate_rest (P := MeasTidy (mkSetup mc p fnbase)) hok.ok hok.L hok.dvd
    hok.phonons (fun gu gd m m' => hok.meas.eq_tidy gu gd m m')
    (fun hn sg tu td m m' => hok.meas.uneq_tidy hn sg tu td m m') stop it seed s meas hs hm r hr
  have hsg := (simulate_inv hok.ok hok.L hok.dvd _ (signs_one (ph := (mkSetup mc p fnbase).ph) hok.meas
    (fun s E l hE => det_one_site hmc hv hg h1 sys a1 _ l s E hE) (meas.eq.sign - meas.eq.nsampl))
    stop it seed s (unflat fun _ => 0) (mkSetup mc p fnbase).expX0 zeroCounters meas
    (fun h => absurd h (by rw [hok.phonons]; exact Bool.false_ne_true)) (by ring) r hr).2
  refine ⟨r, (perform_eq hok _ _ _ _ _).trans hr, hlive, le, n1, n2, ?_, t1.field, k1.meas⟩
  rw [hsg, n1]
  push_cast
  ring

end OneSite

/-! ## A small system -/

/-- one site, one time slice, `n` iterations -/
noncomputable def exN (n : ℤ) : SimParams ℝ := { exP with nsampl := n }

theorem exN_admissible (n : ℤ) : Admissible (exN n) :=
  have h := exP_admissible
  ⟨h.norb, h.nx, h.ny, h.noSelf, h.noDouble, h.l, h.prodBlen, h.dvdL, h.dvdNwraps, h.nwraps, h.itime⟩

theorem exN_guards (n : ℤ) : Guards (exN n) := by
  refine ⟨fun o _ => ?_, le_refl 0, fun h => Bool.noConfusion h, fun h => absurd h (lt_irrefl 0)⟩
  norm_num [exN, exP]

instance (n : ℤ) : NeZero (sites (exN n)) := ⟨by show (1 : ℕ) * (1 * 1) ≠ 0; decide⟩

theorem exN_samples (mc : Machine) (n : ℤ) (fnbase : String) (it it' : ℤ) (h : 0 ≤ it) :
    (mkSetup mc (exN n) fnbase).cfg.totalSamples 1 0 0 it it' = (it' - it).toNat ∧
    (mkSetup mc (exN n) fnbase).cfg.totalSamples 0 0 1 it it' = 0 := by
  constructor
  · rw [totalSamples_eq]
    show (it' - max it 0).toNat * (1 / 1) = _
    rw [max_eq_left h, Nat.div_one, mul_one]
  · rw [totalSamples_uneq, Finset.card_eq_zero, Finset.filter_eq_empty_iff]
    intro x _ hx
    exact absurd hx.2.1 (lt_irrefl 0)

/-- a process of the small system that is not asked to stop -/
theorem exN_never {mc : Machine} (hmc : mc.Rounds) (n : ℤ) (fnbase : String) (fs : FS) (it : ℤ)
    (h0 : 0 ≤ it) (seed : Seed) (hseed : seed.NonZero) (s : ℕ → Fin (sites (exN n)) → Fin 2)
    (meas : MeasData) (hstart : startup (mkSetup mc (exN n) fnbase) fs = some (.go it seed s meas)) :
    ∃ r, perform (mkSetup mc (exN n) fnbase) (fun _ => false) it seed s meas = some r ∧
      Ran (mkSetup mc (exN n) fnbase) it meas r ∧ r.iteration = max it n ∧
      r.state.meas.eq.nsampl = meas.eq.nsampl + (n - it).toNat ∧
      r.state.meas.eq.sign = meas.eq.sign + (n - it).toNat ∧
      r.state.meas.uneq.nsampl = meas.uneq.nsampl ∧
      process (mkSetup mc (exN n) fnbase) never fs =
        some (putAll fs (finalWrites (mkSetup mc (exN n) fnbase) r), 0) := by
  obtain ⟨r, hr, hran⟩ := one_site_run hmc (exN_admissible n) (exN_guards n) rfl rfl fnbase
    (fun _ => false) fs it seed hseed s meas hstart
  obtain ⟨i1, i2⟩ := never_iteration hr
  have ht : (mkSetup mc (exN n) fnbase).total = n := zero_add n
  rw [ht] at i1
  obtain ⟨c1, c2⟩ := exN_samples mc n fnbase it r.iteration h0
  have e : (r.iteration - it).toNat = (n - it).toNat := by omega
  refine ⟨r, hr, hran, i1, ?_, ?_, ?_, ?_⟩
  · rw [hran.eqN, c1, e]
  · rw [hran.sign, c1, e]
  · rw [hran.uneqN, c2, add_zero]
  · refine (process_go never_clean hstart _).2 ⟨r, hr, ?_⟩
    rw [i2]
    rfl

/-- C48 is false: after a finished run of `n ≥ 2` iterations in which all samples have the sign 1, every
extension to `m > n` iterations gives a wrong average sign, since the sums read back had already been
divided by `n` -/
theorem extension_wrong {mc : Machine} (hmc : mc.Rounds) (fnbase : String) (fs : FS)
    (hfs : searchCheckpoint fs fnbase ≠ 0) (n m : ℤ) (hn : 2 ≤ n) (hnm : n < m) (hm : m < 2 ^ 31) :
    ∃ fs1 fs2 fs3, process (mkSetup mc (exN n) fnbase) never fs = some (fs1, 0) ∧
      process (mkSetup mc (exN m) fnbase) never fs1 = some (fs2, 0) ∧
      process (mkSetup mc (exN m) fnbase) never fs = some (fs3, 0) ∧
      fs1 (fnbase ++ "_eqlt_sign.dat") = some (encDouble 1) ∧
      fs3 (fnbase ++ "_eqlt_sign.dat") = some (encDouble 1) ∧
      fs2 (fnbase ++ "_eqlt_sign.dat") = some (encDouble ((1 + (m - n)) / m)) ∧
      ((1 + (m - n)) / m : ℝ) < 1 := by
  have hsd := drawField_nonZero mc.rnd mc.order (mkSetup mc (exN n) fnbase).LxN _
    (seed_nonZero (mc := mc) (exN_admissible n) fnbase)
  have fresh : ∀ k, 1 ≤ k → ∃ r, Ran (mkSetup mc (exN k) fnbase) 0 (MeasData.allocate
      (mkSetup mc (exN k) fnbase).maxNsampl) r ∧
      process (mkSetup mc (exN k) fnbase) never fs =
        some (putAll fs (finalWrites (mkSetup mc (exN k) fnbase) r), 0) ∧ r.iteration = k ∧
      r.state.meas.eq.nsampl = k.toNat ∧ r.state.meas.eq.sign = k.toNat ∧
      r.state.meas.uneq.nsampl = 0 := by
    intro k hk
    obtain ⟨r, -, h2, h3, h4, h5, h6, h7⟩ := exN_never hmc k fnbase fs 0 le_rfl _ hsd _ _
      (startup_fresh (mkSetup mc (exN k) fnbase) fs hfs)
    refine ⟨r, h2, h7, by omega, ?_, ?_, h6⟩
    · rw [h4]
      simp [MeasData.allocate, EqData.allocate]
    · rw [h5]
      simp [MeasData.allocate, EqData.allocate]
  have cplx : ∀ k : ℤ, (mkSetup mc (exN k) fnbase).total = k := fun k => zero_add k
  have one : ∀ (k : ℤ) (r : LoopResult (State Seed (sites (exN k)) MeasData)), 1 ≤ k → r.iteration = k →
      r.state.meas.eq.nsampl = k.toNat → r.state.meas.eq.sign = k.toNat →
      putAll fs (finalWrites (mkSetup mc (exN k) fnbase) r) (fnbase ++ "_eqlt_sign.dat") =
        some (encDouble 1) := by
    intro k r hk h1 h2 h3
    have := sign_file (su := mkSetup mc (exN k) fnbase) fs r
    rw [show (mkSetup mc (exN k) fnbase).fnbase = fnbase from rfl] at this
    rw [this]
    unfold avg
    rw [if_pos (h1.trans (cplx k).symm), h2, h3, div_self]
    have : k.toNat ≠ 0 := by omega
    exact_mod_cast this
  obtain ⟨r1, a1, a2, a3, a4, a5, a6⟩ := fresh n (by omega)
  obtain ⟨r3, b1, b2, b3, b4, b5, -⟩ := fresh m (by omega)
  have hst := startup_next (su := mkSetup mc (exN n) fnbase) fs r1 m (mkSetup mc (exN m) fnbase).maxNsampl
    (by rw [show (mkSetup mc (exN n) fnbase).cfg.nequil = 0 from rfl]; omega) (by omega) a1.field a1.tidy.eq
    a1.tidy.uneq a1.tidy.none (by omega) (by omega)
  have hst' : startup (mkSetup mc (exN m) fnbase)
      (putAll fs (finalWrites (mkSetup mc (exN n) fnbase) r1)) = _ := hst
  obtain ⟨r2, -, c1, c2, c3, c4, -, c6⟩ := exN_never hmc m fnbase _ _ (by omega) _
    (restored_nonZero a1.live) _ _ hst'
  refine ⟨_, _, _, a2, c6, b2, one n r1 (by omega) a3 a4 a5, one m r3 (by omega) b3 b4 b5, ?_, ?_⟩
  · have := sign_file (su := mkSetup mc (exN m) fnbase)
      (putAll fs (finalWrites (mkSetup mc (exN n) fnbase) r1)) r2
    rw [show (mkSetup mc (exN m) fnbase).fnbase = fnbase from rfl] at this
    rw [this]
    unfold avg
    have hn0 : ((n.toNat : ℕ) : ℝ) ≠ 0 := by
      have : n.toNat ≠ 0 := by omega
      exact_mod_cast this
    have d1 : (normalized (mkSetup mc (exN n) fnbase) r1.iteration r1.state.meas).eq.sign = 1 := by
      unfold normalized
      rw [if_pos (a3.trans (cplx n).symm)]
      simp only [normalizeEq, a4, a5]
      field_simp
      norm_num
    have d2 : (normalized (mkSetup mc (exN n) fnbase) r1.iteration r1.state.meas).eq.nsampl = n.toNat := by
      unfold normalized
      rw [if_pos (a3.trans (cplx n).symm)]
      exact a4
    simp only [d1, d2] at c3 c4
    rw [if_pos (by rw [c2, cplx]; omega), c3, c4, a3]
    have e1 : ((m - n).toNat : ℝ) = m - n := by
      have : (((m - n).toNat : ℤ) : ℝ) = ((m - n : ℤ) : ℝ) := by
        rw [Int.toNat_of_nonneg (by omega)]
      push_cast at this
      exact this
    have e2 : (n.toNat : ℝ) = n := by
      have : ((n.toNat : ℤ) : ℝ) = ((n : ℤ) : ℝ) := by
        rw [Int.toNat_of_nonneg (by omega)]
      exact_mod_cast this
    push_cast
    rw [e1, e2]
    congr 3
    ring
  · have : (0 : ℝ) < m := by
      have : (0 : ℤ) < m := by omega
      exact_mod_cast this
    rw [div_lt_one this]
    have : (2 : ℝ) ≤ n := by exact_mod_cast hn
    linarith

end Verif.Main
