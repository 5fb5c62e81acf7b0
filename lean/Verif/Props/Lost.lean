import Verif.Props.Extend

/-! # What is lost between processes: C47, C50, C55, C59 -/

set_option autoImplicit false

namespace Verif.Main

open Verif.Random Verif.Measurement Verif.MonteCarlo Verif.Files Verif.Params

variable {N : ℕ} {su : Setup N}

/-- a request to stop arrives before iteration `k` -/
def stopAt (k : ℤ) : RunInput := ⟨fun i => Decidable.decide (k ≤ i), false, fun _ => .none, fun _ => .none⟩

theorem stopAt_clean (k : ℤ) : (stopAt k).Clean := ⟨rfl, rfl⟩

theorem stopAt_iteration [NeZero N] {it k : ℤ} {seed : Seed} {s : ℕ → Fin N → Fin 2} {meas : MeasData}
    {r : LoopResult (State Seed N MeasData)} (h : perform su (stopAt k).stop it seed s meas = some r)
    (h1 : it ≤ k) (h2 : k < su.total) : r.iteration = k ∧ r.broke = true := by
  unfold perform at h
  simp only [Option.bind_eq_bind] at h
  obtain ⟨sys, -, h⟩ := Option.bind_eq_some_iff.1 h
  unfold simulate at h
  simp only [Option.bind_eq_bind] at h
  obtain ⟨st0, -, h⟩ := Option.bind_eq_some_iff.1 h
  obtain ⟨m, m1, m2, -, -, m5, m6, m7⟩ := simLoop_spec _ _ _ _ _ _ _ h
  have ht : su.total = su.cfg.nequil + su.cfg.nsampl := rfl
  have hm : m ≤ (k - it).toNat := by
    by_contra hc
    have := m5 (k - it).toNat (by omega)
    simp only [stopAt, decide_eq_false_iff_not] at this
    omega
  cases hb : r.broke with
  | true =>
    have := (m6 hb).2
    simp only [stopAt, decide_eq_true_eq] at this
    exact ⟨by omega, rfl⟩
  | false =>
    have := m7 hb
    omega

/-- a process of the small system that is stopped before iteration `k` -/
theorem exN_stop {mc : Machine} (hmc : mc.Rounds) (n k : ℤ) (h0 : 0 ≤ k) (hk : k < n) (fnbase : String)
    (fs : FS) (hfs : searchCheckpoint fs fnbase ≠ 0) :
    ∃ r, perform (mkSetup mc (exN n) fnbase) (stopAt k).stop 0
        (drawField (mkSetup mc (exN n) fnbase).rng (mkSetup mc (exN n) fnbase).LxN
          (seedInit (mkSetup mc (exN n) fnbase).seed)).2
        (unflat (drawField (mkSetup mc (exN n) fnbase).rng (mkSetup mc (exN n) fnbase).LxN
          (seedInit (mkSetup mc (exN n) fnbase).seed)).1)
        (MeasData.allocate (mkSetup mc (exN n) fnbase).maxNsampl) = some r ∧
      Ran (mkSetup mc (exN n) fnbase) 0 (MeasData.allocate (mkSetup mc (exN n) fnbase).maxNsampl) r ∧
      r.iteration = k ∧ r.state.meas.eq.nsampl = k.toNat ∧ r.state.meas.eq.sign = k.toNat ∧
      r.state.meas.uneq.nsampl = 0 ∧
      process (mkSetup mc (exN n) fnbase) (stopAt k) fs =
        some (putAll fs (finalWrites (mkSetup mc (exN n) fnbase) r), 1) := by
  have hstart := startup_fresh (mkSetup mc (exN n) fnbase) fs hfs
  obtain ⟨r, hr, hran⟩ := one_site_run hmc (exN_admissible n) (exN_guards n) rfl rfl fnbase
    (stopAt k).stop fs 0 _ (drawField_nonZero _ _ _ _ (seed_nonZero (exN_admissible n) fnbase)) _ _ hstart
  obtain ⟨i1, i2⟩ := stopAt_iteration hr h0 (by
    show k < (0 : ℤ) + n
    omega)
  obtain ⟨c1, c2⟩ := exN_samples mc n fnbase 0 r.iteration le_rfl
  refine ⟨r, hr, hran, i1, ?_, ?_, ?_, ?_⟩
  · rw [hran.eqN, c1, i1, sub_zero]
    exact zero_add _
  · rw [hran.sign, c1, i1, sub_zero]
    exact zero_add _
  · rw [hran.uneqN, c2]
    rfl
  · refine (process_go (stopAt_clean k) hstart _).2 ⟨r, hr, ?_⟩
    rw [i2]
    rfl

/-- C55 is false when a checkpoint has more iterations than are asked for: a run stopped after `k`
iterations is followed by a run for which `n < k` iterations suffice; it does nothing, reports success
and leaves sums which are not divided -/
theorem beyond_end_raw {mc : Machine} (hmc : mc.Rounds) (fnbase : String) (fs : FS)
    (hfs : searchCheckpoint fs fnbase ≠ 0) (n k m : ℤ) (h0 : 0 ≤ n) (hnk : n < k) (hkm : k < m)
    (hm : m < 2 ^ 31) :
    ∃ fs1 fs2, process (mkSetup mc (exN m) fnbase) (stopAt k) fs = some (fs1, 1) ∧
      process (mkSetup mc (exN n) fnbase) never fs1 = some (fs2, 0) ∧
      fs2 (fnbase ++ "_iteration.dat") = some (encInt k) ∧
      fs2 (fnbase ++ "_eqlt_nsampl.dat") = some (encInt k) ∧
      fs2 (fnbase ++ "_eqlt_sign.dat") = some (encDouble k) := by
  obtain ⟨r, -, a1, a2, a3, a4, a5, a6⟩ := exN_stop hmc m k (by omega) hkm fnbase fs hfs
  have hst := startup_next (su := mkSetup mc (exN m) fnbase) fs r n (mkSetup mc (exN n) fnbase).maxNsampl
    (by rw [show (mkSetup mc (exN m) fnbase).cfg.nequil = 0 from rfl]; omega) (by omega) a1.field a1.tidy.eq
    a1.tidy.uneq a1.tidy.none (by omega) (by omega)
  have hst' : startup (mkSetup mc (exN n) fnbase)
      (putAll fs (finalWrites (mkSetup mc (exN m) fnbase) r)) = _ := hst
  obtain ⟨r2, -, c1, c2, c3, c4, -, c6⟩ := exN_never hmc n fnbase _ _ (by omega) _
    (restored_nonZero a1.live) _ _ hst'
  have hnorm : normalized (mkSetup mc (exN m) fnbase) r.iteration r.state.meas = r.state.meas := by
    unfold normalized
    rw [if_neg]
    show ¬ r.iteration = (0 : ℤ) + m
    omega
  simp only [hnorm] at c3 c4
  rw [a2, show (n - k).toNat = 0 by omega] at c3 c4
  have e2 : ((k.toNat : ℕ) : ℝ) = k := by
    have : ((k.toNat : ℤ) : ℝ) = ((k : ℤ) : ℝ) := by rw [Int.toNat_of_nonneg (by omega)]
    exact_mod_cast this
  refine ⟨_, _, a6, c6, ?_, ?_, ?_⟩
  · have := final_file (su := mkSetup mc (exN n) fnbase)
      (putAll fs (finalWrites (mkSetup mc (exN m) fnbase) r)) r2 (_, _)
      (List.mem_append_left _ List.mem_cons_self)
    refine this.trans ?_
    show some (encInt r2.iteration) = _
    rw [c2, a2, max_eq_left hnk.le]
  · refine (nsampl_file (su := mkSetup mc (exN n) fnbase) _ r2).trans ?_
    rw [c3, a3]
    congr 2
    omega
  · refine (sign_file (su := mkSetup mc (exN n) fnbase) _ r2).trans ?_
    unfold avg
    rw [if_neg, c4, a4, e2]
    · simp
    · show ¬ r2.iteration = (0 : ℤ) + n
      rw [c2, a2]
      omega

/-! ## C50 -/

/-- without files of measurement data, the data structures stay as they were allocated -/
theorem loadMeas_none (fs : FS)
    (h : ∀ x ∈ ["_eqlt_sign.dat", "_eqlt_nsampl.dat"] ++ eqLoadFiles.map Prod.snd
      ++ (["_uneqlt_sign.dat", "_uneqlt_nsampl.dat"] ++ uneqLoadFiles.map Prod.snd),
      fs (su.fnbase ++ x) = none) : loadMeas su fs = MeasData.allocate su.maxNsampl := by
  have arr : ∀ {A : Type} [DecidableEq A] (files : List (A × String)) (size : A → ℤ) (old : Arrays A),
      (∀ f ∈ files, fs (su.fnbase ++ f.2) = none) → loadArrays su.F fs su.fnbase files size old = old := by
    intro A _ files size old hf
    unfold loadArrays
    induction files generalizing old with
    | nil => rfl
    | cons f files ih =>
      rw [List.foldl_cons]
      have : loadArray su.F fs (su.fnbase ++ f.2) (size f.1) (old f.1) = old f.1 := by
        unfold loadArray readData
        rw [hf f List.mem_cons_self]
      rw [this, Function.update_eq_self]
      exact ih _ fun g hg => hf g (List.mem_cons_of_mem _ hg)
  have dbl : ∀ x old, fs (su.fnbase ++ x) = none → loadDouble su.F fs (su.fnbase ++ x) old = old := by
    intro x old hx
    unfold loadDouble readData
    rw [hx]
  have cnt : ∀ x old, fs (su.fnbase ++ x) = none → loadCount su.F fs (su.fnbase ++ x) old = old := by
    intro x old hx
    unfold loadCount readData
    rw [hx]
  unfold loadMeas MeasData.allocate loadEq loadUneq
  rw [arr eqLoadFiles, arr uneqLoadFiles, dbl, dbl, cnt, cnt]
  · split <;> rfl
  · exact h _ (by simp)
  · exact h _ (by simp)
  · exact h _ (by simp)
  · exact h _ (by simp)
  · intro f hf
    refine h _ (List.mem_append_right _ (List.mem_append_right _ (List.mem_map.2 ⟨f, hf, rfl⟩)))
  · intro f hf
    refine h _ (List.mem_append_left _ (List.mem_append_right _ (List.mem_map.2 ⟨f, hf, rfl⟩)))

theorem crash_all (fs : FS) (ws vs : List Write) : Crash fs (ws ++ vs) (putAll fs ws) := by
  induction ws generalizing fs with
  | nil => exact Crash.before fs vs
  | cons w ws ih => exact Crash.later fs _ w (ws ++ vs) (ih _)

/-- C50 is false: if the first process dies between the checkpoint and the results, the next one goes
on and reports success with all iterations done, but with fewer samples than iterations -/
theorem crash_loses_samples {mc : Machine} (hmc : mc.Rounds) (fnbase : String) (n k : ℤ) (h0 : 0 < k)
    (hk : k < n) (hn : n < 2 ^ 31) :
    ∃ (r : LoopResult (State Seed (sites (exN n)) MeasData)) (fs1 fs2 fs3 : FS),
      process (mkSetup mc (exN n) fnbase) (stopAt k) (fun _ => none) =
        some (putAll (fun _ => none) (finalWrites (mkSetup mc (exN n) fnbase) r), 1) ∧
      Crash (fun _ => none) (finalWrites (mkSetup mc (exN n) fnbase) r) fs1 ∧
      process (mkSetup mc (exN n) fnbase) never fs1 = some (fs2, 0) ∧
      process (mkSetup mc (exN n) fnbase) never (fun _ => none) = some (fs3, 0) ∧
      fs2 (fnbase ++ "_iteration.dat") = some (encInt n) ∧
      fs2 (fnbase ++ "_eqlt_nsampl.dat") = some (encInt (n - k)) ∧
      fs3 (fnbase ++ "_iteration.dat") = some (encInt n) ∧
      fs3 (fnbase ++ "_eqlt_nsampl.dat") = some (encInt n) := by
  have hfs : searchCheckpoint (fun _ => none) fnbase ≠ 0 := by
    unfold searchCheckpoint
    simp
  obtain ⟨r, -, a1, a2, a3, a4, a5, a6⟩ := exN_stop hmc n k (by omega) hk fnbase (fun _ => none) hfs
  obtain ⟨r3, -, -, b2, b3, -, -, b6⟩ := exN_never hmc n fnbase _ 0 le_rfl _
    (drawField_nonZero mc.rnd mc.order _ _ (seed_nonZero (mc := mc) (exN_admissible n) fnbase)) _ _
    (startup_fresh (mkSetup mc (exN n) fnbase) (fun _ => none) hfs)
  let fs1 : FS := putAll (fun _ => none) (checkpointWrites fnbase (mkSetup mc (exN n) fnbase).LxN
    (ckptOf r.iteration r.state))
  have hmeas : loadMeas (mkSetup mc (exN n) fnbase) fs1 =
      MeasData.allocate (mkSetup mc (exN n) fnbase).maxNsampl := by
    refine loadMeas_none _ fun x hx => ?_
    show putAll _ _ (fnbase ++ x) = _
    rw [putAll_other]
    intro w hw
    have hw' : w.1 ∈ ["_iteration.dat", "_randseed.dat", "_hsfield.dat"].map (fnbase ++ ·) := by
      have : w.1 ∈ (checkpointWrites fnbase (mkSetup mc (exN n) fnbase).LxN
        (ckptOf r.iteration r.state)).map Prod.fst := List.mem_map.2 ⟨w, hw, rfl⟩
      exact this
    obtain ⟨y, hy, e⟩ := List.mem_map.1 hw'
    rw [← e, Ne, String.append_right_inj]
    rintro rfl
    revert hx hy
    have : ∀ x ∈ ["_iteration.dat", "_randseed.dat", "_hsfield.dat"],
        x ∉ ["_eqlt_sign.dat", "_eqlt_nsampl.dat"] ++ eqLoadFiles.map Prod.snd
      ++ (["_uneqlt_sign.dat", "_uneqlt_nsampl.dat"] ++ uneqLoadFiles.map Prod.snd) := by decide
    exact fun h1 h2 => this _ h2 h1
  have hst : startup (mkSetup mc (exN n) fnbase) fs1 = some (.go r.iteration (restored r.state.rng)
      r.state.s (MeasData.allocate (mkSetup mc (exN n) fnbase).maxNsampl)) := by
    obtain ⟨-, s2, s3⟩ := load_save (mkSetup mc (exN n) fnbase).F fnbase (mkSetup mc (exN n) fnbase).LxN
      (fun _ => none) (ckptOf r.iteration r.state)
      ⟨0, (mkSetup mc (exN n) fnbase).junk.seed, (mkSetup mc (exN n) fnbase).junk.s⟩
    unfold saveCheckpoint at s2 s3
    rw [writeUntilError_none] at s2 s3
    obtain ⟨d1, d2, d3⟩ := newCkpt_same (mkSetup mc (exN n) fnbase).F (mkSetup mc (exN n) fnbase).LxN
      (ckptOf r.iteration r.state) ⟨0, (mkSetup mc (exN n) fnbase).junk.seed,
      (mkSetup mc (exN n) fnbase).junk.s⟩ (by show -2 ^ 31 ≤ r.iteration; omega)
      (by show r.iteration < 2 ^ 31; omega)
    generalize newCkpt (mkSetup mc (exN n) fnbase).F (mkSetup mc (exN n) fnbase).LxN
      (ckptOf r.iteration r.state) ⟨0, (mkSetup mc (exN n) fnbase).junk.seed,
      (mkSetup mc (exN n) fnbase).junk.s⟩ = c at *
    have d1' : c.iteration = r.iteration := d1
    have d2' : c.seed = restored r.state.rng := d2
    have d3' : bytesField (mkSetup mc (exN n) fnbase).LxN _ c.s = some r.state.s :=
      bytesField_fieldBytes (mkSetup mc (exN n) fnbase).cfg.L r.state.s a1.field _ d3
    unfold startup
    rw [show searchCheckpoint fs1 (mkSetup mc (exN n) fnbase).fnbase = 0 from s2, hmeas,
      show loadCheckpoint (mkSetup mc (exN n) fnbase).F fs1 (mkSetup mc (exN n) fnbase).fnbase
      (mkSetup mc (exN n) fnbase).LxN { (mkSetup mc (exN n) fnbase).junk with iteration := 0 } = (0, c) from s3]
    simp only [ne_eq, not_true_eq_false, if_false, lt_irrefl]
    rw [d1', if_neg (show ¬ r.iteration = (mkSetup mc (exN n) fnbase).total by
      show ¬ r.iteration = (0 : ℤ) + n
      omega), d3', d2']
    rfl
  obtain ⟨r2, -, -, c2, c3, -, -, c6⟩ := exN_never hmc n fnbase _ _ (by omega) _
    (restored_nonZero a1.live) _ _ hst
  have iter : ∀ (fs : FS) (x : LoopResult (State Seed (sites (exN n)) MeasData)),
      putAll fs (finalWrites (mkSetup mc (exN n) fnbase) x) (fnbase ++ "_iteration.dat") =
        some (encInt x.iteration) := fun fs x =>
    final_file (su := mkSetup mc (exN n) fnbase) fs x (_, _) (List.mem_append_left _ List.mem_cons_self)
  refine ⟨r, fs1, _, _, a6, crash_all _ _ _, c6, b6, ?_, ?_, ?_, ?_⟩
  · rw [iter, c2, a2, max_eq_right hk.le]
  · refine (nsampl_file (su := mkSetup mc (exN n) fnbase) _ r2).trans ?_
    rw [c3, a2]
    congr 2
    show (((0 : ℕ) + (n - k).toNat : ℕ) : ℤ) = n - k
    omega
  · rw [iter, b2, max_eq_right (by omega)]
  · refine (nsampl_file (su := mkSetup mc (exN n) fnbase) _ r3).trans ?_
    rw [b3]
    congr 2
    show (((0 : ℕ) + (n - 0).toNat : ℕ) : ℤ) = n
    omega

/-- different counts have different files -/
example (n k : ℤ) (h0 : 0 < k) (hk : k < n) (hn : n < 2 ^ 31) : encInt (n - k) ≠ encInt n := by
  intro h
  have F : Float64 := ⟨fun _ _ => 0, fun _ => 0⟩
  have := congrArg (decInt F) h
  rw [decInt_encInt _ _ (by omega) (by omega), decInt_encInt _ _ (by omega) (by omega)] at this
  omega

/-! ## C47 -/

/-- the file of the generator at the end of a run -/
theorem rng_file (fs : FS) (r : LoopResult (State Seed N MeasData)) :
    putAll fs (finalWrites su r) (su.fnbase ++ "_randseed.dat") =
      some (encArray encWord 16 fun i => savedWords r.state.rng (Fin.ofNat 16 i)) :=
  final_file fs r (_, _) (List.mem_append_left _ (List.mem_cons_of_mem _ List.mem_cons_self))

/-- files of generators with different words are different -/
theorem rng_file_inj {a b : Fin 16 → BitVec 64}
    (h : encArray encWord 16 (fun i => a (Fin.ofNat 16 i)) = encArray encWord 16 fun i => b (Fin.ofNat 16 i)) :
    a = b := by
  funext i
  let F : Float64 := ⟨fun _ _ => 0, fun _ => 0⟩
  have e1 := entry_encArray encWord (decWord F) 8 16 (fun i => a (Fin.ofNat 16 i)) encWord_length
    (decWord_encWord F) i i.2
  have e2 := entry_encArray encWord (decWord F) 8 16 (fun i => b (Fin.ofNat 16 i)) encWord_length
    (decWord_encWord F) i i.2
  rw [h, e2] at e1
  simpa using e1.symm

/-- the words of the generator of the small system at the end of a run of two iterations, and of one
that is stopped in between -/
theorem two_streams (n : ℤ) (mc : Machine) (fnbase : String) :
    savedWords (stateAt (restored (stateAt (stateAt (seedInit (mkSetup mc (exN n) fnbase).seed) 1) 2)) 2) ≠
      savedWords (stateAt (stateAt (seedInit (mkSetup mc (exN n) fnbase).seed) 1) 4) := by
  show savedWords (stateAt (restored (stateAt (stateAt (seedInit (1865811235122147685#64 * 1#64)) 1) 2)) 2) ≠
      savedWords (stateAt (stateAt (seedInit (1865811235122147685#64 * 1#64)) 1) 4)
  intro h
  have := congrFun h
  revert this
  decide +kernel

/-- C47 is false: a run of two iterations that is stopped after the first and resumed ends with another
state of the generator than an uninterrupted one -/
theorem resume_differs {mc : Machine} (hmc : mc.Rounds) (fnbase : String) (fs : FS)
    (hfs : searchCheckpoint fs fnbase ≠ 0) :
    ∃ fs1 fs2 fs3, process (mkSetup mc (exN 2) fnbase) (stopAt 1) fs = some (fs1, 1) ∧
      process (mkSetup mc (exN 2) fnbase) never fs1 = some (fs2, 0) ∧
      process (mkSetup mc (exN 2) fnbase) never fs = some (fs3, 0) ∧
      fs2 (fnbase ++ "_randseed.dat") ≠ fs3 (fnbase ++ "_randseed.dat") := by
  obtain ⟨r, a0, a1, a2, a3, a4, a5, a6⟩ := exN_stop hmc 2 1 (by omega) (by omega) fnbase fs hfs
  obtain ⟨r3, b0, -, b2, -, -, -, b6⟩ := exN_never hmc 2 fnbase _ 0 le_rfl _
    (drawField_nonZero mc.rnd mc.order _ _ (seed_nonZero (mc := mc) (exN_admissible 2) fnbase)) _ _
    (startup_fresh (mkSetup mc (exN 2) fnbase) fs hfs)
  have hst := startup_final (su := mkSetup mc (exN 2) fnbase) fs r
    (by show r.iteration ≠ (0 : ℤ) + 2; omega) (by omega) a1.field a1.tidy (by omega) (by omega)
  obtain ⟨r2, c0, -, c2, -, -, -, c6⟩ := exN_never hmc 2 fnbase _ _ (by omega) _
    (restored_nonZero a1.live) _ _ hst
  refine ⟨_, _, _, a6, c6, b6, ?_⟩
  obtain ⟨sys, s1, hok⟩ := mkSetup_ok hmc (exN_admissible 2) (exN_guards 2)
    (show sites (exN 2) < 2 ^ 31 by show (1 : ℕ) * (1 * 1) < _; omega) rfl fnbase
  obtain ⟨rnd, junk, hr⟩ := hok.rng
  have hN : sites (exN 2) ≤ 2 := by
    show (1 : ℕ) * (1 * 1) ≤ 2
    omega
  rw [perform_eq hok] at a0 b0 c0
  have dr : ∀ (m : ℕ), 2 * sites (exN 2) * (mkSetup mc (exN 2) fnbase).cfg.L * m = 2 * m := by
    intro m
    show 2 * (1 * (1 * 1)) * 1 * m = 2 * m
    omega
  have hf : (drawField (mkSetup mc (exN 2) fnbase).rng (mkSetup mc (exN 2) fnbase).LxN
      (seedInit (mkSetup mc (exN 2) fnbase).seed)).2 =
      stateAt (seedInit (mkSetup mc (exN 2) fnbase).seed) 1 := drawField_draws _ _ _ _
  obtain ⟨k1, m1, w1⟩ := simulate_draws hr hN hok.phonons _ _ _ _ _ _ _ _ _ a0
  obtain ⟨k2, m2, w2⟩ := simulate_draws hr hN hok.phonons _ _ _ _ _ _ _ _ _ c0
  obtain ⟨k3, m3, w3⟩ := simulate_draws hr hN hok.phonons _ _ _ _ _ _ _ _ _ b0
  obtain rfl : k1 = 1 := by omega
  obtain rfl : k2 = 1 := by
    have : max r.iteration 2 = 2 := max_eq_right (by omega)
    omega
  obtain rfl : k3 = 2 := by
    have : max (0 : ℤ) 2 = 2 := by decide
    omega
  rw [dr, hf] at w1
  rw [dr] at w3
  replace w3 := w3.trans (congrArg (stateAt · (2 * 2)) hf)
  rw [dr, w1] at w2
  have e2 := rng_file (su := mkSetup mc (exN 2) fnbase) (putAll fs (finalWrites (mkSetup mc (exN 2) fnbase) r)) r2
  have e3 := rng_file (su := mkSetup mc (exN 2) fnbase) fs r3
  rw [w2] at e2
  rw [w3] at e3
  intro h
  have h' := rng_file_inj (Option.some.inj (e2.symm.trans (h.trans e3)))
  exact two_streams 2 mc fnbase h'

/-- one site, eight time slices, `n` iterations -/
noncomputable def exL (n : ℤ) : SimParams ℝ := { exP with L := 8, nsampl := n }

theorem exL_admissible (n : ℤ) : Admissible (exL n) := by
  constructor <;> first | (intros; rfl) | (intros; left; rfl) | (unfold exL exP; norm_num; done) |
    exact exP_admissible.itime

theorem exL_guards (n : ℤ) : Guards (exL n) := by
  refine ⟨fun o _ => ?_, le_refl 0, fun h => Bool.noConfusion h, fun h => absurd h (lt_irrefl 0)⟩
  norm_num [exL, exP]

instance (n : ℤ) : NeZero (sites (exL n)) := ⟨by show (1 : ℕ) * (1 * 1) ≠ 0; decide⟩

/-- the hypotheses of `resume_small_partial` hold for runs of any length of one site with eight slices -/
example {mc : Machine} (hmc : mc.Rounds) (fnbase : String) (n : ℤ) (h0 : 0 ≤ n) (hn : n * 8 < 2 ^ 31)
    (fs fs1 : FS) (hfs : searchCheckpoint fs fnbase ≠ 0)
    (h : Relation.ReflTransGen (Stop (mkSetup mc (exL n) fnbase)) fs fs1) :
    ∃ out, process (mkSetup mc (exL n) fnbase) never fs = some out ∧
      process (mkSetup mc (exL n) fnbase) never fs1 = some out := by
  have h1 : sites (exL n) = 1 := rfl
  obtain ⟨out, ho⟩ := fresh_defined_partial hmc (exL_admissible n) (exL_guards n) (by omega) rfl fnbase never
    fs hfs (fun sys h s => weight_one_site hmc (exL_admissible n) (exL_guards n) rfl sys h _ s _
      fun _ _ => one_pos)
  obtain ⟨sys, -, hok⟩ := mkSetup_ok hmc (exL_admissible n) (exL_guards n)
    (show sites (exL n) < 2 ^ 31 by omega) rfl fnbase
  exact ⟨out, ho, resume_small_partial hok (by omega) (show 8 ∣ 8 * 1 by decide) rfl
    (show (0 : ℤ) ≤ 0 + n by omega) (show ((0 : ℤ) + n) * 8 < 2 ^ 31 by omega) fs fs1 hfs h out ho⟩

end Verif.Main
