import Verif.Props.Lost

/-! # What is lost when a run with phonons is resumed: C59 -/

set_option autoImplicit false

namespace Verif.Main

open Verif.Random Verif.Measurement Verif.MonteCarlo Verif.Files Verif.Params

variable {N : ℕ} {su : Setup N}

/-- the names of all files that are read when a process starts -/
def readNames : List String :=
  ["_iteration.dat", "_randseed.dat", "_hsfield.dat"]
  ++ (["_eqlt_sign.dat", "_eqlt_nsampl.dat"] ++ eqLoadFiles.map Prod.snd)
  ++ (["_uneqlt_sign.dat", "_uneqlt_nsampl.dat"] ++ uneqLoadFiles.map Prod.snd)

/-- the start of a process depends on no other files -/
theorem startup_congr (fs fs' : FS) (h : ∀ x ∈ readNames, fs (su.fnbase ++ x) = fs' (su.fnbase ++ x)) :
    startup su fs = startup su fs' := by
  have rd : ∀ x ∈ readNames, ∀ size n, readData fs (su.fnbase ++ x) size n =
      readData fs' (su.fnbase ++ x) size n := by
    intro x hx size n
    unfold readData
    rw [h x hx]
  have arr : ∀ {A : Type} [DecidableEq A] (files : List (A × String)) (size : A → ℤ) (old : Arrays A),
      (∀ f ∈ files, f.2 ∈ readNames) →
      loadArrays su.F fs su.fnbase files size old = loadArrays su.F fs' su.fnbase files size old := by
    intro A _ files size old hf
    unfold loadArrays
    induction files generalizing old with
    | nil => rfl
    | cons f files ih =>
      rw [List.foldl_cons, List.foldl_cons]
      have : loadArray su.F fs (su.fnbase ++ f.2) (size f.1) (old f.1) =
          loadArray su.F fs' (su.fnbase ++ f.2) (size f.1) (old f.1) := by
        unfold loadArray
        rw [rd _ (hf f List.mem_cons_self)]
      rw [this]
      exact ih _ fun g hg => hf g (List.mem_cons_of_mem _ hg)
  have hs : searchCheckpoint fs su.fnbase = searchCheckpoint fs' su.fnbase := by
    unfold searchCheckpoint
    rw [h "_iteration.dat" (by decide), h "_randseed.dat" (by decide), h "_hsfield.dat" (by decide)]
  have hc : ∀ old, loadCheckpoint su.F fs su.fnbase su.LxN old =
      loadCheckpoint su.F fs' su.fnbase su.LxN old := by
    intro old
    unfold loadCheckpoint loadIteration loadSeed loadField
    simp only [rd "_iteration.dat" (by decide), rd "_randseed.dat" (by decide),
      rd "_hsfield.dat" (by decide)]
  have hm : loadMeas su fs = loadMeas su fs' := by
    unfold loadMeas loadEq loadUneq loadDouble loadCount
    rw [arr eqLoadFiles _ _ (by decide), arr uneqLoadFiles _ _ (by decide),
      rd "_eqlt_sign.dat" (by decide), rd "_eqlt_nsampl.dat" (by decide),
      rd "_uneqlt_sign.dat" (by decide), rd "_uneqlt_nsampl.dat" (by decide)]
  unfold startup
  rw [hs, hc, hm]

/-- C59 is false in every run: the next process starts in the same way whatever phonon field, phonon
sums and counters this process ended with -/
theorem phonons_forgotten (fs : FS) (r r' : LoopResult (State Seed N MeasData))
    (h1 : r'.iteration = r.iteration) (h2 : r'.state.rng = r.state.rng) (h3 : r'.state.s = r.state.s)
    (h4 : r'.state.meas.eq = r.state.meas.eq) (h5 : r'.state.meas.uneq = r.state.meas.uneq) :
    startup su (putAll fs (finalWrites su r')) = startup su (putAll fs (finalWrites su r)) := by
  refine startup_congr _ _ fun x hx => ?_
  have split : ∀ q : LoopResult (State Seed N MeasData), finalWrites su q =
      (checkpointWrites su.fnbase su.LxN (ckptOf q.iteration q.state)
      ++ (eqWrites su.Norb su.Ncell su.fnbase (normalized su q.iteration q.state.meas).eq
      ++ (if su.cfg.nuneqlt > 0 then uneqWrites su.Norb su.Ncell su.cfg.L su.fnbase
        (normalized su q.iteration q.state.meas).uneq else [])))
      ++ (if su.cfg.usePhonons then phWrites su.Norb su.fnbase
        (normalized su q.iteration q.state.meas).ph q.state.cnt else []) := by
    intro q
    unfold finalWrites resultWrites
    simp only [List.append_assoc]
  have other : ∀ (g : FS) (q : LoopResult (State Seed N MeasData)),
      putAll g (if su.cfg.usePhonons then phWrites su.Norb su.fnbase
        (normalized su q.iteration q.state.meas).ph q.state.cnt else []) (su.fnbase ++ x) =
      g (su.fnbase ++ x) := by
    intro g q
    refine putAll_other _ _ _ fun w hw => ?_
    split at hw
    · have hn : w.1 ∈ (phWrites su.Norb su.fnbase
          (normalized su q.iteration q.state.meas).ph q.state.cnt).map Prod.fst :=
        List.mem_map.2 ⟨w, hw, rfl⟩
      rw [phWrites_names] at hn
      obtain ⟨y, hy, e⟩ := List.mem_map.1 hn
      rw [← e, Ne, String.append_right_inj]
      rintro rfl
      revert hx hy
      have : ∀ x ∈ readNames, x ∉ ["_phonon_sign.dat", "_phonon_nsampl.dat"] ++ phFiles.map Prod.snd
          ++ ["_phonon_n_local_accept.dat", "_phonon_n_local_total.dat", "_phonon_n_block_accept.dat",
            "_phonon_n_block_total.dat"] := by decide
      exact fun h1 h2 => this _ h1 h2
    · exact absurd hw List.not_mem_nil
  have e1 : ckptOf r'.iteration r'.state = ckptOf r.iteration r.state := by
    unfold ckptOf
    rw [h1, h2, h3]
  have e2 : (normalized su r'.iteration r'.state.meas).eq = (normalized su r.iteration r.state.meas).eq ∧
      (normalized su r'.iteration r'.state.meas).uneq = (normalized su r.iteration r.state.meas).uneq := by
    unfold normalized
    rw [h1]
    split
    · simp only [h4, h5, and_self]
    · exact ⟨h4, h5⟩
  rw [split, split, putAll_append fs _ (if su.cfg.usePhonons then _ else _),
    putAll_append fs _ (if su.cfg.usePhonons then _ else _), other, other, e1, e2.1, e2.2]

/-- the phonon data of a process start empty, with or without a checkpoint -/
theorem phonon_data_start (fs : FS) (it : ℤ) (seed : Seed) (s : ℕ → Fin N → Fin 2) (meas : MeasData)
    (h : startup su fs = some (.go it seed s meas)) : meas.ph = PhData.allocate su.maxNsampl := by
  unfold startup at h
  split at h
  · simp only [Option.some.injEq, Start.go.injEq] at h
    rw [← h.2.2.2]
    rfl
  · simp only at h
    split at h
    · cases h
    · split at h
      · cases h
      · rw [Option.map_eq_some_iff] at h
        obtain ⟨x, -, h⟩ := h
        simp only [Start.go.injEq] at h
        rw [← h.2.2.2]
        rfl

/-- the file with the number of phonon samples -/
theorem phonon_nsampl_file (hp : su.cfg.usePhonons = true) (fs : FS)
    (r : LoopResult (State Seed N MeasData)) :
    putAll fs (finalWrites su r) (su.fnbase ++ "_phonon_nsampl.dat") =
      some (encInt r.state.meas.ph.nsampl) := by
  have := final_file (su := su) fs r (su.fnbase ++ "_phonon_nsampl.dat",
    encInt r.state.meas.ph.nsampl) ?_
  · exact this
  · refine List.mem_append_right _ ?_
    unfold resultWrites
    refine List.mem_append_right _ ?_
    rw [if_pos hp]
    unfold phWrites
    have e : (normalized su r.iteration r.state.meas).ph.nsampl = r.state.meas.ph.nsampl := by
      unfold normalized
      split
      · rfl
      · rfl
    rw [← e]
    simp

/-- the phonon samples taken by the iterations `it`, …, `it' - 1` -/
theorem totalSamples_ph (cfg : Cfg) (hp : cfg.usePhonons = true) (it it' : ℤ) :
    cfg.totalSamples 0 1 0 it it' = (it' - max it cfg.nequil).toNat * (cfg.L / cfg.neqlt.toNat) := by
  rw [← totalSamples_eq]
  unfold Cfg.totalSamples Cfg.samples
  simp only [hp, if_true, Nat.zero_add, Nat.add_zero]

/-- the numbers of samples at the end of a process with phonons -/
theorem phonon_counts [NeZero N] {sys : Sys Seed N MeasData} (hsys : su.sys = some sys)
    (hm : RealMeas su sys.meas) (hp : su.cfg.usePhonons = true) {stop : ℤ → Bool}
    {it : ℤ} {seed : Seed} {s : ℕ → Fin N → Fin 2} {meas : MeasData}
    {r : LoopResult (State Seed N MeasData)} (hr : perform su stop it seed s meas = some r) :
    it ≤ r.iteration ∧ r.state.meas.ph.nsampl = meas.ph.nsampl +
        (r.iteration - max it su.cfg.nequil).toNat * (su.cfg.L / su.cfg.neqlt.toNat) ∧
      r.state.meas.eq.nsampl = meas.eq.nsampl +
        (r.iteration - max it su.cfg.nequil).toNat * (su.cfg.L / su.cfg.neqlt.toNat) := by
  unfold perform at hr
  rw [hsys] at hr
  simp only [Option.bind_eq_bind, Option.bind_some] at hr
  obtain ⟨c1, c2, -⟩ := hm.counts
  obtain ⟨le, n1⟩ := simulate_count su.cfg c1 _ _ _ _ _ _ _ _ _ hr
  obtain ⟨-, n2⟩ := simulate_count su.cfg c2 _ _ _ _ _ _ _ _ _ hr
  rw [totalSamples_eq] at n1
  rw [totalSamples_ph _ hp] at n2
  exact ⟨le, n2, n1⟩

/-- C59: the number of phonon samples in the results is the number taken since the start of the last
process, not since the start of the run as for the equal time samples -/
theorem phonon_samples_last [NeZero N] {sys : Sys Seed N MeasData} (hsys : su.sys = some sys)
    (hm : RealMeas su sys.meas) (hp : su.cfg.usePhonons = true) {inp : RunInput} (hc : inp.Clean)
    {fs fs1 : FS} {it code : ℤ} {seed : Seed} {s : ℕ → Fin N → Fin 2} {meas : MeasData}
    (hstart : startup su fs = some (.go it seed s meas)) (h : process su inp fs = some (fs1, code)) :
    ∃ it', it ≤ it' ∧ fs1 (su.fnbase ++ "_iteration.dat") = some (encInt it') ∧
      fs1 (su.fnbase ++ "_phonon_nsampl.dat") = some (encInt
        ((it' - max it su.cfg.nequil).toNat * (su.cfg.L / su.cfg.neqlt.toNat) : ℕ)) ∧
      fs1 (su.fnbase ++ "_eqlt_nsampl.dat") = some (encInt (meas.eq.nsampl +
        (it' - max it su.cfg.nequil).toNat * (su.cfg.L / su.cfg.neqlt.toNat) : ℕ)) := by
  obtain ⟨r, hr, e⟩ := (process_go hc hstart _).1 h
  obtain ⟨rfl, -⟩ := Prod.mk.inj e
  obtain ⟨le, n2, n1⟩ := phonon_counts hsys hm hp hr
  refine ⟨r.iteration, le, ?_, ?_, ?_⟩
  · exact final_file (su := su) fs r (_, _) (List.mem_append_left _ List.mem_cons_self)
  · rw [phonon_nsampl_file hp, n2, phonon_data_start fs it seed s meas hstart]
    simp [PhData.allocate]
  · rw [nsampl_file, n1]

/-! ## A small system -/

/-- the start of the next process, without any knowledge of the measurement data -/
theorem startup_after (fs : FS) (r : LoopResult (State Seed N MeasData)) (hit : r.iteration ≠ su.total)
    (hb : -2 ^ 31 ≤ r.iteration ∧ r.iteration < 2 ^ 31) :
    ∃ s, startup su (putAll fs (finalWrites su r)) = some (.go r.iteration (restored r.state.rng) s
      (loadMeas su (putAll fs (finalWrites su r)))) := by
  obtain ⟨c1, c2⟩ := checkpoint_final (su := su) fs r ⟨0, su.junk.seed, su.junk.s⟩
  obtain ⟨d1, d2, d3⟩ := newCkpt_same su.F su.LxN (ckptOf r.iteration r.state)
    ⟨0, su.junk.seed, su.junk.s⟩ hb.1 hb.2
  generalize newCkpt su.F su.LxN (ckptOf r.iteration r.state) ⟨0, su.junk.seed, su.junk.s⟩ = k at *
  have d1' : k.iteration = r.iteration := d1
  have d2' : k.seed = restored r.state.rng := d2
  have hbits : ∀ j < su.LxN, k.s j = 0#8 ∨ k.s j = 1#8 := by
    intro j hj
    have hval : ∀ v : Fin 2, BitVec.ofNat 8 v.val = 0#8 ∨ BitVec.ofNat 8 v.val = 1#8 := by decide
    rw [d3 j hj]
    show fieldBytes r.state.s j = _ ∨ fieldBytes r.state.s j = _
    unfold fieldBytes
    split
    · exact hval _
    · left
      rfl
  refine ⟨unflat fun j => if j < su.LxN ∧ k.s j = 1#8 then 1 else 0, ?_⟩
  unfold startup
  rw [c1]
  simp only [ne_eq, not_true_eq_false, if_false]
  rw [c2]
  simp only [lt_irrefl, if_false]
  rw [d1', if_neg hit, d2']
  unfold bytesField
  rw [if_pos hbits]
  rfl

/-- C59 is false: two iterations with phonons give two phonon samples, but only one if the run is
stopped after the first iteration and resumed; the number of equal time samples is two in both cases -/
theorem phonon_samples_lost {mc : Machine} (hmc : mc.Rounds) (fnbase : String) (fs : FS)
    (hfs : searchCheckpoint fs fnbase ≠ 0) :
    ∃ fs1 fs2 fs3, process (mkSetup mc exPph fnbase) (stopAt 1) fs = some (fs1, 1) ∧
      process (mkSetup mc exPph fnbase) never fs1 = some (fs2, 0) ∧
      process (mkSetup mc exPph fnbase) never fs = some (fs3, 0) ∧
      fs2 (fnbase ++ "_iteration.dat") = some (encInt 2) ∧
      fs2 (fnbase ++ "_eqlt_nsampl.dat") = some (encInt 2) ∧
      fs2 (fnbase ++ "_phonon_nsampl.dat") = some (encInt 1) ∧
      fs3 (fnbase ++ "_iteration.dat") = some (encInt 2) ∧
      fs3 (fnbase ++ "_eqlt_nsampl.dat") = some (encInt 2) ∧
      fs3 (fnbase ++ "_phonon_nsampl.dat") = some (encInt 2) := by
  have hN : sites exPph < 2 ^ 31 := by decide
  have hw : ∀ sys, sysOf mc exPph = some sys → ∀ s X, sys.weight exPph.L.toNat s (sys.expOf (phOf exPph) X) ≠ 0 :=
    fun sys h s _ => weight_one_site hmc exPph_admissible exPph_guards rfl sys h _ s _
      fun _ _ => Real.exp_pos _
  obtain ⟨sys, h1, h2, h3, h4⟩ := sys_defined hmc exPph_admissible exPph_guards.U exPph_guards.shift hN fnbase
  have hm : RealMeas (mkSetup mc exPph fnbase) sys.meas := ⟨_, _, _, _, _, _, h4⟩
  have hseed := drawField_nonZero mc.rnd mc.order (mkSetup mc exPph fnbase).LxN _
    (seed_nonZero (mc := mc) exPph_admissible fnbase)
  have hst := startup_fresh (mkSetup mc exPph fnbase) fs hfs
  have iter : ∀ (fs : FS) (x : LoopResult (State Seed (sites exPph) MeasData)),
      putAll fs (finalWrites (mkSetup mc exPph fnbase) x) (fnbase ++ "_iteration.dat") =
        some (encInt x.iteration) := fun fs x =>
    final_file (su := mkSetup mc exPph fnbase) fs x (_, _) (List.mem_append_left _ List.mem_cons_self)
  -- the first process
  obtain ⟨r, hr, hlive⟩ := perform_defined_ph_partial hmc exPph_admissible exPph_guards hN rfl fnbase
    (stopAt 1).stop 0 _ hseed _ _ (phonon_data_start fs _ _ _ _ hst) hw
  obtain ⟨i1, i2⟩ := stopAt_iteration (su := mkSetup mc exPph fnbase) hr (by norm_num)
    (show (1 : ℤ) < 0 + 2 by norm_num)
  have hp1 : process (mkSetup mc exPph fnbase) (stopAt 1) fs =
      some (putAll fs (finalWrites (mkSetup mc exPph fnbase) r), 1) :=
    (process_go (stopAt_clean 1) hst _).2 ⟨r, hr, by rw [i2]; rfl⟩
  -- the second process
  obtain ⟨s', hst2⟩ := startup_after (su := mkSetup mc exPph fnbase) fs r
    (by rw [i1]; show (1 : ℤ) ≠ 0 + 2; norm_num) (by rw [i1]; norm_num)
  obtain ⟨r2, hr2, -⟩ := perform_defined_ph_partial hmc exPph_admissible exPph_guards hN rfl fnbase
    (fun _ => false) _ _ (restored_nonZero hlive) _ _ (phonon_data_start _ _ _ _ _ hst2) hw
  obtain ⟨j1, j2⟩ := never_iteration hr2
  have hp2 : process (mkSetup mc exPph fnbase) never
      (putAll fs (finalWrites (mkSetup mc exPph fnbase) r)) = some (_, 0) :=
    (process_go never_clean hst2 _).2 ⟨r2, hr2, by rw [j2]; rfl⟩
  -- the uninterrupted process
  obtain ⟨r3, hr3, -⟩ := perform_defined_ph_partial hmc exPph_admissible exPph_guards hN rfl fnbase
    (fun _ => false) 0 _ hseed _ _ (phonon_data_start fs _ _ _ _ hst) hw
  obtain ⟨k1, k2⟩ := never_iteration hr3
  have hp3 : process (mkSetup mc exPph fnbase) never fs = some (_, 0) :=
    (process_go never_clean hst _).2 ⟨r3, hr3, by rw [k2]; rfl⟩
  have t1 : r2.iteration = 2 := by
    rw [j1, i1]
    show max (1 : ℤ) (0 + 2) = 2
    decide
  have t2 : r3.iteration = 2 := by
    rw [k1]
    show max (0 : ℤ) (0 + 2) = 2
    decide
  obtain ⟨-, -, b1⟩ := phonon_counts (su := mkSetup mc exPph fnbase) h1 hm rfl hr
  obtain ⟨-, a2, b2⟩ := phonon_counts (su := mkSetup mc exPph fnbase) h1 hm rfl hr2
  obtain ⟨-, a3, b3⟩ := phonon_counts (su := mkSetup mc exPph fnbase) h1 hm rfl hr3
  rw [i1] at b1
  rw [i1, t1] at a2 b2
  rw [t2] at a3 b3
  rw [phonon_data_start _ _ _ _ _ hst2] at a2
  have b1' : r.state.meas.eq.nsampl = 1 :=
    b1.trans (show 0 + (1 - max (0 : ℤ) 0).toNat * (1 / 1) = _ by decide)
  have a2' : r2.state.meas.ph.nsampl = 1 :=
    a2.trans (show 0 + (2 - max (1 : ℤ) 0).toNat * (1 / 1) = _ by decide)
  have a3' : r3.state.meas.ph.nsampl = 2 :=
    a3.trans (show 0 + (2 - max (0 : ℤ) 0).toNat * (1 / 1) = _ by decide)
  have b3' : r3.state.meas.eq.nsampl = 2 :=
    b3.trans (show 0 + (2 - max (0 : ℤ) 0).toNat * (1 / 1) = _ by decide)
  have hload : (loadMeas (mkSetup mc exPph fnbase)
      (putAll fs (finalWrites (mkSetup mc exPph fnbase) r))).eq.nsampl = 1 := by
    show loadCount _ _ _ _ = 1
    unfold loadCount readData
    rw [nsampl_file (su := mkSetup mc exPph fnbase) fs r, b1']
    simp only [encInt_length]
    show (decInt (mkSetup mc exPph fnbase).F (encInt (1 : ℕ))).toNat = 1
    rw [decInt_encInt _ _ (by norm_num) (by norm_num)]
    rfl
  rw [hload] at b2
  have b2' : r2.state.meas.eq.nsampl = 2 :=
    b2.trans (show 1 + (2 - max (1 : ℤ) 0).toNat * (1 / 1) = _ by decide)
  refine ⟨_, _, _, hp1, hp2, hp3, ?_, ?_, ?_, ?_, ?_, ?_⟩
  · rw [iter, t1]
  · refine (nsampl_file (su := mkSetup mc exPph fnbase) _ r2).trans ?_
    rw [b2']
    rfl
  · refine (phonon_nsampl_file (su := mkSetup mc exPph fnbase) rfl _ r2).trans ?_
    rw [a2']
    rfl
  · rw [iter, t2]
  · refine (nsampl_file (su := mkSetup mc exPph fnbase) _ r3).trans ?_
    rw [b3']
    rfl
  · refine (phonon_nsampl_file (su := mkSetup mc exPph fnbase) rfl _ r3).trans ?_
    rw [a3']
    rfl

end Verif.Main
