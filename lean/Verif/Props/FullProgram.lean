import Verif.Lemmas.FullFollows
import Verif.Props.Runs

/-! # Property C110: the program built with `measurement_full.c` -/

set_option autoImplicit false

namespace Verif.Main.Full

open Verif.Random Verif.Measurement Verif.MonteCarlo Verif.Files Verif.Params

variable {N : ℕ}

/-! ## Two set-ups that differ by their measurements -/

/-- another set-up of the simulation -/
def withSys (su : Setup N) (x : Option (Sys Seed N MeasData)) : Setup N := { su with sys := x }

/-- the set-ups of the two builds -/
structure Twin (Nx Ny : ℕ) (s : ℤ) (su : Setup N) (x : Option (Sys Seed N MeasData)) : Prop where
  hx : 0 < Nx
  hy : 0 < Ny
  cells : su.Ncell = Nx * Ny
  sys : ∀ sys, su.sys = some sys → ∃ R', x = some (sys.withMeas R') ∧
    sys.meas.Follows R' (Agree Nx Ny su.Norb su.cfg.L s)

/-- the set-ups of the program are such a pair -/
theorem twin_mkSetup {mc : Machine} {p : SimParams ℝ} (hv : Admissible p) (hs : 0 ≤ p.pbcShift)
    (fnbase : String) :
    mkSetup mc p fnbase = withSys (Main.mkSetup mc p fnbase) (sysOf mc p) ∧
      Twin p.Nx.toNat p.Ny.toNat p.pbcShift (Main.mkSetup mc p fnbase) (sysOf mc p) := by
  have h2 := hv.nx
  have h3 := hv.ny
  have hx : 0 < p.Nx.toNat := by omega
  have hy : 0 < p.Ny.toNat := by omega
  have : NeZero (sites p) := ⟨sites_pos hv⟩
  refine ⟨rfl, hx, hy, rfl, ?_⟩
  intro sys h
  have h : Main.sysOf mc p = some sys := h
  refine ⟨_, by unfold sysOf; rw [h]; rfl, ?_⟩
  have hm : sys.meas = Main.realMeas p.Norb.toNat (p.Nx.toNat * p.Ny.toNat) p.L.toNat
      (Maps.construct p.Nx.toNat p.Ny.toNat p.pbcShift mc.maps) p.dt (fun o => p.phonon.omega o)
      (mc.qrs _) mc.tau mc.green := by
    unfold Main.sysOf at h
    obtain ⟨k, -, h⟩ := Option.bind_eq_some_iff.1 h
    obtain ⟨hs, -, h⟩ := Option.bind_eq_some_iff.1 h
    rw [← Option.some.inj h]
  rw [hm]
  exact realMeas_follows (N := sites p) hx hy (Nat.mul_comm _ _) hs mc.maps p.L.toNat p.dt _ _ _ _

section
variable [NeZero N] {Nx Ny : ℕ} {s : ℤ} {su : Setup N} {x : Option (Sys Seed N MeasData)}
  (hT : Twin Nx Ny s su x)
include hT

/-- a simulation of the two builds: the configurations are the same, the data agree -/
theorem perform_full {stop : ℤ → Bool} {it : ℤ} {seed : Seed} {f : ℕ → Fin N → Fin 2}
    {meas measF : MeasData} (hr : Agree Nx Ny su.Norb su.cfg.L s meas measF)
    {r : LoopResult (State Seed N MeasData)} (h : perform su stop it seed f meas = some r) :
    ∃ mf, Agree Nx Ny su.Norb su.cfg.L s r.state.meas mf ∧
      perform (withSys su x) stop it seed f measF
        = some ⟨r.iteration, r.state.mapMeas fun _ => mf, r.prog, r.broke⟩ := by
  unfold perform at h
  obtain ⟨sys, hsys, h⟩ := Option.bind_eq_some_iff.1 h
  obtain ⟨R', hx, hf⟩ := hT.sys sys hsys
  obtain ⟨mf, h1, h2⟩ := simulate_follows hf _ _ _ _ _ _ _ _ _ _ measF hr h
  refine ⟨mf, h1, ?_⟩
  unfold perform
  simp only [withSys, hx, Option.bind_eq_bind, Option.bind_some]
  exact h2

omit [NeZero N]

/-- normalisation keeps the agreement -/
theorem normalized_full (it : ℤ) {m mf : MeasData} (h : Agree Nx Ny su.Norb su.cfg.L s m mf) :
    Agree Nx Ny su.Norb su.cfg.L s (Main.normalized su it m) (normalized su it mf) := by
  unfold Main.normalized normalized
  split
  · have hU : Agree Nx Ny su.Norb su.cfg.L s
        { m with uneq := if su.cfg.nuneqlt > 0 then
            normalizeUneq su.Norb su.Ncell su.cfg.L m.uneq else m.uneq }
        { mf with uneq := if su.cfg.nuneqlt > 0 then
            Measurement.Full.normalizeUneq su.Norb su.Ncell su.cfg.L mf.uneq else mf.uneq } := by
      split
      · refine ⟨h.eqCount, h.eqSign, h.eqArr, h.uneqCount, ?_, ?_, h.ph⟩
        · simp only [normalizeUneq, Measurement.Full.normalizeUneq, h.uneqCount, h.uneqSign]
        · simp only [normalizeUneq, Measurement.Full.normalizeUneq, h.uneqCount, hT.cells]
          exact h.uneqArr.scale hT.hx hT.hy _
      · exact h
    refine ⟨h.eqCount, ?_, ?_, hU.uneqCount, hU.uneqSign, hU.uneqArr, ?_⟩
    · simp only [normalizeEq, Measurement.Full.normalizeEq, h.eqCount, h.eqSign]
    · simp only [normalizeEq, Measurement.Full.normalizeEq, h.eqCount, hT.cells]
      exact h.eqArr.scale hT.hx hT.hy _
    · show Measurement.Full.PhAgree su.Norb (if su.cfg.usePhonons = true then _ else _)
        (if su.cfg.usePhonons = true then _ else _)
      split
      · exact Measurement.Full.normalizePh_agree h.ph
      · exact h.ph
  · exact h

end

/-! ## Files -/

section
variable (su : Setup N)

/-- all writes of a process at its end (main.c:258-281) -/
noncomputable def finalWrites (r : LoopResult (State Seed N MeasData)) : List Write :=
  checkpointWrites su.fnbase su.LxN (ckptOf r.iteration r.state)
  ++ resultWrites su (normalized su r.iteration r.state.meas)

/-- the ends of the names of the files of a run -/
def suffixes : List String :=
  ["_iteration.dat", "_randseed.dat", "_hsfield.dat"]
  ++ (["_eqlt_sign.dat", "_eqlt_nsampl.dat"] ++ eqSaveFiles.map Prod.snd)
  ++ (if su.cfg.nuneqlt > 0 then
      ["_uneqlt_sign.dat", "_uneqlt_nsampl.dat"] ++ Measurement.Full.uneqFiles.map Prod.snd else [])
  ++ (if su.cfg.usePhonons then
      ["_phonon_sign.dat", "_phonon_nsampl.dat"] ++ Measurement.Full.phFiles.map Prod.snd else [])

theorem finalWrites_names (r : LoopResult (State Seed N MeasData)) :
    (finalWrites su r).map Prod.fst = (suffixes su).map (su.fnbase ++ ·) := by
  unfold finalWrites resultWrites suffixes
  rw [List.map_append, List.map_append, List.map_append, List.map_append, List.map_append,
    List.map_append, checkpointWrites_names, List.append_assoc, List.append_assoc,
    List.append_assoc]
  congr 1
  congr 1
  congr 1
  · split
    · unfold Measurement.Full.uneqWrites
      rw [List.map_append, List.map_append, arrayWrites_names]
      rfl
    · rfl
  · split
    · unfold Measurement.Full.phWrites
      rw [List.map_append, List.map_append, arrayWrites_names]
      rfl
    · rfl

theorem finalWrites_nodup (r : LoopResult (State Seed N MeasData)) :
    ((finalWrites su r).map Prod.fst).Nodup := by
  rw [finalWrites_names]
  refine names_nodup su.fnbase _ ?_
  unfold suffixes
  split <;> split <;> decide

/-- a checkpoint which cannot be written is reported, and no results are written (main.c:250-258) -/
theorem finish_failed (inp : RunInput) (fs : FS) (r : LoopResult (State Seed N MeasData))
    (h : (saveCheckpoint inp.ckptFault fs su.fnbase su.LxN (ckptOf r.iteration r.state)).2 < 0) :
    finish su inp fs r = ((saveCheckpoint inp.ckptFault fs su.fnbase su.LxN (ckptOf r.iteration r.state)).1, -7) := if_pos h

theorem finish_clean (inp : RunInput) (hc : inp.Clean) (fs : FS)
    (r : LoopResult (State Seed N MeasData)) :
    finish su inp fs r = (putAll fs (finalWrites su r), if r.broke ∨ inp.late then 1 else 0) := by
  unfold finish saveCheckpoint
  rw [hc.1, hc.2, writeUntilError_none]
  simp only [lt_irrefl, if_false]
  rw [writeAll_none]
  unfold finalWrites
  rw [putAll_append]

end

/-- an array that is zero beyond its end -/
noncomputable def cut {A : Type} (size : A → ℤ) (m : Measurement.Arrays A) : Measurement.Arrays A :=
  fun a z => if 0 ≤ z ∧ z < size a then m a z else 0

theorem cut_eq {A : Type} (size : A → ℤ) (m : Measurement.Arrays A) :
    cut size m = fun a z => m a z + (-1) * Measurement.scale size 0 m a z := by
  funext a z
  unfold cut Measurement.scale
  split <;> ring

theorem AvgOf.cut {Nx Ny Norb : ℕ} (hx : 0 < Nx) (hy : 0 < Ny) {s : ℤ} {a a' : EqF → ℤ → ℝ}
    (h : Measurement.Full.AvgOf Nx Ny Norb s a a') :
    Measurement.Full.AvgOf Nx Ny Norb s (cut (Measurement.Full.eqSize Norb (Nx * Ny)) a)
      (cut (EqF.size Norb (Nx * Ny)) a') := by
  rw [cut_eq, cut_eq]
  exact h.add (-1) (h.scale hx hy 0)

theorem UneqAvgOf.cut {Nx Ny Norb L : ℕ} (hx : 0 < Nx) (hy : 0 < Ny) {s : ℤ} {b : Prop}
    {a a' : UneqF → ℤ → ℝ} (h : Measurement.Full.UneqAvgOf Nx Ny Norb L s b a a') :
    Measurement.Full.UneqAvgOf Nx Ny Norb L s b (cut (Measurement.Full.uneqSize Norb (Nx * Ny) L) a)
      (cut (UneqF.size Norb (Nx * Ny) L) a') := by
  rw [cut_eq, cut_eq]
  exact h.add (-1) (h.scale hx hy 0)

/-- what is loaded from files with the data `m`, with any saved arrays -/
theorem loadArrays_cut {A : Type} [DecidableEq A] (F : Float64) (fnbase : String) (fs : FS)
    (files : List (A × String)) (size : A → ℤ) (m : Measurement.Arrays A)
    (hn : (files.map Prod.fst).Nodup) (hall : ∀ a, a ∉ files.map Prod.fst → size a ≤ 0)
    (h : ∀ f ∈ files, fs (fnbase ++ f.2)
      = some (encArray encDouble (size f.1).toNat fun i => m f.1 i)) :
    loadArrays F fs fnbase files size (fun _ _ => 0) = cut size m := by
  funext a
  by_cases ha : a ∈ files.map Prod.fst
  · obtain ⟨⟨b, n⟩, hf, rfl⟩ := List.mem_map.1 ha
    rw [loadArrays_mem F fs fnbase files size _ hn _ hf]
    exact loadArray_saved F fs _ _ _ _ (h _ hf)
  · rw [Measurement.Full.loadArrays_not_mem F fnbase _ _ _ _ a ha]
    have := hall a ha
    funext z
    unfold cut
    rw [if_neg (by omega)]

/-- the files of the two builds: equal checkpoints, and data that agree unless the run is complete -/
structure FilesAgree (Nx Ny : ℕ) (s : ℤ) (su : Setup N) (fs fsF : FS) : Prop where
  ckpt : files su.fnbase fs = files su.fnbase fsF
  data : searchCheckpoint fs su.fnbase = 0 →
    (loadCheckpoint su.F fs su.fnbase su.LxN { su.junk with iteration := 0 }).2.iteration ≠ su.total →
    Agree Nx Ny su.Norb su.cfg.L s (Main.loadMeas su fs) (loadMeas su fsF)

/-- data loaded from files that the two builds have written -/
theorem loaded_agree {Nx Ny : ℕ} (hx : 0 < Nx) (hy : 0 < Ny) {s : ℤ} {su : Setup N}
    (hcell : su.Ncell = Nx * Ny) {m mf : MeasData} (h : Agree Nx Ny su.Norb su.cfg.L s m mf)
    {c : MonteCarlo.Counters} {fs fsF : FS} (hw : ∀ w ∈ Main.resultWrites su m c, fs w.1 = some w.2)
    (hwF : ∀ w ∈ resultWrites su mf, fsF w.1 = some w.2) :
    Agree Nx Ny su.Norb su.cfg.L s (Main.loadMeas su fs) (loadMeas su fsF) := by
  have mem1 : ∀ w ∈ eqWrites su.Norb su.Ncell su.fnbase m.eq, fs w.1 = some w.2 := fun w h =>
    hw w (List.mem_append_left _ (List.mem_append_left _ h))
  have mem1F : ∀ w ∈ Measurement.Full.eqWrites su.Norb su.Ncell su.fnbase mf.eq, fsF w.1 = some w.2 :=
    fun w h => hwF w (List.mem_append_left _ (List.mem_append_left _ h))
  have c1 := mem1 (su.fnbase ++ "_eqlt_sign.dat", encDouble m.eq.sign) (by simp [eqWrites])
  have c1F := mem1F (su.fnbase ++ "_eqlt_sign.dat", encDouble mf.eq.sign)
    (by simp [Measurement.Full.eqWrites])
  have c2 := mem1 (su.fnbase ++ "_eqlt_nsampl.dat", encInt m.eq.nsampl) (by simp [eqWrites])
  have c2F := mem1F (su.fnbase ++ "_eqlt_nsampl.dat", encInt mf.eq.nsampl)
    (by simp [Measurement.Full.eqWrites])
  simp only at c1 c1F c2 c2F
  rw [h.eqSign] at c1F
  rw [h.eqCount] at c2F
  have a1 : (Main.loadMeas su fs).eq.arr = cut (EqF.size su.Norb su.Ncell) m.eq.arr := by
    refine loadArrays_cut su.F su.fnbase fs eqLoadFiles _ m.eq.arr (by decide) ?_ ?_
    · intro a ha
      obtain ⟨n, hn⟩ := eqLoad_all a
      exact absurd (List.mem_map.2 ⟨_, hn, rfl⟩) ha
    · intro f hf
      have hf' : f ∈ eqSaveFiles := (by decide : eqLoadFiles ⊆ eqSaveFiles) hf
      exact mem1 (su.fnbase ++ f.2, _) (List.mem_append_right _ (List.mem_map.2 ⟨f, hf', rfl⟩))
  have a1F : (loadMeas su fsF).eq.arr = cut (Measurement.Full.eqSize su.Norb su.Ncell) mf.eq.arr := by
    refine loadArrays_cut su.F su.fnbase fsF eqLoadFiles _ mf.eq.arr (by decide) ?_ ?_
    · intro a ha
      obtain ⟨n, hn⟩ := eqLoad_all a
      exact absurd (List.mem_map.2 ⟨_, hn, rfl⟩) ha
    · intro f hf
      have hf' : f ∈ eqSaveFiles := (by decide : eqLoadFiles ⊆ eqSaveFiles) hf
      exact mem1F (su.fnbase ++ f.2, _) (List.mem_append_right _ (List.mem_map.2 ⟨f, hf', rfl⟩))
  have dbl : ∀ (path : String) (old : ℝ), fs path = fsF path →
      loadDouble su.F fsF path old = loadDouble su.F fs path old := fun path old e => by
    simp only [loadDouble, readData, e]
  have cnt : ∀ (path : String) (old : ℕ), fs path = fsF path →
      loadCount su.F fsF path old = loadCount su.F fs path old := fun path old e => by
    simp only [loadCount, readData, e]
  have hU : (loadMeas su fsF).uneq.nsampl = (Main.loadMeas su fs).uneq.nsampl ∧
      (loadMeas su fsF).uneq.sign = (Main.loadMeas su fs).uneq.sign ∧
      Measurement.Full.UneqAvgOf Nx Ny su.Norb su.cfg.L s True (loadMeas su fsF).uneq.arr
        (Main.loadMeas su fs).uneq.arr := by
    by_cases hu : su.cfg.nuneqlt > 0
    · have e1 : (Main.loadMeas su fs).uneq = loadUneq su.Norb su.Ncell su.cfg.L su.F fs su.fnbase
          UneqData.allocate := if_pos hu
      have e1F : (loadMeas su fsF).uneq = Measurement.Full.loadUneq su.Norb su.Ncell su.cfg.L su.F fsF
          su.fnbase UneqData.allocate := if_pos hu
      rw [e1, e1F]
      have mem2 : ∀ w ∈ uneqWrites su.Norb su.Ncell su.cfg.L su.fnbase m.uneq, fs w.1 = some w.2 :=
        fun w h => hw w (List.mem_append_left _ (List.mem_append_right _ (by rw [if_pos hu]; exact h)))
      have mem2F : ∀ w ∈ Measurement.Full.uneqWrites su.Norb su.Ncell su.cfg.L su.fnbase mf.uneq,
          fsF w.1 = some w.2 :=
        fun w h => hwF w (List.mem_append_left _ (List.mem_append_right _ (by rw [if_pos hu]; exact h)))
      have d1 := mem2 (su.fnbase ++ "_uneqlt_sign.dat", encDouble m.uneq.sign) (by simp [uneqWrites])
      have d1F := mem2F (su.fnbase ++ "_uneqlt_sign.dat", encDouble mf.uneq.sign)
        (by simp [Measurement.Full.uneqWrites])
      have d2 := mem2 (su.fnbase ++ "_uneqlt_nsampl.dat", encInt m.uneq.nsampl) (by simp [uneqWrites])
      have d2F := mem2F (su.fnbase ++ "_uneqlt_nsampl.dat", encInt mf.uneq.nsampl)
        (by simp [Measurement.Full.uneqWrites])
      simp only at d1 d1F d2 d2F
      rw [h.uneqSign] at d1F
      rw [h.uneqCount] at d2F
      have b1 : (loadUneq su.Norb su.Ncell su.cfg.L su.F fs su.fnbase UneqData.allocate).arr
          = cut (UneqF.size su.Norb su.Ncell su.cfg.L) m.uneq.arr := by
        refine loadArrays_cut su.F su.fnbase fs uneqLoadFiles _ m.uneq.arr (by decide) ?_ ?_
        · intro a ha
          obtain ⟨n, hn⟩ := uneqLoad_all a
          exact absurd (List.mem_map.2 ⟨_, hn, rfl⟩) ha
        · intro f hf
          have hf' : f ∈ uneqSaveFiles := (by decide : uneqLoadFiles ⊆ uneqSaveFiles) hf
          exact mem2 (su.fnbase ++ f.2, _) (List.mem_append_right _ (List.mem_map.2 ⟨f, hf', rfl⟩))
      have b1F : (Measurement.Full.loadUneq su.Norb su.Ncell su.cfg.L su.F fsF su.fnbase
          UneqData.allocate).arr
          = cut (Measurement.Full.uneqSize su.Norb su.Ncell su.cfg.L) mf.uneq.arr := by
        refine loadArrays_cut su.F su.fnbase fsF Measurement.Full.uneqFiles _ mf.uneq.arr (by decide) ?_ ?_
        · intro a ha
          have hz : Measurement.Full.uneqSize su.Norb su.Ncell su.cfg.L a = 0 := by
            cases a <;> first | rfl | exact absurd (by decide) ha
          exact hz.le
        · intro f hf
          exact mem2F (su.fnbase ++ f.2, _) (List.mem_append_right _ (List.mem_map.2 ⟨f, hf, rfl⟩))
      refine ⟨cnt _ _ (d2.trans d2F.symm), dbl _ _ (d1.trans d1F.symm), ?_⟩
      rw [b1, b1F, hcell]
      exact UneqAvgOf.cut hx hy h.uneqArr
    · have e1 : (Main.loadMeas su fs).uneq = UneqData.allocate := if_neg hu
      have e1F : (loadMeas su fsF).uneq = UneqData.allocate := if_neg hu
      rw [e1, e1F]
      exact ⟨rfl, rfl, Measurement.Full.UneqAvgOf.zero Nx Ny su.Norb su.cfg.L s True⟩
  refine ⟨cnt _ _ (c2.trans c2F.symm), dbl _ _ (c1.trans c1F.symm), ?_, hU.1, hU.2.1, hU.2.2,
    Measurement.Full.allocatePh_agree _ _⟩
  rw [a1, a1F, hcell]
  exact AvgOf.cut hx hy h.eqArr

/-! ## Processes -/

theorem checkpoint_of_files {su : Setup N} {fs fsF : FS} (h : files su.fnbase fs = files su.fnbase fsF)
    (old : Ckpt) : searchCheckpoint fsF su.fnbase = searchCheckpoint fs su.fnbase ∧
      loadCheckpoint su.F fsF su.fnbase su.LxN old = loadCheckpoint su.F fs su.fnbase su.LxN old := by
  unfold files at h
  simp only [Prod.mk.injEq] at h
  obtain ⟨h1, h2, h3⟩ := h
  constructor
  · simp only [searchCheckpoint, h1, h2, h3]
  · have rd : ∀ path (a b : ℕ), fs path = fsF path → readData fs path a b = readData fsF path a b :=
      fun path a b e => by simp only [readData, e]
    have e1 : ∀ old, loadIteration su.F fs su.fnbase old = loadIteration su.F fsF su.fnbase old :=
      fun old => by unfold loadIteration; rw [rd _ _ _ h1]
    have e2 : ∀ old, loadSeed su.F fs su.fnbase old = loadSeed su.F fsF su.fnbase old :=
      fun old => by unfold loadSeed; rw [rd _ _ _ h2]
    have e3 : ∀ old, loadField su.F fs su.fnbase su.LxN old = loadField su.F fsF su.fnbase su.LxN old :=
      fun old => by unfold loadField; rw [rd _ _ _ h3]
    unfold loadCheckpoint
    simp only [e1, e2, e3]

/-- writes of the results do not touch the checkpoint -/
theorem files_final (su : Setup N) (fs : FS) (r : LoopResult (State Seed N MeasData)) :
    files su.fnbase (putAll fs (finalWrites su r)) =
      files su.fnbase (putAll fs (checkpointWrites su.fnbase su.LxN (ckptOf r.iteration r.state))) := by
  have hn := finalWrites_nodup su r
  have hc := checkpointWrites_nodup su.fnbase su.LxN (ckptOf r.iteration r.state)
  have key : ∀ w ∈ checkpointWrites su.fnbase su.LxN (ckptOf r.iteration r.state),
      putAll fs (finalWrites su r) w.1 =
        putAll fs (checkpointWrites su.fnbase su.LxN (ckptOf r.iteration r.state)) w.1 := by
    intro w hw
    rw [putAll_mem _ _ hn w (List.mem_append_left _ hw), putAll_mem _ _ hc w hw]
  have h1 := key _ List.mem_cons_self
  have h2 := key _ (List.mem_cons_of_mem _ List.mem_cons_self)
  have h3 := key _ (List.mem_cons_of_mem _ (List.mem_cons_of_mem _ List.mem_cons_self))
  unfold files
  simp only at h1 h2 h3
  rw [h1, h2, h3]

/-- the start from a checkpoint that has been read -/
noncomputable def startFrom (su : Setup N) (r : ℤ × Ckpt) (m : MeasData) : Option (Start N) :=
  if r.1 < 0 then some (.refuse (-5))
  else if r.2.iteration = su.total then some (.refuse (-6))
  else (bytesField su.LxN N r.2.s).map fun s => .go r.2.iteration r.2.seed s m

/-- what a process has written: the results of the two builds agree, or the process was refused -/
def ResultsAgree (Nx Ny : ℕ) (s : ℤ) (su : Setup N) (fs fsF fs1 fsF1 : FS) : Prop :=
  (fs1 = fs ∧ fsF1 = fsF) ∨ ∃ (m mf : MeasData) (c : MonteCarlo.Counters),
    Agree Nx Ny su.Norb su.cfg.L s m mf ∧ (∀ w ∈ Main.resultWrites su m c, fs1 w.1 = some w.2) ∧
      ∀ w ∈ resultWrites su mf, fsF1 w.1 = some w.2

section
variable [NeZero N] {Nx Ny : ℕ} {s : ℤ} {su : Setup N} {x : Option (Sys Seed N MeasData)}
  (hT : Twin Nx Ny s su x)
include hT

/-- **C110**, one process: started from files that agree, the process of the other build ends with the
same exit code, with the same checkpoint and with results that agree. -/
theorem process_full {inp : RunInput} (hc : inp.Clean) {fs fsF fs1 : FS} {code : ℤ}
    (hf : FilesAgree Nx Ny s su fs fsF) (h : Main.process su inp fs = some (fs1, code)) :
    ∃ fsF1, process (withSys su x) inp fsF = some (fsF1, code) ∧ FilesAgree Nx Ny s su fs1 fsF1 ∧
      ResultsAgree Nx Ny s su fs fsF fs1 fsF1 := by
  obtain ⟨k1, k2⟩ := checkpoint_of_files hf.ckpt { su.junk with iteration := 0 }
  have go : ∀ it seed f meas measF, Agree Nx Ny su.Norb su.cfg.L s meas measF →
      Main.startup su fs = some (.go it seed f meas) →
      startup (withSys su x) fsF = some (.go it seed f measF) →
      ∃ fsF1, process (withSys su x) inp fsF = some (fsF1, code) ∧ FilesAgree Nx Ny s su fs1 fsF1 ∧
        ResultsAgree Nx Ny s su fs fsF fs1 fsF1 := by
    intro it seed f meas measF hr hs hsF
    obtain ⟨r, hp, he⟩ := (Main.process_go hc hs _).1 h
    obtain ⟨mf, ha, hpF⟩ := perform_full hT hr hp
    simp only [Prod.mk.injEq] at he
    obtain ⟨rfl, rfl⟩ := he
    set rF : LoopResult (State Seed N MeasData) :=
      ⟨r.iteration, r.state.mapMeas fun _ => mf, r.prog, r.broke⟩ with hrF
    have hck : checkpointWrites su.fnbase su.LxN (ckptOf rF.iteration rF.state)
        = checkpointWrites su.fnbase su.LxN (ckptOf r.iteration r.state) := rfl
    have hw : ∀ w ∈ Main.resultWrites su (Main.normalized su r.iteration r.state.meas) r.state.cnt,
        putAll fs (Main.finalWrites su r) w.1 = some w.2 := fun w hw =>
      putAll_mem fs _ (Main.finalWrites_nodup r) w (List.mem_append_right _ hw)
    have hwF : ∀ w ∈ resultWrites su (normalized su r.iteration mf),
        putAll fsF (finalWrites su rF) w.1 = some w.2 := fun w hw =>
      putAll_mem fsF _ (finalWrites_nodup su rF) w (List.mem_append_right _ hw)
    have hn := normalized_full hT r.iteration ha
    refine ⟨putAll fsF (finalWrites su rF), ?_, ⟨?_, ?_⟩, Or.inr ⟨_, _, _, hn, hw, hwF⟩⟩
    · unfold process
      simp only [hsF, hpF, Option.bind_eq_bind, Option.bind_some]
      rw [finish_clean (withSys su x) inp hc]
      rfl
    · rw [Main.files_final, files_final, hck]
      have e := checkpointWrites_nodup su.fnbase su.LxN (ckptOf r.iteration r.state)
      have key : ∀ w ∈ checkpointWrites su.fnbase su.LxN (ckptOf r.iteration r.state),
          putAll fs (checkpointWrites su.fnbase su.LxN (ckptOf r.iteration r.state)) w.1
          = putAll fsF (checkpointWrites su.fnbase su.LxN (ckptOf r.iteration r.state)) w.1 := by
        intro w hw
        rw [putAll_mem _ _ e w hw, putAll_mem _ _ e w hw]
      have h1 := key _ List.mem_cons_self
      have h2 := key _ (List.mem_cons_of_mem _ List.mem_cons_self)
      have h3 := key _ (List.mem_cons_of_mem _ (List.mem_cons_of_mem _ List.mem_cons_self))
      unfold files
      simp only at h1 h2 h3
      rw [h1, h2, h3]
    · intro _ _
      exact loaded_agree hT.hx hT.hy hT.cells hn hw hwF
  by_cases hsc : searchCheckpoint fs su.fnbase ≠ 0
  · have hsF : searchCheckpoint fsF su.fnbase ≠ 0 := by rw [k1]; exact hsc
    refine go 0 (drawField su.rng su.LxN (seedInit su.seed)).2
      (unflat (drawField su.rng su.LxN (seedInit su.seed)).1) _ _
      (Agree.allocate Nx Ny su.Norb su.cfg.L s su.maxNsampl) ?_ ?_
    · unfold Main.startup
      rw [if_pos hsc]
    · unfold startup
      exact if_pos hsF
  · have hsF : ¬ searchCheckpoint fsF su.fnbase ≠ 0 := by rw [k1]; exact hsc
    have refuse : ∀ c, Main.startup su fs = some (.refuse c) →
        startup (withSys su x) fsF = some (.refuse c) →
        ∃ fsF1, process (withSys su x) inp fsF = some (fsF1, code) ∧ FilesAgree Nx Ny s su fs1 fsF1 ∧
          ResultsAgree Nx Ny s su fs fsF fs1 fsF1 := by
      intro c hs hsF
      unfold Main.process at h
      simp only [hs, Option.bind_eq_bind, Option.bind_some, Option.pure_def, Option.some.injEq,
        Prod.mk.injEq] at h
      obtain ⟨rfl, rfl⟩ := h
      refine ⟨fsF, ?_, hf, Or.inl ⟨rfl, rfl⟩⟩
      unfold process
      simp only [hsF, Option.bind_eq_bind, Option.bind_some, Option.pure_def]
    have st : Main.startup su fs = startFrom su (loadCheckpoint su.F fs su.fnbase su.LxN
        { su.junk with iteration := 0 }) (Main.loadMeas su fs) := by
      unfold Main.startup
      exact if_neg hsc
    have stF : startup (withSys su x) fsF = startFrom su (loadCheckpoint su.F fsF su.fnbase su.LxN
        { su.junk with iteration := 0 }) (loadMeas su fsF) := by
      unfold startup
      exact if_neg hsF
    rw [k2] at stF
    have hdata := hf.data (not_ne_iff.1 hsc)
    generalize hr : loadCheckpoint su.F fs su.fnbase su.LxN { su.junk with iteration := 0 } = r
      at st stF hdata
    unfold startFrom at st stF
    by_cases h1 : r.1 < 0
    · rw [if_pos h1] at st stF
      exact refuse _ st stF
    · rw [if_neg h1] at st stF
      by_cases h2 : r.2.iteration = su.total
      · rw [if_pos h2] at st stF
        exact refuse _ st stF
      · rw [if_neg h2] at st stF
        cases hb : bytesField su.LxN N r.2.s with
        | none =>
          rw [hb] at st
          unfold Main.process at h
          rw [st] at h
          simp at h
        | some f =>
          rw [hb] at st stF
          exact go _ _ _ _ _ (hdata h2) st stF

end

/-- a sequence of processes: files at the end and exit codes -/
noncomputable def session (step : RunInput → FS → Option (FS × ℤ)) :
    List RunInput → FS → Option (FS × List ℤ)
  | [], fs => some (fs, [])
  | inp :: l, fs => do
    let a ← step inp fs
    let b ← session step l a.1
    return (b.1, a.2 :: b.2)

/-- **C110**, any number of processes with interruptions in between: if neither build finds a checkpoint
at the beginning, the exit codes and the checkpoints are the same throughout. -/
theorem session_full [NeZero N] {Nx Ny : ℕ} {s : ℤ} {su : Setup N} {x : Option (Sys Seed N MeasData)}
    (hT : Twin Nx Ny s su x) (inps : List RunInput) (hc : ∀ inp ∈ inps, inp.Clean) {fs fsF fs1 : FS}
    {codes : List ℤ} (hf : FilesAgree Nx Ny s su fs fsF)
    (h : session (Main.process su) inps fs = some (fs1, codes)) :
    ∃ fsF1, session (process (withSys su x)) inps fsF = some (fsF1, codes) ∧
      FilesAgree Nx Ny s su fs1 fsF1 := by
  induction inps generalizing fs fsF codes with
  | nil =>
    simp only [session, Option.some.injEq, Prod.mk.injEq] at h
    obtain ⟨rfl, rfl⟩ := h
    exact ⟨fsF, rfl, hf⟩
  | cons inp l ih =>
    simp only [session, Option.bind_eq_bind, Option.pure_def] at h
    obtain ⟨a, h1, h⟩ := Option.bind_eq_some_iff.1 h
    obtain ⟨b, h2, h⟩ := Option.bind_eq_some_iff.1 h
    simp only [Option.some.injEq, Prod.mk.injEq] at h
    obtain ⟨rfl, rfl⟩ := h
    obtain ⟨fa, ca⟩ := a
    obtain ⟨fb, cb⟩ := b
    obtain ⟨fF, e1, g1, -⟩ := process_full hT (hc inp List.mem_cons_self) hf h1
    obtain ⟨fF1, e2, g2⟩ := ih (fun i hi => hc i (List.mem_cons_of_mem _ hi)) g1 h2
    refine ⟨fF1, ?_, g2⟩
    simp only [session, e1, e2, Option.bind_eq_bind, Option.bind_some, Option.pure_def]

/-- files without a checkpoint agree -/
theorem FilesAgree.fresh (Nx Ny : ℕ) (s : ℤ) (su : Setup N) (fs fsF : FS)
    (h : files su.fnbase fs = files su.fnbase fsF) (hn : searchCheckpoint fs su.fnbase ≠ 0) :
    FilesAgree Nx Ny s su fs fsF :=
  ⟨h, fun h0 => absurd h0 hn⟩

/-- **C110**, the whole program: if the program built with `measurement.c` is defined, so is the program
built with `measurement_full.c`, with the same exit code. The files they leave agree whenever they
agreed before. -/
theorem program_full (mc : Machine) (inp : Input) (hc : inp.run.Clean) {fs fsF fs1 : FS} {code : ℤ}
    {r : ℤ × SimParams ℝ} (hr : parse mc.conv inp.file (initialParams inp.ticks) = some r)
    (hs : 0 ≤ r.2.pbcShift)
    (hf : FilesAgree r.2.Nx.toNat r.2.Ny.toNat r.2.pbcShift
      (Main.mkSetup mc r.2 (baseName mc r.2 inp.dir)) fs fsF)
    (h : Main.program mc inp fs = some (fs1, code)) :
    ∃ fsF1, program mc inp fsF = some (fsF1, code) ∧
      FilesAgree r.2.Nx.toNat r.2.Ny.toNat r.2.pbcShift
        (Main.mkSetup mc r.2 (baseName mc r.2 inp.dir)) fs1 fsF1 ∧
      ResultsAgree r.2.Nx.toNat r.2.Ny.toNat r.2.pbcShift
        (Main.mkSetup mc r.2 (baseName mc r.2 inp.dir)) fs fsF fs1 fsF1 := by
  have early : ∀ c, Main.program mc inp fs = some (fs, c) → program mc inp fsF = some (fsF, c) →
      ∃ fsF1, program mc inp fsF = some (fsF1, code) ∧
      FilesAgree r.2.Nx.toNat r.2.Ny.toNat r.2.pbcShift
        (Main.mkSetup mc r.2 (baseName mc r.2 inp.dir)) fs1 fsF1 ∧
      ResultsAgree r.2.Nx.toNat r.2.Ny.toNat r.2.pbcShift
        (Main.mkSetup mc r.2 (baseName mc r.2 inp.dir)) fs fsF fs1 fsF1 := by
    intro c h1 h2
    rw [h] at h1
    simp only [Option.some.injEq, Prod.mk.injEq] at h1
    obtain ⟨rfl, rfl⟩ := h1
    exact ⟨fsF, h2, hf, Or.inl ⟨rfl, rfl⟩⟩
  by_cases h1 : r.1 < 0
  · exact early (-1) (by unfold Main.program; simp [hr, h1]) (by unfold program; simp [hr, h1])
  by_cases h2 : validate r.2 < 0
  · exact early (-2) (by unfold Main.program; simp [hr, h1, h2]) (by unfold program; simp [hr, h1, h2])
  have hv : Admissible r.2 := by
    by_contra hv
    have := (validate_iff r.2).2 hv
    omega
  by_cases h3 : (baseName mc r.2 inp.dir).utf8ByteSize + 27 > 1023
  · exfalso
    unfold Main.program at h
    simp only [hr, Option.bind_eq_bind, Option.bind_some, if_neg h1, if_neg h2, if_pos h3, Option.pure_def] at h
    simp at h
  by_cases h4 : inp.logFails = true
  · exact early (-3)
      (by unfold Main.program
          simp only [hr, Option.bind_eq_bind, Option.bind_some, if_neg h1, if_neg h2, if_neg h3, if_pos h4,
            Option.pure_def])
      (by unfold program
          simp only [hr, Option.bind_eq_bind, Option.bind_some, if_neg h1, if_neg h2, if_neg h3, if_pos h4,
            Option.pure_def])
  by_cases h5 : r.2.nuneqlt > 0 ∧ inp.uneqFails = true
  · exact early (-4)
      (by unfold Main.program
          simp only [hr, Option.bind_eq_bind, Option.bind_some, if_neg h1, if_neg h2, if_neg h3, if_neg h4,
            if_pos h5, Option.pure_def])
      (by unfold program
          simp only [hr, Option.bind_eq_bind, Option.bind_some, if_neg h1, if_neg h2, if_neg h3, if_neg h4,
            if_pos h5, Option.pure_def])
  by_cases h6 : r.2.usePhonons = true ∧ r.2.neqlt = 0
  · exfalso
    unfold Main.program Main.setupOf at h
    simp only [hr, Option.bind_eq_bind, Option.bind_some, if_neg h1, if_neg h2, if_neg h3, if_neg h4,
      if_neg h5, if_pos h6, Option.pure_def, Option.bind_none] at h
    simp at h
  have hne : NeZero (sites r.2) := ⟨sites_pos hv⟩
  obtain ⟨e, hT⟩ := twin_mkSetup (mc := mc) hv hs (baseName mc r.2 inp.dir)
  unfold Main.program Main.setupOf at h
  simp only [hr, Option.bind_eq_bind, Option.bind_some, if_neg h1, if_neg h2, if_neg h3, if_neg h4,
    if_neg h5, if_neg h6, Option.pure_def, dif_pos (sites_pos hv)] at h
  obtain ⟨fsF1, g1, g2, g3⟩ := process_full hT hc hf h
  refine ⟨fsF1, ?_, g2, g3⟩
  unfold program setupOf
  simp only [hr, Option.bind_eq_bind, Option.bind_some, if_neg h1, if_neg h2, if_neg h3, if_neg h4,
    if_neg h5, if_neg h6, Option.pure_def, dif_pos (sites_pos hv), e]
  exact g1

/-! ## Examples -/

/-- the hypotheses can be met: a run of the small system with phonons, without files at the beginning -/
example (mc : Machine) (hmc : mc.Rounds) :
    ∃ fs1 code fsF1, Main.process (Main.mkSetup mc exPph "x") never (fun _ => none) = some (fs1, code) ∧
      process (mkSetup mc exPph "x") never (fun _ => none) = some (fsF1, code) ∧
      FilesAgree 1 1 0 (Main.mkSetup mc exPph "x") fs1 fsF1 := by
  obtain ⟨⟨fs1, code⟩, h⟩ := exPph_runs mc hmc "x" never (fun _ => none) (by decide)
  obtain ⟨e, hT⟩ := twin_mkSetup (mc := mc) exPph_admissible le_rfl "x"
  obtain ⟨fsF1, h1, h2, -⟩ := process_full hT never_clean
    (FilesAgree.fresh _ _ _ _ (fun _ => none) (fun _ => none) rfl
      (show searchCheckpoint (fun _ => none) "x" ≠ 0 by decide)) h
  rw [← e] at h1
  exact ⟨fs1, code, fsF1, h, h1, h2⟩

end Verif.Main.Full
