import Verif.Lemmas.Resume
import Verif.Props.Files

/-! # Whole processes: C47, C48, C50, C54, C55, C59 -/

set_option autoImplicit false

namespace Verif.Main

open Verif.Random Verif.Measurement Verif.MonteCarlo Verif.Files Verif.Params

variable {N : ℕ} {su : Setup N}

/-! ## Measurement data -/

theorem execute_outside {A : Type} [DecidableEq A] (size : A → ℤ) (ws : List (Measurement.Add A)) (m m' : Arrays A)
    (h : execute size m ws = some m') (a : A) (z : ℤ) (hz : ¬ (0 ≤ z ∧ z < size a)) :
    m' a z = m a z := by
  unfold execute at h
  induction ws generalizing m with
  | nil => cases h; rfl
  | cons w ws ih =>
    rw [List.foldlM_cons, Option.bind_eq_bind] at h
    obtain ⟨m1, e, h⟩ := Option.bind_eq_some_iff.1 h
    rw [ih m1 h]
    unfold addTo at e
    split at e
    · rename_i hw
      rw [← Option.some.inj e]
      by_cases ha : a = w.1
      · subst ha
        rw [Function.update_self, Function.update_of_ne]
        intro h'
        exact hz (h' ▸ hw)
      · rw [Function.update_of_ne ha]
    · cases e

/-- memory beyond the arrays is as it was allocated, and so are the data which are not measured -/
structure MeasTidy (su : Setup N) (m : MeasData) : Prop where
  eq : ∀ a z, ¬ (0 ≤ z ∧ z < EqF.size su.Norb su.Ncell a) → m.eq.arr a z = 0
  uneq : ∀ a z, ¬ (0 ≤ z ∧ z < UneqF.size su.Norb su.Ncell su.cfg.L a) → m.uneq.arr a z = 0
  none : ¬ su.cfg.nuneqlt > 0 → m.uneq = UneqData.allocate
  ph : m.ph = PhData.allocate su.maxNsampl

/-- the measurements of the program -/
def RealMeas (su : Setup N) (meas : Meas N MeasData) : Prop :=
  ∃ mp dt omega alg tau old, meas = realMeas su.Norb su.Ncell su.cfg.L mp dt omega alg tau old

theorem RealMeas.eq_tidy {meas : Meas N MeasData} (h : RealMeas su meas) (gu gd : Greens.GreensFn N)
    (m m' : MeasData) (hm : MeasTidy su m) (e : meas.eq gu gd m = some m') : MeasTidy su m' := by
  obtain ⟨mp, dt, omega, alg, tau, old, rfl⟩ := h
  simp only [realMeas, Option.map_eq_some_iff] at e
  obtain ⟨x, e, rfl⟩ := e
  unfold accumulateEq at e
  simp only [Option.bind_eq_bind] at e
  obtain ⟨ws, -, e⟩ := Option.bind_eq_some_iff.1 e
  obtain ⟨arr, e2, e⟩ := Option.bind_eq_some_iff.1 e
  simp only [Option.pure_def, Option.some.injEq] at e
  subst e
  exact ⟨fun a z hz => (execute_outside _ _ _ _ e2 a z hz).trans (hm.eq a z hz), hm.uneq, hm.none, hm.ph⟩

theorem RealMeas.uneq_tidy {meas : Meas N MeasData} (h : RealMeas su meas) (hn : su.cfg.nuneqlt > 0)
    (sg : ℤ) (tu td : TimeFlow.TSM N) (m m' : MeasData) (hm : MeasTidy su m)
    (e : meas.uneq sg tu td m = some m') : MeasTidy su m' := by
  obtain ⟨mp, dt, omega, alg, tau, old, rfl⟩ := h
  simp only [realMeas, Option.bind_eq_bind] at e
  obtain ⟨u, -, e⟩ := Option.bind_eq_some_iff.1 e
  obtain ⟨d, -, e⟩ := Option.bind_eq_some_iff.1 e
  obtain ⟨x, e1, e⟩ := Option.bind_eq_some_iff.1 e
  simp only [Option.pure_def, Option.some.injEq] at e
  subst e
  unfold accumulateUneq at e1
  simp only [Option.bind_eq_bind] at e1
  obtain ⟨ws, -, e1⟩ := Option.bind_eq_some_iff.1 e1
  obtain ⟨arr, e2, e1⟩ := Option.bind_eq_some_iff.1 e1
  simp only [Option.pure_def, Option.some.injEq] at e1
  subst e1
  exact ⟨hm.eq, fun a z hz => (execute_outside _ _ _ _ e2 a z hz).trans (hm.uneq a z hz),
    fun h => absurd hn h, hm.ph⟩

theorem MeasTidy.allocate : MeasTidy su (MeasData.allocate su.maxNsampl) :=
  ⟨fun _ _ _ => rfl, fun _ _ _ => rfl, fun _ => rfl, rfl⟩

theorem loadArray_outside (F : Float64) (fs : FS) (path : String) (size : ℤ) (old : ℤ → ℝ) (z : ℤ)
    (hz : ¬ (0 ≤ z ∧ z < size)) : loadArray F fs path size old z = old z := by
  unfold loadArray
  cases (readData fs path 8 size.toNat).2 with
  | none => rfl
  | some c => simp only [if_neg hz]

theorem loadArrays_outside {A : Type} [DecidableEq A] (F : Float64) (fs : FS) (pre : String)
    (files : List (A × String)) (size : A → ℤ) (old : Arrays A) (a : A) (z : ℤ)
    (hz : ¬ (0 ≤ z ∧ z < size a)) : loadArrays F fs pre files size old a z = old a z := by
  unfold loadArrays
  refine foldl_preserves (fun m : Arrays A => m a z = old a z) _ (fun m f hm => ?_) _ _ rfl
  by_cases ha : a = f.1
  · subst ha
    rw [Function.update_self, loadArray_outside _ _ _ _ _ _ hz, hm]
  · rw [Function.update_of_ne ha, hm]

theorem MeasTidy.load (fs : FS) : MeasTidy su (loadMeas su fs) := by
  refine ⟨fun a z hz => ?_, fun a z hz => ?_, fun h => ?_, rfl⟩
  · exact loadArrays_outside _ _ _ _ _ _ _ _ hz
  · show (if su.cfg.nuneqlt > 0 then _ else _ : UneqData).arr a z = 0
    split
    · exact loadArrays_outside _ _ _ _ _ _ _ _ hz
    · rfl
  · show (if su.cfg.nuneqlt > 0 then _ else _ : UneqData) = _
    rw [if_neg h]

/-! ## Fields -/

theorem drawField_outside {σ : Type} (rng : Rng σ) (n : ℕ) (seed : σ) (k : ℕ) (hk : n ≤ k) :
    (drawField rng n seed).1 k = 0 := by
  unfold drawField
  have : ∀ (l : List ℕ), (∀ i ∈ l, i ≠ k) → ∀ a : (ℕ → Fin 2) × σ, a.1 k = 0 →
      (l.foldl (fun a i =>
        let r := rng.uniform a.2
        (Function.update a.1 i (if r.1 < 0.5 then 0 else 1), r.2)) a).1 k = 0 := by
    intro l
    induction l with
    | nil => intro _ a ha; exact ha
    | cons i l ih =>
      intro hl a ha
      rw [List.foldl_cons]
      refine ih (fun j hj => hl j (List.mem_cons_of_mem _ hj)) _ ?_
      simp only
      rw [Function.update_of_ne (hl i List.mem_cons_self).symm]
      exact ha
  exact this _ (fun i hi => by have := List.mem_range.1 hi; omega) _ rfl

theorem index_ge {N L l : ℕ} (h : L ≤ l) (i : Fin N) : L * N ≤ i + l * N :=
  (Nat.mul_le_mul_right N h).trans (Nat.le_add_left _ _)

theorem index_lt {N L l : ℕ} (h : l < L) (i : Fin N) : i + l * N < L * N := by
  have h1 : (l + 1) * N ≤ L * N := Nat.mul_le_mul_right N h
  have := i.isLt
  rw [Nat.add_mul, Nat.one_mul] at h1
  omega

/-- a field is restored from its bytes -/
theorem bytesField_fieldBytes (L : ℕ) (s : ℕ → Fin N → Fin 2) (hs : ∀ l, L ≤ l → ∀ i, s l i = 0)
    (b : ℕ → BitVec 8) (hb : ∀ k < L * N, b k = fieldBytes s k) :
    bytesField (L * N) N b = some s := by
  have hval : ∀ v : Fin 2, BitVec.ofNat 8 v.val = 0#8 ∨ BitVec.ofNat 8 v.val = 1#8 := by decide
  unfold bytesField
  rw [if_pos]
  · congr 1
    funext l i
    unfold unflat
    have hN : 0 < N := i.pos
    by_cases hl : l < L
    · have hk := index_lt hl i
      simp only
      rw [hb _ hk]
      unfold fieldBytes
      rw [dif_pos hN]
      have e1 : (i.val + l * N) / N = l := by
        rw [Nat.add_mul_div_right _ _ hN, Nat.div_eq_of_lt i.isLt, zero_add]
      have e2 : (⟨(i.val + l * N) % N, Nat.mod_lt _ hN⟩ : Fin N) = i := by
        apply Fin.ext
        simp only [Nat.add_mul_mod_self_right]
        exact Nat.mod_eq_of_lt i.isLt
      rw [e1, e2]
      have : ∀ v : Fin 2, (if BitVec.ofNat 8 v.val = 1#8 then (1 : Fin 2) else 0) = v := by decide
      simp only [hk, true_and]
      exact this _
    · have hk := index_ge (not_lt.1 hl) i
      simp only
      rw [if_neg (fun h => by omega), hs l (not_lt.1 hl)]
  · intro k hk
    rw [hb k hk]
    unfold fieldBytes
    split
    · exact hval _
    · exact Or.inl rfl

theorem bytesField_outside (L : ℕ) (b : ℕ → BitVec 8) (s : ℕ → Fin N → Fin 2)
    (h : bytesField (L * N) N b = some s) (l : ℕ) (hl : L ≤ l) (i : Fin N) : s l i = 0 := by
  unfold bytesField at h
  split at h
  · rw [← Option.some.inj h]
    unfold unflat
    simp only
    rw [if_neg]
    intro h'
    have := index_ge hl i
    omega
  · cases h

/-- what holds at every start -/
theorem startup_tidy (fs : FS) (it : ℤ) (seed : Seed) (s : ℕ → Fin N → Fin 2) (meas : MeasData)
    (h : startup su fs = some (.go it seed s meas)) :
    (∀ l, su.cfg.L ≤ l → ∀ i, s l i = 0) ∧ MeasTidy su meas := by
  unfold startup at h
  split at h
  · simp only [Option.some.injEq, Start.go.injEq] at h
    obtain ⟨-, -, rfl, rfl⟩ := h
    exact ⟨fun l hl i => drawField_outside _ _ _ _ (index_ge hl i), MeasTidy.allocate⟩
  · simp only at h
    split at h
    · simp at h
    · split at h
      · simp at h
      · rw [Option.map_eq_some_iff] at h
        obtain ⟨s', e, h⟩ := h
        simp only [Start.go.injEq] at h
        obtain ⟨-, -, rfl, rfl⟩ := h
        exact ⟨bytesField_outside su.cfg.L _ _ e, MeasTidy.load fs⟩

/-! ## The files written at the end -/

/-- the ends of the names of the files of a run -/
def suffixes (su : Setup N) : List String :=
  ["_iteration.dat", "_randseed.dat", "_hsfield.dat"]
  ++ (["_eqlt_sign.dat", "_eqlt_nsampl.dat"] ++ eqSaveFiles.map Prod.snd)
  ++ (if su.cfg.nuneqlt > 0 then
      ["_uneqlt_sign.dat", "_uneqlt_nsampl.dat"] ++ uneqSaveFiles.map Prod.snd else [])
  ++ (if su.cfg.usePhonons then
      ["_phonon_sign.dat", "_phonon_nsampl.dat"] ++ phFiles.map Prod.snd
      ++ ["_phonon_n_local_accept.dat", "_phonon_n_local_total.dat", "_phonon_n_block_accept.dat",
        "_phonon_n_block_total.dat"] else [])

theorem eqWrites_names (m : EqData) :
    (eqWrites su.Norb su.Ncell su.fnbase m).map Prod.fst =
      (["_eqlt_sign.dat", "_eqlt_nsampl.dat"] ++ eqSaveFiles.map Prod.snd).map (su.fnbase ++ ·) := by
  unfold eqWrites
  rw [List.map_append, List.map_append, arrayWrites_names]
  rfl

theorem uneqWrites_names (m : UneqData) :
    (uneqWrites su.Norb su.Ncell su.cfg.L su.fnbase m).map Prod.fst =
      (["_uneqlt_sign.dat", "_uneqlt_nsampl.dat"] ++ uneqSaveFiles.map Prod.snd).map
        (su.fnbase ++ ·) := by
  unfold uneqWrites
  rw [List.map_append, List.map_append, arrayWrites_names]
  rfl

theorem phWrites_names (m : PhData) (c : Counters) :
    (phWrites su.Norb su.fnbase m c).map Prod.fst =
      (["_phonon_sign.dat", "_phonon_nsampl.dat"] ++ phFiles.map Prod.snd
      ++ ["_phonon_n_local_accept.dat", "_phonon_n_local_total.dat", "_phonon_n_block_accept.dat",
        "_phonon_n_block_total.dat"]).map (su.fnbase ++ ·) := by
  unfold phWrites
  rw [List.map_append, List.map_append, List.map_append, List.map_append, arrayWrites_names]
  rfl

theorem checkpointWrites_names (c : Ckpt) :
    (checkpointWrites su.fnbase su.LxN c).map Prod.fst =
      ["_iteration.dat", "_randseed.dat", "_hsfield.dat"].map (su.fnbase ++ ·) := rfl

theorem finalWrites_names (r : LoopResult (State Seed N MeasData)) :
    (finalWrites su r).map Prod.fst = (suffixes su).map (su.fnbase ++ ·) := by
  unfold finalWrites resultWrites suffixes
  rw [List.map_append, List.map_append, List.map_append, List.map_append, List.map_append,
    List.map_append, checkpointWrites_names, eqWrites_names, List.append_assoc, List.append_assoc,
    List.append_assoc]
  congr 3
  · split
    · exact uneqWrites_names _
    · rfl
  · split
    · exact phWrites_names _ _
    · rfl

theorem suffixes_nodup : (suffixes su).Nodup := by
  unfold suffixes
  split <;> split <;> decide

theorem finalWrites_nodup (r : LoopResult (State Seed N MeasData)) :
    ((finalWrites su r).map Prod.fst).Nodup := by
  rw [finalWrites_names]
  exact names_nodup su.fnbase _ suffixes_nodup

/-- writing the same files twice -/
theorem putAll_twice (fs : FS) (ws ws' : List Write) (h : ws.map Prod.fst = ws'.map Prod.fst) :
    putAll (putAll fs ws) ws' = putAll fs ws' := by
  have key : ∀ (ws' : List Write) (fs fs' : FS), (∀ p, p ∉ ws'.map Prod.fst → fs p = fs' p) →
      putAll fs ws' = putAll fs' ws' := by
    intro ws'
    induction ws' with
    | nil =>
      intro fs fs' h
      funext p
      exact h p (by simp)
    | cons w ws' ih =>
      intro fs fs' h
      rw [putAll_cons, putAll_cons]
      refine ih _ _ fun p hp => ?_
      by_cases e : p = w.1
      · subst e
        rw [put_same, put_same]
      · rw [put_other _ _ _ _ e, put_other _ _ _ _ e]
        refine h p ?_
        rw [List.map_cons, List.mem_cons]
        tauto
  refine key ws' _ _ fun p hp => putAll_other _ _ _ fun w hw e => hp ?_
  rw [← h]
  exact List.mem_map.2 ⟨w, hw, e.symm⟩

/-- a run during which no writing fails -/
def RunInput.Clean (inp : RunInput) : Prop :=
  inp.ckptFault = (fun _ => .none) ∧ inp.resFault = fun _ => .none

theorem finish_clean (inp : RunInput) (hc : inp.Clean) (fs : FS)
    (r : LoopResult (State Seed N MeasData)) :
    finish su inp fs r =
      (putAll fs (finalWrites su r), if r.broke ∨ inp.late then 1 else 0) := by
  unfold finish saveCheckpoint
  rw [hc.1, hc.2, writeUntilError_none]
  simp only [lt_irrefl, if_false]
  rw [writeAll_none]
  unfold finalWrites
  rw [putAll_append]

/-! ## What the next process finds -/

/-- the checkpoint part and the results part -/
theorem putAll_final (fs : FS) (r : LoopResult (State Seed N MeasData)) :
    putAll fs (finalWrites su r) =
      putAll (putAll fs (checkpointWrites su.fnbase su.LxN (ckptOf r.iteration r.state)))
        (resultWrites su (normalized su r.iteration r.state.meas) r.state.cnt) := putAll_append ..

/-- the files of the checkpoint are not touched by the results -/
theorem files_final (fs : FS) (r : LoopResult (State Seed N MeasData)) :
    files su.fnbase (putAll fs (finalWrites su r)) =
      files su.fnbase (putAll fs (checkpointWrites su.fnbase su.LxN (ckptOf r.iteration r.state))) := by
  have hn := finalWrites_nodup (su := su) r
  have hc := checkpointWrites_nodup su.fnbase su.LxN (ckptOf r.iteration r.state)
  have key : ∀ w ∈ checkpointWrites su.fnbase su.LxN (ckptOf r.iteration r.state),
      putAll fs (finalWrites su r) w.1 =
        putAll fs (checkpointWrites su.fnbase su.LxN (ckptOf r.iteration r.state)) w.1 := by
    intro w hw
    rw [putAll_mem _ _ hn w (List.mem_append_left _ hw), putAll_mem _ _ hc w hw]
  have h1 := key _ List.mem_cons_self
  have h2 := key _ (List.mem_cons_of_mem _ List.mem_cons_self)
  have h3 := key _ (List.mem_cons_of_mem _ (List.mem_cons_of_mem _ List.mem_cons_self))
  unfold files
  simp only at h1 h2 h3
  rw [h1, h2, h3]

theorem putAll_id (fs : FS) (ws : List Write) (h : ∀ w ∈ ws, fs w.1 = some w.2) : putAll fs ws = fs := by
  induction ws with
  | nil => rfl
  | cons w ws ih =>
    have e : fs.put w.1 w.2 = fs := by
      funext p
      by_cases hp : p = w.1
      · subst hp
        rw [put_same, h w List.mem_cons_self]
      · rw [put_other _ _ _ _ hp]
    rw [putAll_cons, e]
    exact ih fun v hv => h v (List.mem_cons_of_mem _ hv)

/-- the measurement data loaded by the next process -/
theorem loadMeas_final (fs : FS) (r : LoopResult (State Seed N MeasData)) (hit : r.iteration ≠ su.total)
    (hm : MeasTidy su r.state.meas) (h1 : r.state.meas.eq.nsampl < 2 ^ 31)
    (h2 : r.state.meas.uneq.nsampl < 2 ^ 31) :
    loadMeas su (putAll fs (finalWrites su r)) = r.state.meas := by
  have hn := finalWrites_nodup (su := su) r
  have hmem := putAll_mem fs _ hn
  have hnorm : normalized su r.iteration r.state.meas = r.state.meas := by
    unfold normalized
    rw [if_neg hit]
  have hfin : finalWrites su r = checkpointWrites su.fnbase su.LxN (ckptOf r.iteration r.state)
      ++ resultWrites su r.state.meas r.state.cnt := by
    unfold finalWrites
    rw [hnorm]
  generalize hg : putAll fs (finalWrites su r) = g at hmem
  have he : saveEq su.Norb su.Ncell (fun _ => .none) g su.fnbase r.state.meas.eq = g := by
    unfold saveEq
    rw [writeAll_none]
    refine putAll_id _ _ fun w hw => hmem w ?_
    rw [hfin]
    unfold resultWrites
    simp only [List.mem_append]
    tauto
  have e1 : (loadMeas su g).eq = r.state.meas.eq := by
    show loadEq _ _ _ _ _ _ = _
    rw [← he, loadEq_saveEq_partial su.F su.fnbase _ _ _ _ _ h1]
    have ext : ∀ (x : EqData) (f : Arrays EqF), f = x.arr →
        ({ sign := x.sign, nsampl := x.nsampl, arr := f } : EqData) = x := by
      intro x f h
      rw [h]
    refine ext _ _ ?_
    funext a z
    split
    · rfl
    · rename_i hz
      exact (hm.eq a z hz).symm
  have e2 : (loadMeas su g).uneq = r.state.meas.uneq := by
    show (if su.cfg.nuneqlt > 0 then _ else _ : UneqData) = _
    split
    · rename_i hu
      have he' : saveUneq su.Norb su.Ncell su.cfg.L (fun _ => .none) g su.fnbase r.state.meas.uneq
          = g := by
        unfold saveUneq
        rw [writeAll_none]
        refine putAll_id _ _ fun w hw => hmem w ?_
        rw [hfin]
        unfold resultWrites
        rw [if_pos hu]
        simp only [List.mem_append]
        tauto
      rw [← he', loadUneq_saveUneq_partial su.F su.fnbase _ _ _ _ _ _ h2]
      have ext : ∀ (x : UneqData) (f : Arrays UneqF), f = x.arr →
          ({ sign := x.sign, nsampl := x.nsampl, arr := f } : UneqData) = x := by
        intro x f h
        rw [h]
      refine ext _ _ ?_
      funext a z
      split
      · rfl
      · rename_i hz
        exact (hm.uneq a z hz).symm
    · rename_i hu
      exact (hm.none hu).symm
  have e3 : (loadMeas su g).ph = r.state.meas.ph := hm.ph.symm
  generalize loadMeas su g = a at e1 e2 e3
  generalize r.state.meas = b at e1 e2 e3
  cases a
  cases b
  simp only at e1 e2 e3
  subst e1 e2 e3
  rfl

/-- the checkpoint found by the next process -/
theorem checkpoint_final (fs : FS) (r : LoopResult (State Seed N MeasData)) (old : Ckpt) :
    searchCheckpoint (putAll fs (finalWrites su r)) su.fnbase = 0 ∧
    loadCheckpoint su.F (putAll fs (finalWrites su r)) su.fnbase su.LxN old
      = (0, newCkpt su.F su.LxN (ckptOf r.iteration r.state) old) := by
  have hf := files_final (su := su) fs r
  obtain ⟨-, s2, s3⟩ := load_save su.F su.fnbase su.LxN fs (ckptOf r.iteration r.state) old
  unfold saveCheckpoint at s2 s3
  rw [writeUntilError_none] at s2 s3
  simp only at s2 s3
  constructor
  · unfold files at hf
    simp only [Prod.mk.injEq] at hf
    unfold searchCheckpoint at s2 ⊢
    rw [hf.1, hf.2.1, hf.2.2]
    exact s2
  · rw [loadCheckpoint_iff] at s3 ⊢
    rw [hf]
    exact s3

/-- the start of the next process after a run without phonons that did not finish -/
theorem startup_final (fs : FS) (r : LoopResult (State Seed N MeasData)) (hit : r.iteration ≠ su.total)
    (hb : -2 ^ 31 ≤ r.iteration ∧ r.iteration < 2 ^ 31)
    (hs : ∀ l, su.cfg.L ≤ l → ∀ i, r.state.s l i = 0) (hm : MeasTidy su r.state.meas)
    (h1 : r.state.meas.eq.nsampl < 2 ^ 31) (h2 : r.state.meas.uneq.nsampl < 2 ^ 31) :
    startup su (putAll fs (finalWrites su r)) =
      some (.go r.iteration (restored r.state.rng) r.state.s r.state.meas) := by
  obtain ⟨c1, c2⟩ := checkpoint_final (su := su) fs r ⟨0, su.junk.seed, su.junk.s⟩
  obtain ⟨d1, d2, d3⟩ := newCkpt_same su.F su.LxN (ckptOf r.iteration r.state)
    ⟨0, su.junk.seed, su.junk.s⟩ hb.1 hb.2
  generalize newCkpt su.F su.LxN (ckptOf r.iteration r.state) ⟨0, su.junk.seed, su.junk.s⟩ = k at *
  have d1' : k.iteration = r.iteration := d1
  have d2' : k.seed = restored r.state.rng := d2
  have d3' : bytesField su.LxN N k.s = some r.state.s :=
    bytesField_fieldBytes su.cfg.L r.state.s hs _ d3
  unfold startup
  rw [c1, loadMeas_final fs r hit hm h1 h2]
  simp only [ne_eq, not_true_eq_false, if_false]
  rw [c2]
  simp only [lt_irrefl, if_false]
  rw [d1', if_neg hit, d3', d2']
  rfl

/-! ## C47 -/

/-- set-up as the program makes it, without phonons -/
structure Setup.Ok (su : Setup N) (sys : Sys Seed N MeasData) : Prop where
  defined : su.sys = some sys
  ok : sys.Ok su.cfg.prodBlen
  L : 0 < su.cfg.L
  dvd : su.cfg.prodBlen ∣ su.cfg.L
  phonons : su.cfg.usePhonons = false
  meas : RealMeas su sys.meas
  rng : ∃ rnd junk, sys.rng = xorshift rnd junk

/-- the field `expX` of a run without phonons -/
noncomputable def Setup.expX0 (su : Setup N) : ℕ → Fin N → ℝ :=
  expPhonons su.ph su.Ncell su.cfg.L (unflat fun _ => 0)

theorem perform_eq [NeZero N] {sys : Sys Seed N MeasData} (hok : su.Ok sys) (stop : ℤ → Bool) (it : ℤ)
    (seed : Seed) (s : ℕ → Fin N → Fin 2) (meas : MeasData) :
    perform su stop it seed s meas =
      simulate sys su.ph su.cfg stop it seed s (unflat fun _ => 0) su.expX0 zeroCounters meas := by
  unfold perform
  simp only [hok.defined, hok.phonons, Bool.false_eq_true, if_false, Option.bind_eq_bind,
    Option.bind_some]
  rfl

/-- requests to stop never come -/
def never : RunInput := ⟨fun _ => false, false, fun _ => .none, fun _ => .none⟩

theorem never_clean : never.Clean := ⟨rfl, rfl⟩

/-- states with the same key leave the same files -/
theorem finalWrites_same {a b : LoopResult (State Seed N MeasData)} (h1 : a.iteration = b.iteration)
    (h2 : a.state.Same b.state) : finalWrites su a = finalWrites su b := by
  have h2 : a.state.mapRng key = b.state.mapRng key := h2
  have hk : key a.state.rng = key b.state.rng := congrArg State.rng h2
  have hs : a.state.s = b.state.s := by
    have := congrArg (fun x => State.s x) h2
    exact this
  have hm : a.state.meas = b.state.meas := by
    have := congrArg (fun x => State.meas x) h2
    exact this
  have hc : a.state.cnt = b.state.cnt := by
    have := congrArg (fun x => State.cnt x) h2
    exact this
  unfold finalWrites checkpointWrites ckptOf
  rw [h1, savedWords_key _ _ hk, hs, hm, hc]

/-- C47, when the generator is at one of two of its sixteen positions and there are no phonons: a
process that is stopped after any number of iterations, followed by a process that is not stopped,
leaves the files which the latter leaves without the former.  Since nothing is assumed about the files
at the beginning, this holds for any number of stops. -/
theorem resume_partial [NeZero N] {sys : Sys Seed N MeasData} (hok : su.Ok sys) (inp : RunInput)
    (hc : inp.Clean) (fs : FS) (it : ℤ) (seed : Seed) (s : ℕ → Fin N → Fin 2) (meas : MeasData)
    (r : LoopResult (State Seed N MeasData))
    (hstart : startup su fs = some (.go it seed s meas))
    (hrun : perform su inp.stop it seed s meas = some r)
    (hit : r.iteration ≠ su.total) (hb : -2 ^ 31 ≤ r.iteration ∧ r.iteration < 2 ^ 31)
    (h1 : r.state.meas.eq.nsampl < 2 ^ 31) (h2 : r.state.meas.uneq.nsampl < 2 ^ 31)
    (hpos : r.state.rng.p = 0 ∨ r.state.rng.p = 8) (out : FS × ℤ)
    (hnever : process su never fs = some out) :
    ∃ fs1 code, process su inp fs = some (fs1, code) ∧ process su never fs1 = some out := by
  obtain ⟨hs, hm⟩ := startup_tidy fs it seed s meas hstart
  refine ⟨putAll fs (finalWrites su r), if r.broke ∨ inp.late then 1 else 0, ?_, ?_⟩
  · unfold process
    simp only [hstart, hrun, Option.bind_eq_bind, Option.bind_some]
    rw [finish_clean inp hc]
    rfl
  · obtain ⟨r0, e0, hout⟩ : ∃ r0, perform su never.stop it seed s meas = some r0 ∧
        finish su never fs r0 = out := by
      unfold process at hnever
      simp only [hstart, Option.bind_eq_bind, Option.bind_some] at hnever
      obtain ⟨r0, e0, e⟩ := Option.bind_eq_some_iff.1 hnever
      exact ⟨r0, e0, Option.some.inj e⟩
    rw [perform_eq hok] at hrun e0
    obtain ⟨i1, t1, k1⟩ := simulate_rest (P := MeasTidy su) hok.ok hok.L hok.dvd hok.phonons
      (fun gu gd m m' => hok.meas.eq_tidy gu gd m m')
      (fun hn sg tu td m m' => hok.meas.uneq_tidy hn sg tu td m m') inp.stop it seed s meas hs hm r hrun
    obtain ⟨q, hq⟩ := simulate_resume hok.ok hok.L hok.dvd hok.phonons inp.stop it seed s meas hs r r0
      hrun e0
    obtain ⟨rnd, junk, hr⟩ := hok.rng
    obtain ⟨r', f1, f2, f3, -, f5⟩ := simulate_same su.cfg hr su.ph (fun _ => false)
      r.iteration r.state.rng (restored r.state.rng) (key_restored _ hpos).symm _ _ _ _ _ _ hq
    have hst := startup_final (su := su) fs r hit hb t1.field k1.meas h1 h2
    unfold process
    rw [hst]
    simp only [Option.bind_eq_bind, Option.bind_some, perform_eq hok]
    show (simulate sys su.ph su.cfg (fun _ => false) _ _ _ _ _ _ _).bind _ = _
    rw [f1]
    simp only [Option.bind_some]
    rw [finish_clean never never_clean] at hout ⊢
    have hw : finalWrites su r' = finalWrites su r0 := finalWrites_same f2 f3
    have hb0 : r0.broke = false := by
      unfold simulate at e0
      simp only [Option.bind_eq_bind] at e0
      obtain ⟨st, -, e0⟩ := Option.bind_eq_some_iff.1 e0
      exact (simLoop_all _ _ _ _ _ _ e0).2.1
    rw [hw, putAll_twice _ _ _ ((finalWrites_names r).trans (finalWrites_names r0).symm), ← hout, f5,
      hb0]
    rfl

end Verif.Main
