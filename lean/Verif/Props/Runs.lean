import Verif.Props.Program
import Verif.Lemmas.Draws
import Mathlib.Logic.Relation

/-! # Sequences of processes: C47, C54, C55 -/

set_option autoImplicit false

namespace Verif.Main

open Verif.Random Verif.Measurement Verif.MonteCarlo Verif.Files Verif.Params

variable {N : ℕ} {su : Setup N}

/-- what a process without write errors does after its start -/
theorem process_go [NeZero N] {inp : RunInput} (hc : inp.Clean) {fs : FS} {it : ℤ} {seed : Seed}
    {s : ℕ → Fin N → Fin 2} {meas : MeasData} (hstart : startup su fs = some (.go it seed s meas))
    (out : FS × ℤ) : process su inp fs = some out ↔
    ∃ r, perform su inp.stop it seed s meas = some r ∧
      out = (putAll fs (finalWrites su r), if r.broke ∨ inp.late then 1 else 0) := by
  unfold process
  simp only [hstart, Option.bind_eq_bind, Option.bind_some, Option.bind_eq_some_iff]
  constructor
  · rintro ⟨r, h1, h2⟩
    refine ⟨r, h1, ?_⟩
    rw [finish_clean inp hc] at h2
    exact (Option.some.inj h2).symm
  · rintro ⟨r, h1, rfl⟩
    refine ⟨r, h1, ?_⟩
    rw [finish_clean inp hc]
    rfl

/-- the content of a file written at the end -/
theorem final_file (fs : FS) (r : LoopResult (State Seed N MeasData)) (w : Write)
    (hw : w ∈ finalWrites su r) : putAll fs (finalWrites su r) w.1 = some w.2 :=
  putAll_mem fs _ (finalWrites_nodup r) w hw

/-- a file which is not written at the end -/
theorem final_other (fs : FS) (r : LoopResult (State Seed N MeasData)) (path : String)
    (h : ∀ x ∈ suffixes su, path ≠ su.fnbase ++ x) : putAll fs (finalWrites su r) path = fs path := by
  refine putAll_other _ _ _ fun w hw e => ?_
  have : w.1 ∈ (finalWrites su r).map Prod.fst := List.mem_map.2 ⟨w, hw, rfl⟩
  rw [finalWrites_names] at this
  obtain ⟨x, h1, h2⟩ := List.mem_map.1 this
  exact h x h1 (e.trans h2.symm)

/-! ## C54 -/

/-- C54: a process performs a number `m` of complete iterations, up to the first iteration before which
a request to stop is seen and otherwise all that are left; the saved counter is the number of all
iterations done so far, and the exit code is 1 if the process was stopped -/
theorem stop_between [NeZero N] {inp : RunInput} (hc : inp.Clean) {fs fs1 : FS} {it code : ℤ}
    {seed : Seed} {s : ℕ → Fin N → Fin 2} {meas : MeasData}
    (hstart : startup su fs = some (.go it seed s meas))
    (h : process su inp fs = some (fs1, code)) :
    ∃ (sys : Sys Seed N MeasData) (st0 st : State Seed N MeasData) (m : ℕ), su.sys = some sys ∧
      st0.s = s ∧ st0.meas = meas ∧ runs (simBody sys su.ph su.cfg) it m st0 = some st ∧
      (∀ j : ℕ, j < m → inp.stop (it + j) = false) ∧
      ((it + m < su.total ∧ inp.stop (it + m) = true ∧ code = 1) ∨
        (m = (su.total - it).toNat ∧ code = if inp.late then 1 else 0)) ∧
      fs1 (su.fnbase ++ "_iteration.dat") = some (encInt (it + m)) ∧
      (-2 ^ 31 ≤ it + m → it + m < 2 ^ 31 → ∀ old,
        (loadCheckpoint su.F fs1 su.fnbase su.LxN old).1 = 0 ∧
        (loadCheckpoint su.F fs1 su.fnbase su.LxN old).2.iteration = it + m) := by
  obtain ⟨r, h1, h2⟩ := (process_go hc hstart _).1 h
  obtain ⟨rfl, rfl⟩ := Prod.mk.inj h2
  unfold perform at h1
  simp only [Option.bind_eq_bind] at h1
  obtain ⟨sys, e0, h1⟩ := Option.bind_eq_some_iff.1 h1
  unfold simulate at h1
  simp only [Option.bind_eq_bind] at h1
  obtain ⟨st0, e1, h1⟩ := Option.bind_eq_some_iff.1 h1
  obtain ⟨m, m1, m2, m3, -, m5, m6, m7⟩ := simLoop_spec _ _ _ _ _ _ _ h1
  have f := startState_frame su.cfg _ _ _ _ _ _ _ e1
  refine ⟨sys, st0, r.state, m, e0, f.2.2.1, f.2.1, m3, m5, ?_, ?_, ?_⟩
  · cases hb : r.broke with
    | true =>
      left
      obtain ⟨a, b⟩ := m6 hb
      have : su.total = su.cfg.nequil + su.cfg.nsampl := rfl
      exact ⟨by omega, b, by simp⟩
    | false =>
      right
      exact ⟨m7 hb, by simp⟩
  · rw [← m2]
    exact final_file fs r (_, _) (List.mem_append_left _ List.mem_cons_self)
  · intro b1 b2 old
    obtain ⟨-, c2⟩ := checkpoint_final (su := su) fs r old
    rw [c2]
    refine ⟨rfl, ?_⟩
    rw [← m2] at b1 b2 ⊢
    exact (newCkpt_same su.F su.LxN (ckptOf r.iteration r.state) old b1 b2).1

/-- C54: the effect of the first request to stop -/
theorem stop_first [NeZero N] {inp : RunInput} (hc : inp.Clean) {fs fs1 : FS} {it code : ℤ}
    {seed : Seed} {s : ℕ → Fin N → Fin 2} {meas : MeasData}
    (hstart : startup su fs = some (.go it seed s meas))
    (h : process su inp fs = some (fs1, code)) (k : ℕ) (hk : it + k < su.total)
    (h0 : ∀ j : ℕ, j < k → inp.stop (it + j) = false) (h1 : inp.stop (it + k) = true) :
    code = 1 ∧ fs1 (su.fnbase ++ "_iteration.dat") = some (encInt (it + k)) := by
  obtain ⟨sys, st0, st, m, -, -, -, -, m5, m6, m7, -⟩ := stop_between hc hstart h
  have hmk : m = k := by
    rcases lt_trichotomy m k with hlt | rfl | hgt
    · exfalso
      rcases m6 with ⟨-, a, -⟩ | ⟨a, -⟩
      · rw [h0 m hlt] at a
        cases a
      · omega
    · rfl
    · rw [m5 k hgt] at h1
      cases h1
  subst hmk
  refine ⟨?_, m7⟩
  rcases m6 with ⟨-, -, a⟩ | ⟨a, -⟩
  · exact a
  · omega

/-! ## C55 -/

/-- specification: divided by the number of samples if and only if the run is complete -/
noncomputable def avg (complete : Prop) [Decidable complete] (n : ℕ) (x : ℝ) : ℝ :=
  if complete then x / n else x

theorem scale_avg (c : Prop) [Decidable c] (hc : c) {A : Type} (size : A → ℤ) (n : ℕ) (m : Arrays A)
    (a : A) (i : ℕ) (hi : i < (size a).toNat) :
    scale size (1.0 / n) m a i = avg c n (m a i) := by
  unfold scale avg
  rw [if_pos hc, if_pos ⟨by omega, by omega⟩]
  norm_num
  ring

theorem encArray_congr {α : Type} (enc : α → List Byte) (n : ℕ) (a b : ℕ → α)
    (h : ∀ i < n, a i = b i) : encArray enc n a = encArray enc n b := by
  unfold encArray
  refine List.flatMap_congr fun i hi => ?_
  rw [h i (List.mem_range.1 hi)]

theorem eq_results (m : MeasData) (it : ℤ) :
    (eqWrites su.Norb su.Ncell su.fnbase (normalized su it m).eq) =
      (su.fnbase ++ "_eqlt_sign.dat", encDouble (avg (it = su.total) m.eq.nsampl m.eq.sign)) ::
      (su.fnbase ++ "_eqlt_nsampl.dat", encInt m.eq.nsampl) ::
      eqSaveFiles.map fun f => (su.fnbase ++ f.2, encArray encDouble (EqF.size su.Norb su.Ncell f.1).toNat
        fun i => avg (it = su.total) m.eq.nsampl (m.eq.arr f.1 i)) := by
  unfold eqWrites arrayWrites normalized
  by_cases h : it = su.total
  · simp only [if_pos h]
    have e : ∀ x : ℝ, avg (it = su.total) m.eq.nsampl x = x / m.eq.nsampl := fun x => by
      unfold avg; rw [if_pos h]
    simp only [normalizeEq, List.cons_append, List.nil_append, e]
    refine congrArg₂ _ ?_ (congrArg₂ _ rfl (List.map_congr_left fun f _ => ?_))
    · congr 2
      norm_num
      ring
    · refine congrArg _ (encArray_congr _ _ _ _ fun i hi => ?_)
      rw [scale_avg (it = su.total) h _ _ _ _ _ hi, e]
  · have e : ∀ x : ℝ, avg (it = su.total) m.eq.nsampl x = x := fun x => by
      unfold avg; rw [if_neg h]
    simp only [if_neg h, e]
    rfl

theorem uneq_results (hn : su.cfg.nuneqlt > 0) (m : MeasData) (it : ℤ) :
    (uneqWrites su.Norb su.Ncell su.cfg.L su.fnbase (normalized su it m).uneq) =
      (su.fnbase ++ "_uneqlt_sign.dat", encDouble (avg (it = su.total) m.uneq.nsampl m.uneq.sign)) ::
      (su.fnbase ++ "_uneqlt_nsampl.dat", encInt m.uneq.nsampl) ::
      uneqSaveFiles.map fun f => (su.fnbase ++ f.2,
        encArray encDouble (UneqF.size su.Norb su.Ncell su.cfg.L f.1).toNat
          fun i => avg (it = su.total) m.uneq.nsampl (m.uneq.arr f.1 i)) := by
  unfold uneqWrites arrayWrites normalized
  by_cases h : it = su.total
  · simp only [if_pos h, if_pos hn]
    have e : ∀ x : ℝ, avg (it = su.total) m.uneq.nsampl x = x / m.uneq.nsampl := fun x => by
      unfold avg; rw [if_pos h]
    simp only [normalizeUneq, List.cons_append, List.nil_append, e]
    refine congrArg₂ _ ?_ (congrArg₂ _ rfl (List.map_congr_left fun f _ => ?_))
    · congr 2
      norm_num
      ring
    · refine congrArg _ (encArray_congr _ _ _ _ fun i hi => ?_)
      rw [scale_avg (it = su.total) h _ _ _ _ _ hi, e]
  · have e : ∀ x : ℝ, avg (it = su.total) m.uneq.nsampl x = x := fun x => by
      unfold avg; rw [if_neg h]
    simp only [if_neg h, e]
    rfl

/-- C55, the equal time data in the files: with `complete` standing for `it = total` where `it` is the
number of iterations done, sums are divided by the number of samples if and only if `complete` -/
theorem results_eq [NeZero N] {inp : RunInput} (hc : inp.Clean) {fs fs1 : FS} {it code : ℤ}
    {seed : Seed} {s : ℕ → Fin N → Fin 2} {meas : MeasData}
    (hstart : startup su fs = some (.go it seed s meas))
    (h : process su inp fs = some (fs1, code)) :
    ∃ r, perform su inp.stop it seed s meas = some r ∧
      fs1 (su.fnbase ++ "_eqlt_nsampl.dat") = some (encInt r.state.meas.eq.nsampl) ∧
      fs1 (su.fnbase ++ "_eqlt_sign.dat") = some (encDouble
        (avg (r.iteration = su.total) r.state.meas.eq.nsampl r.state.meas.eq.sign)) ∧
      ∀ f ∈ eqSaveFiles, fs1 (su.fnbase ++ f.2) = some (encArray encDouble
        (EqF.size su.Norb su.Ncell f.1).toNat
        fun i => avg (r.iteration = su.total) r.state.meas.eq.nsampl (r.state.meas.eq.arr f.1 i)) := by
  obtain ⟨r, h1, h2⟩ := (process_go hc hstart _).1 h
  obtain ⟨rfl, rfl⟩ := Prod.mk.inj h2
  have key : ∀ w ∈ eqWrites su.Norb su.Ncell su.fnbase
      (normalized su r.iteration r.state.meas).eq, putAll fs (finalWrites su r) w.1 = some w.2 := by
    intro w hw
    refine final_file fs r w (List.mem_append_right _ ?_)
    unfold resultWrites
    simp only [List.mem_append]
    exact Or.inl (Or.inl hw)
  rw [eq_results] at key
  refine ⟨r, h1, key (_, _) (List.mem_cons_of_mem _ List.mem_cons_self), key (_, _) List.mem_cons_self,
    fun f hf => key (_, _) (List.mem_cons_of_mem _ (List.mem_cons_of_mem _ (List.mem_map.2 ⟨f, hf, rfl⟩)))⟩

/-- C55, the unequal time data in the files -/
theorem results_uneq [NeZero N] {inp : RunInput} (hc : inp.Clean) {fs fs1 : FS} {it code : ℤ}
    {seed : Seed} {s : ℕ → Fin N → Fin 2} {meas : MeasData} (hn : su.cfg.nuneqlt > 0)
    (hstart : startup su fs = some (.go it seed s meas))
    (h : process su inp fs = some (fs1, code)) :
    ∃ r, perform su inp.stop it seed s meas = some r ∧
      fs1 (su.fnbase ++ "_uneqlt_nsampl.dat") = some (encInt r.state.meas.uneq.nsampl) ∧
      fs1 (su.fnbase ++ "_uneqlt_sign.dat") = some (encDouble
        (avg (r.iteration = su.total) r.state.meas.uneq.nsampl r.state.meas.uneq.sign)) ∧
      ∀ f ∈ uneqSaveFiles, fs1 (su.fnbase ++ f.2) = some (encArray encDouble
        (UneqF.size su.Norb su.Ncell su.cfg.L f.1).toNat
        fun i => avg (r.iteration = su.total) r.state.meas.uneq.nsampl
          (r.state.meas.uneq.arr f.1 i)) := by
  obtain ⟨r, h1, h2⟩ := (process_go hc hstart _).1 h
  obtain ⟨rfl, rfl⟩ := Prod.mk.inj h2
  have key : ∀ w ∈ uneqWrites su.Norb su.Ncell su.cfg.L su.fnbase
      (normalized su r.iteration r.state.meas).uneq, putAll fs (finalWrites su r) w.1 = some w.2 := by
    intro w hw
    refine final_file fs r w (List.mem_append_right _ ?_)
    unfold resultWrites
    rw [if_pos hn]
    simp only [List.mem_append]
    exact Or.inl (Or.inr hw)
  rw [uneq_results hn] at key
  refine ⟨r, h1, key (_, _) (List.mem_cons_of_mem _ List.mem_cons_self), key (_, _) List.mem_cons_self,
    fun f hf => key (_, _) (List.mem_cons_of_mem _ (List.mem_cons_of_mem _ (List.mem_map.2 ⟨f, hf, rfl⟩)))⟩

theorem ph_results (hp : su.cfg.usePhonons = true) (m : MeasData) (it : ℤ) (c : Counters) :
    phWrites su.Norb su.fnbase (normalized su it m).ph c =
      (su.fnbase ++ "_phonon_sign.dat", encDouble (avg (it = su.total) m.ph.nsampl m.ph.sign)) ::
      (su.fnbase ++ "_phonon_nsampl.dat", encInt m.ph.nsampl) ::
      ((phFiles.map fun f => (su.fnbase ++ f.2, encArray encDouble (PhF.size su.Norb m.ph.maxNsampl f.1).toNat
        fun i => if f.1 = .iterXAvg ∨ f.1 = .iterX0 then m.ph.arr f.1 i
          else avg (it = su.total) m.ph.nsampl (m.ph.arr f.1 i)))
      ++ [(su.fnbase ++ "_phonon_n_local_accept.dat", encInt c.localAccept),
        (su.fnbase ++ "_phonon_n_local_total.dat", encInt c.localTotal),
        (su.fnbase ++ "_phonon_n_block_accept.dat", encInt c.blockAccept),
        (su.fnbase ++ "_phonon_n_block_total.dat", encInt c.blockTotal)]) := by
  unfold phWrites arrayWrites normalized
  by_cases h : it = su.total
  · simp only [if_pos h, if_pos hp]
    have e : ∀ x : ℝ, avg (it = su.total) m.ph.nsampl x = x / m.ph.nsampl := fun x => by
      unfold avg; rw [if_pos h]
    have hs : (normalizePh su.Norb m.ph).sign = m.ph.sign / m.ph.nsampl := by
      unfold normalizePh
      norm_num
      ring
    have ha : ∀ f, ∀ i : ℕ, i < (PhF.size su.Norb m.ph.maxNsampl f).toNat → (normalizePh su.Norb m.ph).arr f i
        = if f = .iterXAvg ∨ f = .iterX0 then m.ph.arr f i else m.ph.arr f i / m.ph.nsampl := by
      intro f i hi
      have key := scale_avg (it = su.total) h (PhF.size su.Norb m.ph.maxNsampl) m.ph.nsampl m.ph.arr f i hi
      rw [e] at key
      cases f <;> first | exact key | rfl
    simp only [e, hs, List.cons_append, List.nil_append]
    refine congrArg₂ _ rfl (congrArg₂ _ rfl (congrArg₂ _ (List.map_congr_left fun f _ => ?_) rfl))
    exact congrArg _ (encArray_congr _ _ _ _ fun i hi => ha f.1 i hi)
  · have e : ∀ x : ℝ, avg (it = su.total) m.ph.nsampl x = x := fun x => by
      unfold avg; rw [if_neg h]
    simp only [if_neg h, e, ite_self]
    rfl

/-- C55, the phonon data in the files: the series with one entry per sample are never divided, and the counters of the
updates are those at the end of the run -/
theorem results_ph [NeZero N] {inp : RunInput} (hc : inp.Clean) {fs fs1 : FS} {it code : ℤ}
    {seed : Seed} {s : ℕ → Fin N → Fin 2} {meas : MeasData} (hp : su.cfg.usePhonons = true)
    (hstart : startup su fs = some (.go it seed s meas))
    (h : process su inp fs = some (fs1, code)) :
    ∃ r, perform su inp.stop it seed s meas = some r ∧
      fs1 (su.fnbase ++ "_phonon_nsampl.dat") = some (encInt r.state.meas.ph.nsampl) ∧
      fs1 (su.fnbase ++ "_phonon_sign.dat") = some (encDouble
        (avg (r.iteration = su.total) r.state.meas.ph.nsampl r.state.meas.ph.sign)) ∧
      (∀ f ∈ phFiles, fs1 (su.fnbase ++ f.2) = some (encArray encDouble
        (PhF.size su.Norb r.state.meas.ph.maxNsampl f.1).toNat
        fun i => if f.1 = .iterXAvg ∨ f.1 = .iterX0 then r.state.meas.ph.arr f.1 i
          else avg (r.iteration = su.total) r.state.meas.ph.nsampl (r.state.meas.ph.arr f.1 i))) ∧
      fs1 (su.fnbase ++ "_phonon_n_local_accept.dat") = some (encInt r.state.cnt.localAccept) ∧
      fs1 (su.fnbase ++ "_phonon_n_local_total.dat") = some (encInt r.state.cnt.localTotal) ∧
      fs1 (su.fnbase ++ "_phonon_n_block_accept.dat") = some (encInt r.state.cnt.blockAccept) ∧
      fs1 (su.fnbase ++ "_phonon_n_block_total.dat") = some (encInt r.state.cnt.blockTotal) := by
  obtain ⟨r, h1, h2⟩ := (process_go hc hstart _).1 h
  obtain ⟨rfl, rfl⟩ := Prod.mk.inj h2
  have key : ∀ w ∈ phWrites su.Norb su.fnbase (normalized su r.iteration r.state.meas).ph r.state.cnt,
      putAll fs (finalWrites su r) w.1 = some w.2 := by
    intro w hw
    refine final_file fs r w (List.mem_append_right _ ?_)
    unfold resultWrites
    rw [if_pos hp]
    exact List.mem_append_right _ hw
  rw [ph_results hp] at key
  refine ⟨r, h1, key (_, _) (List.mem_cons_of_mem _ List.mem_cons_self), key (_, _) List.mem_cons_self,
    fun f hf => key (_, _) (List.mem_cons_of_mem _ (List.mem_cons_of_mem _ (List.mem_append_left _
      (List.mem_map.2 ⟨f, hf, rfl⟩)))), ?_⟩
  have last := fun w hw => key w (List.mem_cons_of_mem _ (List.mem_cons_of_mem _ (List.mem_append_right _ hw)))
  exact ⟨last (_, _) (.head _), last (_, _) (.tail _ (.head _)), last (_, _) (.tail _ (.tail _ (.head _))),
    last (_, _) (.tail _ (.tail _ (.tail _ (.head _))))⟩

/-- C55: a process started not beyond the end is complete if and only if its counter is `total` at
the end -/
theorem complete_iff [NeZero N] {stop : ℤ → Bool} {it : ℤ} {seed : Seed} {s : ℕ → Fin N → Fin 2}
    {meas : MeasData} {r : LoopResult (State Seed N MeasData)}
    (h : perform su stop it seed s meas = some r) (hit : it ≤ su.total) :
    r.iteration ≤ su.total ∧ it ≤ r.iteration ∧ (r.iteration = su.total ↔ r.broke = false) := by
  unfold perform at h
  simp only [Option.bind_eq_bind] at h
  obtain ⟨sys, -, h⟩ := Option.bind_eq_some_iff.1 h
  unfold simulate at h
  simp only [Option.bind_eq_bind] at h
  obtain ⟨st0, -, h⟩ := Option.bind_eq_some_iff.1 h
  obtain ⟨m, m1, m2, -, -, -, m6, m7⟩ := simLoop_spec _ _ _ _ _ _ _ h
  have ht : su.total = su.cfg.nequil + su.cfg.nsampl := rfl
  refine ⟨by omega, by omega, ?_⟩
  cases hb : r.broke with
  | true =>
    have := (m6 hb).1
    simp only [Bool.true_eq_false, iff_false]
    omega
  | false =>
    have := m7 hb
    simp only [iff_true]
    omega

/-- C55: a process that finds a complete checkpoint leaves all files as they are -/
theorem complete_untouched [NeZero N] (inp inp' : RunInput) (hc : inp.Clean) (fs fs1 : FS)
    (it code : ℤ) (seed : Seed) (s : ℕ → Fin N → Fin 2) (meas : MeasData)
    (hstart : startup su fs = some (.go it seed s meas)) (hit : it ≤ su.total)
    (hb : -2 ^ 31 ≤ su.total ∧ su.total < 2 ^ 31)
    (h : process su inp fs = some (fs1, code)) (h0 : code = 0) :
    process su inp' fs1 = some (fs1, -6) := by
  obtain ⟨r, h1, h2⟩ := (process_go hc hstart _).1 h
  obtain ⟨rfl, h3⟩ := Prod.mk.inj h2
  have hbr : r.broke = false := by
    cases hb : r.broke with
    | true => rw [hb, h0] at h3; simp at h3
    | false => rfl
  have hr := (complete_iff h1 hit).2.2.2 hbr
  obtain ⟨c1, c2⟩ := checkpoint_final (su := su) fs r ⟨0, su.junk.seed, su.junk.s⟩
  have d1 := (newCkpt_same su.F su.LxN (ckptOf r.iteration r.state) ⟨0, su.junk.seed, su.junk.s⟩
    (by rw [← hr] at hb; exact hb.1) (by rw [← hr] at hb; exact hb.2)).1
  unfold process startup
  rw [c1]
  simp only [ne_eq, not_true_eq_false, if_false]
  rw [c2]
  simp only [lt_irrefl, if_false]
  rw [if_pos (d1.trans hr)]
  rfl

/-! ## C47 -/

/-- `fs1` are the files left by a process that found `fs`, was stopped before the end, had no write
errors and no overflow of an `int`, and left the generator at one of the two good positions -/
def GoodStop [NeZero N] (su : Setup N) (fs fs1 : FS) : Prop :=
  ∃ inp it seed s meas r code, inp.Clean ∧ startup su fs = some (.go it seed s meas) ∧
    perform su inp.stop it seed s meas = some r ∧ process su inp fs = some (fs1, code) ∧
    r.iteration ≠ su.total ∧ (-2 ^ 31 ≤ r.iteration ∧ r.iteration < 2 ^ 31) ∧
    r.state.meas.eq.nsampl < 2 ^ 31 ∧ r.state.meas.uneq.nsampl < 2 ^ 31 ∧
    (r.state.rng.p = 0 ∨ r.state.rng.p = 8)

/-- C47, at the good positions of the generator: any number of stops before the last process does not
change the files which the last process leaves -/
theorem resume_chain_partial [NeZero N] {sys : Sys Seed N MeasData} (hok : su.Ok sys) (fs fs1 : FS)
    (h : Relation.ReflTransGen (GoodStop su) fs fs1) (out : FS × ℤ)
    (hnever : process su never fs = some out) : process su never fs1 = some out := by
  induction h with
  | refl => exact hnever
  | tail _ hstep ih =>
    obtain ⟨inp, it, seed, s, meas, r, code, hc, hstart, hrun, hp, hit, hb, h1, h2, hpos⟩ := hstep
    obtain ⟨fs1, code', a1, a2⟩ := resume_partial hok inp hc _ it seed s meas r hstart hrun hit hb h1 h2
      hpos out ih
    rw [hp] at a1
    obtain ⟨rfl, -⟩ := Prod.mk.inj (Option.some.inj a1)
    exact a2

/-- the numbers of samples -/
theorem RealMeas.counts {sys : Sys Seed N MeasData} (h : RealMeas su sys.meas) :
    CountsBy sys (fun m => m.eq.nsampl) 1 0 0 ∧ CountsBy sys (fun m => m.ph.nsampl) 0 1 0 ∧
    CountsBy sys (fun m => m.uneq.nsampl) 0 0 1 := by
  have he : ∀ gu gd m m', sys.meas.eq gu gd m = some m' →
      m'.eq.nsampl = m.eq.nsampl + 1 ∧ m'.ph = m.ph ∧ m'.uneq = m.uneq := by
    intro gu gd m m' e
    obtain ⟨mp, dt, omega, alg, tau, old, h⟩ := h
    rw [h] at e
    simp only [realMeas, Option.map_eq_some_iff] at e
    obtain ⟨x, e, rfl⟩ := e
    unfold accumulateEq at e
    simp only [Option.bind_eq_bind] at e
    obtain ⟨ws, -, e⟩ := Option.bind_eq_some_iff.1 e
    obtain ⟨arr, -, e⟩ := Option.bind_eq_some_iff.1 e
    simp only [Option.pure_def, Option.some.injEq] at e
    subst e
    exact ⟨rfl, rfl, rfl⟩
  have hp : ∀ gu gd l X m m', sys.meas.phonon gu gd l X m = some m' →
      m'.ph.nsampl = m.ph.nsampl + 1 ∧ m'.eq = m.eq ∧ m'.uneq = m.uneq := by
    intro gu gd l X m m' e
    obtain ⟨mp, dt, omega, alg, tau, old, h⟩ := h
    rw [h] at e
    simp only [realMeas, Option.map_eq_some_iff] at e
    obtain ⟨x, e, rfl⟩ := e
    unfold accumulatePh at e
    simp only [Option.bind_eq_bind] at e
    obtain ⟨ws, -, e⟩ := Option.bind_eq_some_iff.1 e
    obtain ⟨arr, -, e⟩ := Option.bind_eq_some_iff.1 e
    simp only [Option.pure_def, Option.some.injEq] at e
    subst e
    exact ⟨rfl, rfl, rfl⟩
  have hu : ∀ sg tu td m m', sys.meas.uneq sg tu td m = some m' →
      m'.uneq.nsampl = m.uneq.nsampl + 1 ∧ m'.eq = m.eq ∧ m'.ph = m.ph := by
    intro sg tu td m m' e
    obtain ⟨mp, dt, omega, alg, tau, old, h⟩ := h
    rw [h] at e
    simp only [realMeas, Option.bind_eq_bind] at e
    obtain ⟨u, -, e⟩ := Option.bind_eq_some_iff.1 e
    obtain ⟨d, -, e⟩ := Option.bind_eq_some_iff.1 e
    obtain ⟨x, e1, e⟩ := Option.bind_eq_some_iff.1 e
    simp only [Option.pure_def, Option.some.injEq] at e
    subst e
    unfold accumulateUneq at e1
    simp only [Option.bind_eq_bind] at e1
    obtain ⟨ws, -, e1⟩ := Option.bind_eq_some_iff.1 e1
    obtain ⟨arr, -, e1⟩ := Option.bind_eq_some_iff.1 e1
    simp only [Option.pure_def, Option.some.injEq] at e1
    subst e1
    exact ⟨rfl, rfl, rfl⟩
  refine ⟨⟨fun gu gd m m' e => (he _ _ _ _ e).1, fun gu gd l X m m' e => ?_, fun sg tu td m m' e => ?_⟩,
    ⟨fun gu gd m m' e => ?_, fun gu gd l X m m' e => (hp _ _ _ _ _ _ e).1, fun sg tu td m m' e => ?_⟩,
    ⟨fun gu gd m m' e => ?_, fun gu gd l X m m' e => ?_, fun sg tu td m m' e => (hu _ _ _ _ _ e).1⟩⟩
  · show m'.eq.nsampl = m.eq.nsampl + 0
    rw [(hp _ _ _ _ _ _ e).2.1, Nat.add_zero]
  · show m'.eq.nsampl = m.eq.nsampl + 0
    rw [(hu _ _ _ _ _ e).2.1, Nat.add_zero]
  · show m'.ph.nsampl = m.ph.nsampl + 0
    rw [(he _ _ _ _ e).2.1, Nat.add_zero]
  · show m'.ph.nsampl = m.ph.nsampl + 0
    rw [(hu _ _ _ _ _ e).2.2, Nat.add_zero]
  · show m'.uneq.nsampl = m.uneq.nsampl + 0
    rw [(he _ _ _ _ e).2.2, Nat.add_zero]
  · show m'.uneq.nsampl = m.uneq.nsampl + 0
    rw [(hp _ _ _ _ _ _ e).2.2, Nat.add_zero]

/-- `fs1` are the files left by a process that found `fs`, had no write errors and was stopped at any
time before the end -/
def Stop [NeZero N] (su : Setup N) (fs fs1 : FS) : Prop :=
  ∃ inp it seed s meas r code, inp.Clean ∧ startup su fs = some (.go it seed s meas) ∧
    perform su inp.stop it seed s meas = some r ∧ process su inp fs = some (fs1, code) ∧
    r.iteration ≠ su.total

/-- what holds at the start of every process of a small system -/
structure Regular (su : Setup N) (fs : FS) : Prop where
  start : ∀ it seed s meas, startup su fs = some (.go it seed s meas) →
    0 ≤ it ∧ it ≤ su.total ∧ (seed.p = 0 ∨ seed.p = 8) ∧
    meas.eq.nsampl = su.cfg.totalSamples 1 0 0 0 it ∧ meas.uneq.nsampl = su.cfg.totalSamples 0 0 1 0 it

theorem totalSamples_le (cfg : Cfg) (it : ℤ) (n : ℤ) (h0 : 0 ≤ it) (h : it ≤ n) (hL : 0 < cfg.L)
    (hn : n * cfg.L < 2 ^ 31) :
    cfg.totalSamples 1 0 0 0 it < 2 ^ 31 ∧ cfg.totalSamples 0 0 1 0 it < 2 ^ 31 := by
  have h1 : it * cfg.L ≤ n * cfg.L := mul_le_mul_of_nonneg_right h (by positivity)
  have h2 : it ≤ it * cfg.L := le_mul_of_one_le_right h0 (by omega)
  obtain ⟨i, rfl⟩ := Int.eq_ofNat_of_zero_le h0
  constructor
  · rw [totalSamples_eq]
    have h3 : ((i : ℤ) - max 0 cfg.nequil).toNat ≤ i := by
      have := le_max_left (0 : ℤ) cfg.nequil
      omega
    have h4 : cfg.L / cfg.neqlt.toNat ≤ cfg.L := Nat.div_le_self _ _
    have h5 := Nat.mul_le_mul h3 h4
    generalize ((i : ℤ) - max 0 cfg.nequil).toNat * (cfg.L / cfg.neqlt.toNat) = q at *
    have h6 : ((i * cfg.L : ℕ) : ℤ) < 2 ^ 31 := by push_cast; exact lt_of_le_of_lt h1 hn
    omega
  · rw [totalSamples_uneq]
    have h3 := Finset.card_filter_le (Finset.Ico (0 : ℤ) i) cfg.uneqAt
    rw [Int.card_Ico] at h3
    have h6 : (i : ℤ) < 2 ^ 31 := lt_of_le_of_lt h2 (lt_of_le_of_lt h1 hn)
    omega

/-- a stop of a small system is a good one, and the next start is again regular -/
theorem Regular.stop [NeZero N] {sys : Sys Seed N MeasData} (hok : su.Ok sys) (hN : N ≤ 2)
    (h8 : 8 ∣ su.LxN) (hn : su.total * su.cfg.L < 2 ^ 31) {fs fs1 : FS} (hf : Regular su fs)
    (h : Stop su fs fs1) : GoodStop su fs fs1 ∧ Regular su fs1 := by
  obtain ⟨inp, it, seed, s, meas, r, code, hc, hstart, hrun, hp, hit⟩ := h
  obtain ⟨a1, a2, a3, a4, a5⟩ := hf.start _ _ _ _ hstart
  obtain ⟨b1, b2, -⟩ := complete_iff hrun a2
  obtain ⟨hs, hm⟩ := startup_tidy fs it seed s meas hstart
  have hrun' := hrun
  rw [perform_eq hok] at hrun'
  obtain ⟨rnd, junk, hr⟩ := hok.rng
  obtain ⟨m, m1, m2⟩ := simulate_draws hr hN hok.phonons _ _ _ _ _ _ _ _ _ hrun'
  have hpos : r.state.rng.p = 0 ∨ r.state.rng.p = 8 := by
    rw [m2, stateAt_p]
    obtain ⟨k, hk⟩ := h8
    have e : 2 * N * su.cfg.L * m = 16 * (k * m) := by
      have : su.cfg.L * N = 8 * k := hk
      calc 2 * N * su.cfg.L * m = 2 * (su.cfg.L * N) * m := by ring
        _ = 16 * (k * m) := by rw [this]; ring
    rw [e]
    have e2 : Fin.ofNat 16 (16 * (k * m)) = 0 := by
      apply Fin.ext
      simp
    rw [e2, add_zero]
    exact a3
  obtain ⟨c1, -, c3⟩ := hok.meas.counts
  have n1 := (simulate_count su.cfg c1 _ _ _ _ _ _ _ _ _ hrun').2
  have n2 := (simulate_count su.cfg c3 _ _ _ _ _ _ _ _ _ hrun').2
  rw [a4, ← totalSamples_split su.cfg 1 0 0 0 it r.iteration a1 b2] at n1
  rw [a5, ← totalSamples_split su.cfg 0 0 1 0 it r.iteration a1 b2] at n2
  obtain ⟨l1, l2⟩ := totalSamples_le su.cfg r.iteration su.total (a1.trans b2) b1 hok.L hn
  have hb : -2 ^ 31 ≤ r.iteration ∧ r.iteration < 2 ^ 31 := by
    have h2 : su.total ≤ su.total * su.cfg.L :=
      le_mul_of_one_le_right ((a1.trans b2).trans b1) (by have := hok.L; omega)
    constructor <;> omega
  obtain ⟨-, t1, k1⟩ := simulate_rest (P := MeasTidy su) hok.ok hok.L hok.dvd hok.phonons
    (fun gu gd m m' => hok.meas.eq_tidy gu gd m m')
    (fun hn sg tu td m m' => hok.meas.uneq_tidy hn sg tu td m m') inp.stop it seed s meas hs hm r hrun'
  refine ⟨⟨inp, it, seed, s, meas, r, code, hc, hstart, hrun, hp, hit, hb, by omega, by omega, hpos⟩, ?_⟩
  obtain ⟨r', e1, e2⟩ := (process_go hc hstart _).1 hp
  obtain rfl : r = r' := Option.some.inj (hrun.symm.trans e1)
  obtain ⟨rfl, -⟩ := Prod.mk.inj e2
  constructor
  intro it' seed' s' meas' hst
  rw [startup_final fs r hit hb t1.field k1.meas (by omega) (by omega)] at hst
  simp only [Option.some.injEq, Start.go.injEq] at hst
  obtain ⟨rfl, rfl, rfl, rfl⟩ := hst
  exact ⟨a1.trans b2, b1, Or.inl rfl, n1, n2⟩

/-- C47 for small systems (at most two sites, `8` divides the number of entries of the field) without
phonons: however often and whenever a run is stopped and resumed, the last process leaves the same
files as an uninterrupted run, including the field, the generator and all measurement data -/
theorem resume_small_partial [NeZero N] {sys : Sys Seed N MeasData} (hok : su.Ok sys) (hN : N ≤ 2)
    (h8 : 8 ∣ su.LxN) {rnd : ℝ → ℝ} {junk : ℕ → ℤ} (hr : su.rng = xorshift rnd junk)
    (h0 : 0 ≤ su.total) (hn : su.total * su.cfg.L < 2 ^ 31) (fs fs1 : FS)
    (hfs : searchCheckpoint fs su.fnbase ≠ 0) (h : Relation.ReflTransGen (Stop su) fs fs1)
    (out : FS × ℤ) (hnever : process su never fs = some out) : process su never fs1 = some out := by
  have hreg : Regular su fs := by
    constructor
    intro it seed s meas hst
    have hst' := hst
    rw [startup_fresh su fs hfs] at hst
    simp only [Option.some.injEq, Start.go.injEq] at hst
    obtain ⟨rfl, hseed, -, rfl⟩ := hst
    refine ⟨le_rfl, h0, ?_, ?_, ?_⟩
    · rw [← hseed, hr, drawField_draws, stateAt_p]
      obtain ⟨k, hk⟩ := h8
      rw [hk]
      rcases Nat.even_or_odd' k with ⟨j, rfl | rfl⟩
      · left
        apply Fin.ext
        simp [seedInit]
        omega
      · right
        apply Fin.ext
        simp [seedInit]
        omega
    · simp [MeasData.allocate, EqData.allocate, Cfg.totalSamples]
    · simp [MeasData.allocate, UneqData.allocate, Cfg.totalSamples]
  have key : Relation.ReflTransGen (GoodStop su) fs fs1 ∧ Regular su fs1 := by
    induction h with
    | refl => exact ⟨.refl, hreg⟩
    | tail _ hstep ih =>
      obtain ⟨g, r⟩ := ih.2.stop hok hN h8 hn hstep
      exact ⟨ih.1.tail g, r⟩
  exact resume_chain_partial hok fs fs1 key.1 out hnever

end Verif.Main
