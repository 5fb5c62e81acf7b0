import Verif.Props.Runs
import Mathlib.Data.List.Basic
import Std.Data.String.ToNat

/-!
# Property C99: names of files

Every run has its own files: their names determine the output directory, the seed and the kind of data.  A run neither
changes nor depends on other files, so that runs with different seeds or directories can be done in any order.
-/

set_option autoImplicit false

namespace Verif.Main

open Verif.Files Verif.Measurement Verif.Params Verif.Random Verif.MonteCarlo Verif.Progress

/-! ## Specification -/

/-- ends of the names of all files of the simulation -/
def fileSuffixes : List String :=
  ["_simulation.log",
   "_iteration.dat", "_randseed.dat", "_hsfield.dat",
   "_eqlt_sign.dat", "_eqlt_nsampl.dat", "_eqlt_density_u.dat", "_eqlt_density_d.dat", "_eqlt_doubleocc.dat",
   "_eqlt_grfun_u.dat", "_eqlt_grfun_d.dat", "_eqlt_uu_corr.dat", "_eqlt_dd_corr.dat", "_eqlt_ud_corr.dat",
   "_eqlt_ff_corr.dat", "_eqlt_zz_corr.dat", "_eqlt_xx_corr.dat", "_eqlt_sc_c_sw.dat", "_eqlt_sc_c_dw.dat",
   "_eqlt_sc_c_sx.dat",
   "_uneqlt_sign.dat", "_uneqlt_nsampl.dat", "_uneqlt_Gtau0_u.dat", "_uneqlt_G0tau_u.dat", "_uneqlt_Geqlt_u.dat",
   "_uneqlt_Gtau0_d.dat", "_uneqlt_G0tau_d.dat", "_uneqlt_Geqlt_d.dat", "_uneqlt_nn_corr.dat", "_uneqlt_zz_corr.dat",
   "_uneqlt_xx_corr.dat", "_uneqlt_sc_c_sw.dat", "_uneqlt_sc_c_dw.dat", "_uneqlt_sc_c_sx.dat", "_uneqlt_Jcorr_x.dat",
   "_uneqlt_Jcorr_y.dat", "_uneqlt_ram_b1g.dat", "_uneqlt_ram_b2g.dat",
   "_phonon_sign.dat", "_phonon_nsampl.dat", "_phonon_X_avg.dat", "_phonon_X_avg_sq.dat", "_phonon_X_sq_avg.dat",
   "_phonon_V_sq_avg.dat", "_phonon_KE.dat", "_phonon_PE.dat", "_phonon_nX.dat", "_phonon_iteration_X_avg.dat",
   "_phonon_iteration_X0.dat", "_phonon_n_local_accept.dat", "_phonon_n_local_total.dat", "_phonon_n_block_accept.dat",
   "_phonon_n_block_total.dat"]

/-- the files of a run -/
def Own (fnbase n : String) : Prop := ∃ e ∈ fileSuffixes, n = fnbase ++ e

/-- the name of a file of a run with directory `dir` and seed `k` -/
def fileName (dir : String) (k : ℕ) (e : String) : String := dir ++ "/sim_" ++ toString k ++ e

/-- `f` uses the files `S` only: it does not change others, and what it does depends on these only -/
structure UsesOnly (S : String → Prop) (f : FS → Option (FS × ℤ)) : Prop where
  frame : ∀ fs fs1 c, f fs = some (fs1, c) → ∀ n, ¬ S n → fs1 n = fs n
  depends : ∀ fs fs', (∀ n, S n → fs n = fs' n) →
    (f fs = none ∧ f fs' = none) ∨
    ∃ fs1 fs1' c, f fs = some (fs1, c) ∧ f fs' = some (fs1', c) ∧ ∀ n, S n → fs1 n = fs1' n

/-- one run after the other: files and the exit codes of both -/
def runBoth (f g : FS → Option (FS × ℤ)) (fs : FS) : Option (FS × ℤ × ℤ) := do
  let a ← f fs
  let b ← g a.1
  return (b.1, a.2, b.2)

/-! ## Names -/

theorem split_first {α : Type} {a : α} : ∀ {g g' r r' : List α}, g ++ a :: r = g' ++ a :: r' → a ∉ g → a ∉ g' →
    g = g' ∧ r = r'
  | [], [], _, _, h, _, _ => ⟨rfl, by simpa using h⟩
  | [], x :: g', _, _, h, _, h2 => by
    simp only [List.nil_append, List.cons_append, List.cons.injEq] at h
    exact absurd (h.1 ▸ List.mem_cons_self) h2
  | x :: g, [], _, _, h, h1, _ => by
    simp only [List.nil_append, List.cons_append, List.cons.injEq] at h
    exact absurd (h.1 ▸ List.mem_cons_self) h1
  | x :: g, y :: g', r, r', h, h1, h2 => by
    simp only [List.cons_append, List.cons.injEq] at h
    obtain ⟨rfl, h⟩ := h
    obtain ⟨rfl, rfl⟩ := split_first h (fun hm => h1 (List.mem_cons_of_mem _ hm)) (fun hm => h2 (List.mem_cons_of_mem _ hm))
    exact ⟨rfl, rfl⟩

theorem split_last {α : Type} {a : α} {g g' r r' : List α} (h : g ++ a :: r = g' ++ a :: r') (h1 : a ∉ r) (h2 : a ∉ r') :
    g = g' ∧ r = r' := by
  have h' := congrArg List.reverse h
  simp only [List.reverse_append, List.reverse_cons, List.append_assoc, List.singleton_append] at h'
  obtain ⟨e1, e2⟩ := split_first h' (by simpa using h1) (by simpa using h2)
  exact ⟨List.reverse_injective e2, List.reverse_injective e1⟩

theorem suffix_form : ∀ e ∈ fileSuffixes, '/' ∉ e.toList ∧ ∃ r, e.toList = '_' :: r := by
  have h : ∀ e ∈ fileSuffixes, '/' ∉ e.toList ∧ e.toList.head? = some '_' := by decide
  intro e he
  obtain ⟨h1, h2⟩ := h e he
  refine ⟨h1, ?_⟩
  cases hl : e.toList with
  | nil => simp [hl] at h2
  | cons a r =>
    rw [hl] at h2
    simp only [List.head?_cons, Option.some.injEq] at h2
    exact ⟨r, by rw [h2]⟩

theorem digits_not_mem {c : Char} (hc : c.isDigit = false) (k : ℕ) : c ∉ (toString k).toList := by
  intro h
  have h' : c ∈ Nat.toDigits 10 k := by
    rw [← Nat.toList_repr]
    exact h
  rw [Nat.isDigit_of_mem_toDigits (by norm_num) (by norm_num) h'] at hc
  cases hc

/-- C99: a name determines directory, seed and kind of data -/
theorem fileName_inj {dir dir' e e' : String} {k k' : ℕ} (he : e ∈ fileSuffixes) (he' : e' ∈ fileSuffixes)
    (h : fileName dir k e = fileName dir' k' e') : dir = dir' ∧ k = k' ∧ e = e' := by
  obtain ⟨n1, r, hr⟩ := suffix_form e he
  obtain ⟨n1', r', hr'⟩ := suffix_form e' he'
  have h' := congrArg String.toList h
  unfold fileName at h'
  simp only [String.toList_append, List.append_assoc] at h'
  have es : "/sim_".toList = '/' :: "sim_".toList := by decide
  rw [es] at h'
  simp only [List.cons_append] at h'
  have hn : ∀ (k : ℕ) (e : String), '/' ∉ e.toList → '/' ∉ "sim_".toList ++ ((toString k).toList ++ e.toList) := by
    intro k e he hm
    rcases List.mem_append.1 hm with hm | hm
    · revert hm; decide
    · rcases List.mem_append.1 hm with hm | hm
      · exact digits_not_mem (by decide) k hm
      · exact he hm
  obtain ⟨h1, h2⟩ := split_last h' (hn k e n1) (hn k' e' n1')
  have h3 := List.append_cancel_left h2
  rw [hr, hr'] at h3
  obtain ⟨h4, h5⟩ := split_first h3 (digits_not_mem (by decide) k) (digits_not_mem (by decide) k')
  refine ⟨String.toList_injective h1, ?_, String.toList_injective (by rw [hr, hr', h5])⟩
  have h6 : toString k = toString k' := String.toList_injective h4
  exact Nat.repr_injective h6

theorem own_disjoint {dir dir' : String} {k k' : ℕ} (h : dir ≠ dir' ∨ k ≠ k') (n : String)
    (h1 : Own (dir ++ "/sim_" ++ toString k) n) : ¬ Own (dir' ++ "/sim_" ++ toString k') n := by
  rintro ⟨e', he', h2⟩
  obtain ⟨e, he, h1⟩ := h1
  obtain ⟨h3, h4, -⟩ := fileName_inj he he' (show fileName dir k e = fileName dir' k' e' from h1.symm.trans h2)
  rcases h with h | h
  · exact h h3
  · exact h h4

example : fileName "out" 5 "_hsfield.dat" = "out/sim_5_hsfield.dat" := by decide

example : ∃ n, Own ("a/sim_1" ++ "/sim_" ++ toString 12) n ∧ ¬ Own ("a" ++ "/sim_" ++ toString 112) n :=
  ⟨_, ⟨"_hsfield.dat", by decide, rfl⟩, own_disjoint (Or.inl (by decide)) _ ⟨"_hsfield.dat", by decide, rfl⟩⟩

/-- C99: if the base name has at most 996 bytes, then all names fit into the arrays of 1024 characters -/
theorem names_fit (fnbase : String) (h : fnbase.utf8ByteSize + 27 ≤ 1023) (n : String) (hn : Own fnbase n) :
    n.utf8ByteSize + 1 ≤ 1024 := by
  obtain ⟨e, he, rfl⟩ := hn
  have hl : ∀ e ∈ fileSuffixes, e.utf8ByteSize ≤ 27 := by decide
  have := hl e he
  rw [String.utf8ByteSize_append]
  omega

/-- the bound is attained by a file of runs with phonons -/
example (fnbase : String) : (fnbase ++ "_phonon_iteration_X_avg.dat").utf8ByteSize = fnbase.utf8ByteSize + 27 := by
  rw [String.utf8ByteSize_append]
  rfl

/-! ## Local functions commute -/

/-- C99: two functions which use disjoint sets of files can be run in either order -/
theorem UsesOnly.commute {S S' : String → Prop} {f g : FS → Option (FS × ℤ)} (hf : UsesOnly S f) (hg : UsesOnly S' g)
    (hd : ∀ n, S n → ¬ S' n) (fs : FS) :
    runBoth f g fs = (runBoth g f fs).map fun r => (r.1, r.2.2, r.2.1) := by
  unfold runBoth
  simp only [Option.bind_eq_bind, Option.pure_def]
  rcases hfs : f fs with _ | ⟨a, c⟩
  · rcases hgs : g fs with _ | ⟨b, d⟩
    · rfl
    · have hab : ∀ n, S n → fs n = b n := fun n hn => (hg.frame _ _ _ hgs n (hd n hn)).symm
      rcases hf.depends fs b hab with ⟨-, h⟩ | ⟨_, _, _, h, -⟩
      · simp [h]
      · rw [hfs] at h; cases h
  · have hab : ∀ n, S' n → fs n = a n := fun n hn => (hf.frame _ _ _ hfs n fun hs => hd n hs hn).symm
    rcases hgs : g fs with _ | ⟨b, d⟩
    · rcases hg.depends fs a hab with ⟨-, h⟩ | ⟨_, _, _, h, -⟩
      · simp [h]
      · rw [hgs] at h; cases h
    · have hba : ∀ n, S n → fs n = b n := fun n hn => (hg.frame _ _ _ hgs n (hd n hn)).symm
      rcases hg.depends fs a hab with ⟨h, -⟩ | ⟨b', b1, d', h1, h2, h3⟩
      · rw [hgs] at h; cases h
      rcases hf.depends fs b hba with ⟨h, -⟩ | ⟨a', a1, c', h4, h5, h6⟩
      · rw [hfs] at h; cases h
      rw [hgs] at h1
      rw [hfs] at h4
      cases h1
      cases h4
      simp only [Option.bind_some, h2, h5, Option.map_some]
      congr 2
      funext n
      by_cases hS : S n
      · rw [hg.frame _ _ _ h2 n (hd n hS), h6 n hS]
      · by_cases hS' : S' n
        · rw [hf.frame _ _ _ h5 n hS, ← h3 n hS']
        · rw [hg.frame _ _ _ h2 n hS', hf.frame _ _ _ h5 n hS, hg.frame _ _ _ hgs n hS', hf.frame _ _ _ hfs n hS]

/-! ## The program uses its own files only -/

section
variable {S : String → Prop}

theorem writeData_frame {f : Fault} {fs : FS} {path : String} {data : List Byte} (n : String) (hn : n ≠ path) :
    (writeData f fs path data false).1 n = fs n := by
  unfold writeData FS.put
  cases f <;> simp [Function.update_of_ne hn]

theorem writeData_depends {f : Fault} {fs fs' : FS} {path : String} {data : List Byte} (n : String) (h : fs n = fs' n) :
    (writeData f fs path data false).1 n = (writeData f fs' path data false).1 n := by
  unfold writeData FS.put
  by_cases hn : n = path
  · subst hn
    cases f <;> simp [h]
  · cases f <;> simp [Function.update_of_ne hn, h]

theorem writeData_status_congr {f : Fault} {fs fs' : FS} {path : String} {data : List Byte} :
    (writeData f fs path data false).2 = (writeData f fs' path data false).2 := by
  cases f <;> rfl

theorem writeAll_frame (ws : List Write) (hS : ∀ w ∈ ws, S w.1) (n : String) (hn : ¬ S n) :
    ∀ (f : ℕ → Fault) (fs : FS), writeAll f fs ws n = fs n := by
  induction ws with
  | nil => intro f fs; rfl
  | cons w ws ih =>
    intro f fs
    rw [writeAll, ih (fun v hv => hS v (List.mem_cons_of_mem _ hv)), writeData_frame]
    rintro rfl
    exact hn (hS w List.mem_cons_self)

theorem writeAll_depends (ws : List Write) (n : String) : ∀ (f : ℕ → Fault) (fs fs' : FS), fs n = fs' n →
    writeAll f fs ws n = writeAll f fs' ws n := by
  induction ws with
  | nil => intro f fs fs' h; exact h
  | cons w ws ih => intro f fs fs' h; exact ih _ _ _ (writeData_depends n h)

theorem writeUntilError_frame (ws : List Write) (hS : ∀ w ∈ ws, S w.1) (n : String) (hn : ¬ S n) :
    ∀ (f : ℕ → Fault) (fs : FS), (writeUntilError f fs ws).1 n = fs n := by
  induction ws with
  | nil => intro f fs; rfl
  | cons w ws ih =>
    intro f fs
    have h1 : (writeData (f 0) fs w.1 w.2 false).1 n = fs n :=
      writeData_frame n (by rintro rfl; exact hn (hS w List.mem_cons_self))
    rw [writeUntilError]
    split
    · exact h1
    · rw [ih (fun v hv => hS v (List.mem_cons_of_mem _ hv)), h1]

theorem writeUntilError_status (ws : List Write) : ∀ (f : ℕ → Fault) (fs fs' : FS),
    (writeUntilError f fs ws).2 = (writeUntilError f fs' ws).2 := by
  induction ws with
  | nil => intro f fs fs'; rfl
  | cons w ws ih =>
    intro f fs fs'
    rw [writeUntilError, writeUntilError]
    rw [writeData_status_congr (fs := fs) (fs' := fs')]
    split
    · exact writeData_status_congr
    · exact ih _ _ _

theorem writeUntilError_depends (ws : List Write) (n : String) : ∀ (f : ℕ → Fault) (fs fs' : FS), fs n = fs' n →
    (writeUntilError f fs ws).1 n = (writeUntilError f fs' ws).1 n := by
  induction ws with
  | nil => intro f fs fs' h; exact h
  | cons w ws ih =>
    intro f fs fs' h
    rw [writeUntilError, writeUntilError]
    rw [writeData_status_congr (fs := fs) (fs' := fs')]
    split
    · exact writeData_depends n h
    · exact ih _ _ _ (writeData_depends n h)

end

section reads

variable {fnbase : String} {fs fs' : FS}

theorem readData_depends (h : ∀ n, Own fnbase n → fs n = fs' n) {e : String} (he : e ∈ fileSuffixes) (size n : ℕ) :
    readData fs (fnbase ++ e) size n = readData fs' (fnbase ++ e) size n := by
  unfold readData
  rw [h _ ⟨e, he, rfl⟩]

theorem loadArrays_depends {A : Type} [DecidableEq A] (h : ∀ n, Own fnbase n → fs n = fs' n) (F : Float64)
    (files : List (A × String)) (hfiles : ∀ f ∈ files, f.2 ∈ fileSuffixes) (size : A → ℤ) (old : Arrays A) :
    loadArrays F fs fnbase files size old = loadArrays F fs' fnbase files size old := by
  unfold loadArrays
  induction files generalizing old with
  | nil => rfl
  | cons f files ih =>
    rw [List.foldl_cons, List.foldl_cons, ih fun g hg => hfiles g (List.mem_cons_of_mem _ hg)]
    congr 2
    unfold loadArray
    rw [readData_depends h (hfiles f List.mem_cons_self)]

theorem startup_depends {N : ℕ} (su : Setup N) (h : ∀ n, Own su.fnbase n → fs n = fs' n) : startup su fs = startup su fs' := by
  have h1 : searchCheckpoint fs su.fnbase = searchCheckpoint fs' su.fnbase := by
    unfold searchCheckpoint
    rw [h _ ⟨"_iteration.dat", by decide, rfl⟩, h _ ⟨"_randseed.dat", by decide, rfl⟩, h _ ⟨"_hsfield.dat", by decide, rfl⟩]
  have h2 : ∀ (LxN : ℕ) (old : Ckpt), loadCheckpoint su.F fs su.fnbase LxN old = loadCheckpoint su.F fs' su.fnbase LxN old := by
    intro LxN old
    unfold loadCheckpoint loadIteration loadSeed loadField
    rw [readData_depends h (e := "_iteration.dat") (by decide), readData_depends h (e := "_randseed.dat") (by decide),
      readData_depends h (e := "_hsfield.dat") (by decide)]
  have h3 : loadMeas su fs = loadMeas su fs' := by
    unfold loadMeas loadEq loadUneq loadDouble loadCount
    rw [readData_depends h (e := "_eqlt_sign.dat") (by decide), readData_depends h (e := "_eqlt_nsampl.dat") (by decide),
      readData_depends h (e := "_uneqlt_sign.dat") (by decide), readData_depends h (e := "_uneqlt_nsampl.dat") (by decide),
      loadArrays_depends h su.F eqLoadFiles (by decide), loadArrays_depends h su.F uneqLoadFiles (by decide)]
  unfold startup
  rw [h1, h2, h3]

end reads

theorem resultWrites_own {N : ℕ} (su : Setup N) (m : MeasData) (c : Counters) :
    ∀ w ∈ resultWrites su m c, Own su.fnbase w.1 := by
  have ha : ∀ {A : Type} (files : List (A × String)) (size : A → ℤ) (a : Arrays A), (∀ f ∈ files, f.2 ∈ fileSuffixes) →
      ∀ w ∈ arrayWrites su.fnbase files size a, Own su.fnbase w.1 := by
    intro A files size a hf w hw
    unfold arrayWrites at hw
    obtain ⟨f, hm, rfl⟩ := List.mem_map.1 hw
    exact ⟨f.2, hf f hm, rfl⟩
  have h1 : ∀ w ∈ eqWrites su.Norb su.Ncell su.fnbase m.eq, Own su.fnbase w.1 := by
    intro w hw
    unfold eqWrites at hw
    rcases List.mem_append.1 hw with hw | hw
    · simp only [List.mem_cons, List.not_mem_nil, or_false] at hw
      rcases hw with rfl | rfl
      · exact ⟨_, by decide, rfl⟩
      · exact ⟨_, by decide, rfl⟩
    · exact ha _ _ _ (by decide) w hw
  have h2 : ∀ w ∈ uneqWrites su.Norb su.Ncell su.cfg.L su.fnbase m.uneq, Own su.fnbase w.1 := by
    intro w hw
    unfold uneqWrites at hw
    rcases List.mem_append.1 hw with hw | hw
    · simp only [List.mem_cons, List.not_mem_nil, or_false] at hw
      rcases hw with rfl | rfl
      · exact ⟨_, by decide, rfl⟩
      · exact ⟨_, by decide, rfl⟩
    · exact ha _ _ _ (by decide) w hw
  have h3 : ∀ w ∈ phWrites su.Norb su.fnbase m.ph c, Own su.fnbase w.1 := by
    intro w hw
    unfold phWrites at hw
    rcases List.mem_append.1 hw with hw | hw
    · rcases List.mem_append.1 hw with hw | hw
      · simp only [List.mem_cons, List.not_mem_nil, or_false] at hw
        rcases hw with rfl | rfl
        · exact ⟨_, by decide, rfl⟩
        · exact ⟨_, by decide, rfl⟩
      · exact ha _ _ _ (by decide) w hw
    · simp only [List.mem_cons, List.not_mem_nil, or_false] at hw
      rcases hw with rfl | rfl | rfl | rfl
      · exact ⟨_, by decide, rfl⟩
      · exact ⟨_, by decide, rfl⟩
      · exact ⟨_, by decide, rfl⟩
      · exact ⟨_, by decide, rfl⟩
  intro w hw
  unfold resultWrites at hw
  rcases List.mem_append.1 hw with hw | hw
  · rcases List.mem_append.1 hw with hw | hw
    · exact h1 w hw
    · split at hw
      · exact h2 w hw
      · simp at hw
  · split at hw
    · exact h3 w hw
    · simp at hw

theorem checkpointWrites_own (fnbase : String) (LxN : ℕ) (c : Ckpt) :
    ∀ w ∈ checkpointWrites fnbase LxN c, Own fnbase w.1 := by
  intro w hw
  unfold checkpointWrites at hw
  simp only [List.mem_cons, List.not_mem_nil, or_false] at hw
  rcases hw with rfl | rfl | rfl
  · exact ⟨_, by decide, rfl⟩
  · exact ⟨_, by decide, rfl⟩
  · exact ⟨_, by decide, rfl⟩

/-- a process uses its own files only -/
theorem process_usesOnly {N : ℕ} [NeZero N] (su : Setup N) (inp : RunInput) :
    UsesOnly (Own su.fnbase) (process su inp) := by
  constructor
  · intro fs fs1 c h n hn
    unfold process at h
    simp only [Option.bind_eq_bind, Option.pure_def] at h
    obtain ⟨st, -, h⟩ := Option.bind_eq_some_iff.1 h
    cases st with
    | refuse code =>
      simp only [Option.some.injEq, Prod.mk.injEq] at h
      rw [h.1]
    | go it seed s meas =>
      simp only at h
      obtain ⟨r, -, h⟩ := Option.bind_eq_some_iff.1 h
      obtain rfl := congrArg Prod.fst (Option.some.inj h)
      unfold finish saveCheckpoint
      simp only
      split
      · exact writeUntilError_frame _ (checkpointWrites_own _ _ _) n hn _ _
      · exact (writeAll_frame _ (resultWrites_own su _ _) n hn _ _).trans
          (writeUntilError_frame _ (checkpointWrites_own _ _ _) n hn _ _)
  · intro fs fs' h
    unfold process
    rw [startup_depends su h]
    simp only [Option.bind_eq_bind, Option.pure_def]
    rcases startup su fs' with _ | st
    · exact Or.inl ⟨rfl, rfl⟩
    · cases st with
      | refuse code => exact Or.inr ⟨fs, fs', code, rfl, rfl, h⟩
      | go it seed s meas =>
        simp only [Option.bind_some]
        rcases perform su inp.stop it seed s meas with _ | r
        · exact Or.inl ⟨rfl, rfl⟩
        · refine Or.inr ⟨(finish su inp fs r).1, (finish su inp fs' r).1, (finish su inp fs r).2, rfl, ?_, ?_⟩
          · simp only [Option.bind_some]
            congr 1
            refine Prod.ext rfl ?_
            unfold finish saveCheckpoint
            simp only
            rw [writeUntilError_status _ _ fs' fs]
            split <;> rfl
          · intro n hn
            unfold finish saveCheckpoint
            simp only
            rw [writeUntilError_status _ _ fs' fs]
            split
            · exact writeUntilError_depends _ n _ _ _ (h n hn)
            · exact writeAll_depends _ n _ _ _ (writeUntilError_depends _ n _ _ _ (h n hn))

/-- C99: a process which dies while it writes does not touch files of others either -/
theorem crash_frame {S : String → Prop} {fs fs1 : FS} {ws : List Write} (h : Crash fs ws fs1) (hS : ∀ w ∈ ws, S w.1)
    (n : String) (hn : ¬ S n) : fs1 n = fs n := by
  induction h with
  | before => rfl
  | inside fs w ws k =>
    exact Function.update_of_ne (show n ≠ w.1 from fun e => hn (e ▸ hS w List.mem_cons_self)) _ _
  | later fs fs' w ws _ ih =>
    rw [ih fun v hv => hS v (List.mem_cons_of_mem _ hv)]
    exact Function.update_of_ne (show n ≠ w.1 from fun e => hn (e ▸ hS w List.mem_cons_self)) _ _

/-- C99: the same for all files which a process may be writing -/
theorem crash_own {N : ℕ} (su : Setup N) {fs fs1 : FS} {r : LoopResult (State Seed N MeasData)}
    (h : Crash fs (finalWrites su r) fs1) (n : String) (hn : ¬ Own su.fnbase n) : fs1 n = fs n := by
  refine crash_frame h (fun w hw => ?_) n hn
  unfold finalWrites at hw
  rcases List.mem_append.1 hw with hw | hw
  · exact checkpointWrites_own _ _ _ w hw
  · exact resultWrites_own su _ _ w hw

theorem usesOnly_none (S : String → Prop) : UsesOnly S fun _ => none :=
  ⟨fun _ _ _ h => (by cases h), fun _ _ _ => Or.inl ⟨rfl, rfl⟩⟩

theorem usesOnly_pure (S : String → Prop) (c : ℤ) : UsesOnly S fun fs => some (fs, c) :=
  ⟨fun _ _ _ h n _ => by cases h; rfl, fun fs fs' h => Or.inr ⟨fs, fs', c, rfl, rfl, h⟩⟩

/-- the base name of the files of a run of the program -/
noncomputable def baseOf (mc : Machine) (inp : Input) : Option String :=
  (parse mc.conv inp.file (initialParams inp.ticks)).map fun r => baseName mc r.2 inp.dir

/-- C99: a run of the program uses its own files only -/
theorem program_usesOnly (mc : Machine) (inp : Input) (b : String) (hb : baseOf mc inp = some b) :
    UsesOnly (Own b) (program mc inp) := by
  unfold baseOf at hb
  obtain ⟨r, hr, rfl⟩ := Option.map_eq_some_iff.1 hb
  unfold program
  rw [hr]
  simp only [Option.bind_eq_bind, Option.bind_some, Option.pure_def]
  split
  · exact usesOnly_pure _ _
  split
  · exact usesOnly_pure _ _
  split
  · exact usesOnly_none _
  split
  · exact usesOnly_pure _ _
  split
  · exact usesOnly_pure _ _
  unfold setupOf
  split
  · exact usesOnly_none _
  simp only [Option.bind_some]
  by_cases h : sites r.2 ≠ 0
  · simp only [dif_pos h]
    have : NeZero (sites r.2) := ⟨h⟩
    exact process_usesOnly (mkSetup mc r.2 (baseName mc r.2 inp.dir)) inp.run
  · simp only [dif_neg h]
    exact usesOnly_none _

/-- C99: runs with different seeds or output directories can be done in any order -/
theorem programs_commute (mc : Machine) (inp inp' : Input)
    (r r' : ℤ × SimParams ℝ) (h : parse mc.conv inp.file (initialParams inp.ticks) = some r)
    (h' : parse mc.conv inp'.file (initialParams inp'.ticks) = some r')
    (hd : inp.dir.getD (mc.defaultDir r.2) ≠ inp'.dir.getD (mc.defaultDir r'.2) ∨ r.2.itime ≠ r'.2.itime) (fs : FS) :
    runBoth (program mc inp) (program mc inp') fs
      = (runBoth (program mc inp') (program mc inp) fs).map fun r => (r.1, r.2.2, r.2.1) := by
  refine (program_usesOnly mc inp (baseName mc r.2 inp.dir) (by rw [baseOf, h]; rfl)).commute
    (program_usesOnly mc inp' (baseName mc r'.2 inp'.dir) (by rw [baseOf, h']; rfl)) (fun n hn => ?_) fs
  refine own_disjoint (hd.imp_right fun hi hk => hi (BitVec.eq_of_toNat_eq hk)) n hn

/-- the same input file with two output directories -/
example (mc : Machine) (inp : Input) (r : ℤ × SimParams ℝ) (h : parse mc.conv inp.file (initialParams inp.ticks) = some r)
    (fs : FS) :
    runBoth (program mc { inp with dir := some "a" }) (program mc { inp with dir := some "b" }) fs
      = (runBoth (program mc { inp with dir := some "b" }) (program mc { inp with dir := some "a" }) fs).map
          fun r => (r.1, r.2.2, r.2.1) :=
  programs_commute mc { inp with dir := some "a" } { inp with dir := some "b" } r r h h (Or.inl (by simp)) fs

end Verif.Main
