import Verif.Props.IndexMeas
import Verif.Props.ParamsInterp

set_option autoImplicit false

/-!
# C91, continued: the Monte Carlo iterations and the whole program
-/

namespace Verif.Index

section phonons

variable {o x y n l b k : ℤ} (d : Dims o x y n) (ts : Slices l b k n) {O C L : I} (hO : V O o) (hC : V C (x * y)) (hL : V L l)
include d ts hO hC hL

theorem accumulatePhonon_safe {m : ℤ} {M z s : I} (hM : V M m) (hm : 0 ≤ m) (hom : o * m ≤ maxInt) (hz : Bd z l) (hs : Bd s m) :
    Safe (accumulatePhonon O C L M z s) := by
  have o1 := d.o1
  have c1 := d.c1
  have n1 := d.n1
  have l1 := ts.l1
  have hlm := ts.lm
  have hN := d.vn hO hC
  have hNN := d.vnn hN
  have hLN := ts.vln hL hN (by omega)
  have hOM := V_mul hO hM (by omega) hm hom
  have hsm : ∀ {a : I}, Bd a o → Bd (a + s * O) (o * m) := fun ha => Bd.radix' ha hs hO (by omega)
  simp only [accumulatePhonon, safe_append]
  refine ⟨⟨safe_loop0 hL fun q hq => safe_loop0 hO fun a ha => safe_append.2 ⟨safe_loop0 hC fun i hi => ?_, ?_⟩, safe_loop0 hO fun a ha => ?_⟩,
    safe_loop0 hO fun a ha => safe_append.2 ⟨safe_loop0 hC fun i hi => ?_, safe_singleton.2 (el_ok hO ha)⟩⟩
  · have hia := d.site hi ha hC
    have hq1 : Bd ((q + 1) % L) l := by
      obtain ⟨w, hw, hw0, hwl⟩ := hq
      exact Bd.mod (V_add hw V_one (by omega) (by omega)) hL (by omega) (by omega) (by omega)
    simp only [safe_cons, safe_nil_iff, and_true]
    exact ⟨el_ok hO ha, el_ok hLN (ts.entry hia hq hN), el_ok hOM (hsm ha), el_ok hLN (ts.entry hia hq1 hN)⟩
  · have haC : Bd (a * C) n := by
      obtain ⟨w, hw, hw0, hwo⟩ := ha
      obtain ⟨h1, h2, h3⟩ := orb_site d hC hw hw0 hwo
      exact ⟨w * (x * y), V_mul hw hC hw0 (by omega) (by have := d.small (le_refl n); rw [mul_comm]; omega), by rw [mul_comm]; omega, by rw [mul_comm]; omega⟩
    simp only [safe_cons, safe_nil_iff, and_true]
    exact ⟨el_ok hOM (hsm ha), el_ok hLN (ts.entry haC hq hN)⟩
  · simp only [safe_cons, safe_nil_iff, and_true]
    exact ⟨el_ok hO ha, el_ok hO ⟨0, V_zero, le_refl _, by omega⟩⟩
  · have hia := d.site' hi ha hC
    simp only [safe_cons, safe_nil_iff, and_true]
    exact ⟨el_ok hNN (d.pair hia hia hN), el_ok hLN (ts.entry (d.site hi ha hC) hz hN)⟩

omit d ts hC hL in
theorem countsPhonon_safe {m : ℤ} {M : I} (hM : V M m) (hm : 0 ≤ m) (ho : 0 ≤ o) (hom : o * m ≤ maxInt) : Safe (countsPhonon O M) := by
  have hOM := V_mul hO hM ho hm hom
  simp only [countsPhonon, safe_append, safe_cons, safe_nil_iff, and_true]
  exact ⟨⟨run1_ok' hO hO ho, run1_ok' hOM hOM (mul_nonneg ho hm)⟩, safe_loop0 hO fun a ha => safe_singleton.2 (el_ok hO ha)⟩

/-! ## monte_carlo.c -/

omit d ts hO hC hL in
theorem shuffle_safe {N : I} (hN : V N n) (hn : n ≤ maxInt) : Safe (shuffle N) := by
  simp only [shuffle]
  refine safe_loop0 hN fun i hi => ?_
  have hi' := hi
  obtain ⟨w, hw, hw0, hwn⟩ := hi
  refine safe_loop0 (V_add hw V_one (by omega) (by omega)) fun j hj => ?_
  simp only [safe_cons, safe_nil_iff, and_true]
  exact ⟨el_ok hN hi', el_ok hN (hj.mono (by omega))⟩

omit d ts hO hC hL in
theorem flip_Bd {s : I} (hs : Bd s 2) : Bd (1 - s) 2 := by
  obtain ⟨w, hw, hw0, hw2⟩ := hs
  exact ⟨1 - w, V_sub V_one hw (by simp only [maxInt]; omega) (by simp only [maxInt]; omega), by omega, by omega⟩

theorem siteUpdates_safe {z : I} (hz : Bd z l) : Safe (siteUpdates O C L z) := by
  have n1 := d.n1
  have hN := d.vn hO hC
  have hNN := d.vnn hN
  have hLN := ts.vln hL hN (by omega)
  simp only [siteUpdates, safe_append]
  refine ⟨shuffle_safe hN (d.small (le_refl n)), safe_loop0 hN fun j hj => safe_append.2 ⟨safe_singleton.2 (el_ok hN hj), safe_loop0 hN fun i hi => ?_⟩⟩
  simp only [safe_append, safe_cons, safe_nil_iff, and_true]
  refine ⟨⟨⟨el_ok hNN (d.pair' hi hi hN), el_ok hLN (ts.entry hi hz hN), el_ok hO (d.orb hi hC)⟩, shermanMorrison_safe d hN hi⟩,
    safe_loop0 V_two fun s hs => ?_⟩
  simp only [safe_cons, safe_nil_iff, and_true]
  exact ⟨el_ok V_two hs, el_ok V_two (flip_Bd hs)⟩

variable {t : Tables} (ht : t.Good (x * y)) {B W Q : I} {w q : ℤ} (hB : V B b) (hW : V W w) (hw : 1 ≤ w) (hQ : V Q q)
include ht hB hW hw hQ

theorem sliceEnd_safe {z : I} (hz : Bd z l) {meas : List Event} (hmeas : 0 < q → Safe meas) :
    Safe (sliceEnd t O C L B W Q z meas) := by
  have n1 := d.n1
  have l1 := ts.l1
  have hlm := ts.lm
  have hN := d.vn hO hC
  have hLN := ts.vln hL hN (by omega)
  simp only [sliceEnd, safe_append]
  refine ⟨⟨updateTimeStep_safe d ts hO hC hL hB hLN hz, ?_⟩, (safe_cond V_zero hQ).2 ⟨fun hc => ?_, fun _ => safe_nil⟩⟩
  all_goals
    obtain ⟨v, hv, hv0, hvl⟩ := hz
    have hv1 : V (z + 1) (v + 1) := V_add hv V_one (by omega) (by omega)
  · exact (safe_cond (V_mod hv1 hW (by omega) (by omega) (by omega)) V_zero).2
      ⟨fun _ => greenConstruct_safe d ts hN hL hB (Bd.mod hv1 hL (by omega) (by omega) (by omega)), fun _ => safe_nil⟩
  · simp only [lt, decide_eq_true_eq] at hc
    exact (safe_cond (V_mod hv1 hQ (by omega) hc (by omega)) V_zero).2
      ⟨fun _ => safe_append.2 ⟨accumulateMeas_safe d ht hO hC, hmeas hc⟩, fun _ => safe_nil⟩

theorem iteration_safe : Safe (iteration t O C L B W Q) := by
  have n1 := d.n1
  have hN := d.vn hO hC
  have hNN := d.vnn hN
  simp only [iteration, safe_append, safe_singleton]
  refine ⟨use_ok hN (by omega), safe_loop0 hL fun z hz => ?_⟩
  simp only [safe_append, safe_singleton]
  exact ⟨⟨⟨el_ok hL hz, timeSliceWrap_safe d hN hNN V_zero (le_refl _) (by omega)⟩, siteUpdates_safe d ts hO hC hL hz⟩,
    sliceEnd_safe d ts hO hC hL ht hB hW hw hQ hz fun _ => safe_nil⟩

omit ht hW hw hQ in
theorem phononBlock_safe {nb : ℤ} {NB : I} (hNB : V NB nb) : Safe (phononBlock O C L B NB) := by
  have n1 := d.n1
  have l1 := ts.l1
  have hN := d.vn hO hC
  have hNN := d.vnn hN
  have hLN := ts.vln hL hN (by omega)
  have h0 : 0 ≤ n * n := mul_nonneg (by omega) (by omega)
  simp only [phononBlock]
  refine (safe_cond V_zero hNB).2 ⟨fun _ => ?_, fun _ => safe_nil⟩
  simp only [safe_append, safe_cons, safe_nil_iff, and_true]
  refine ⟨⟨⟨use_ok hL (by omega), use_ok hNN h0⟩, allocateTimeStep_safe ts n1 d.nn hN hL hB⟩, safe_loop0 hN fun i hi => ?_⟩
  simp only [safe_append, safe_singleton]
  refine ⟨⟨⟨⟨el_ok hO (d.orb hi hC), safe_loop0 hL fun z hz => ?_⟩, initTimeStep_safe d ts hO hC hL hB hLN⟩,
    greenConstruct_safe d ts hN hL hB ⟨0, V_zero, le_refl _, by omega⟩⟩, run1_ok' hNN hNN h0⟩
  simp only [safe_cons, safe_nil_iff, and_true]
  exact ⟨el_ok hL hz, el_ok hLN (ts.entry hi hz hN)⟩

theorem phononIteration_safe {m nl nb : ℤ} {M s NL NB : I} (hM : V M m) (hm : 0 ≤ m) (hom : o * m ≤ maxInt) (hs : 0 < q → Bd s m)
    (hNL : V NL nl) (hnl : nl ≤ maxInt) (hNB : V NB nb) : Safe (phononIteration t O C L B W Q NL NB M s) := by
  have n1 := d.n1
  have l1 := ts.l1
  have l2 := ts.l2
  have hlm := ts.lm
  have hN := d.vn hO hC
  have hNN := d.vnn hN
  have hLN := ts.vln hL hN (by omega)
  simp only [phononIteration, safe_append, safe_singleton]
  refine ⟨⟨use_ok hN (by omega), safe_loop0 hL fun z hz => ?_⟩, phononBlock_safe d ts hO hC hL hB hNB⟩
  simp only [safe_append, safe_singleton]
  refine ⟨⟨⟨⟨⟨⟨el_ok hL hz, timeSliceWrap_safe d hN hNN V_zero (le_refl _) (by omega)⟩, siteUpdates_safe d ts hO hC hL hz⟩,
    shuffle_safe hN (d.small (le_refl n))⟩, (safe_loop V_zero hNL).2 fun j hj0 hj => safe_singleton.2 ?_⟩, safe_loop0 hN fun i hi => ?_⟩,
    sliceEnd_safe d ts hO hC hL ht hB hW hw hQ hz fun h => accumulatePhonon_safe d ts hO hC hL hM hm hom hz (hs h)⟩
  · exact el_ok hN (Bd.mod (V_coe j) hN hj0 (by omega) (by omega))
  · have hz' := hz
    obtain ⟨v, hv, hv0, hvl⟩ := hz
    have hnext : Bd ((z + 1) % L) l := Bd.mod (V_add hv V_one (by omega) (by omega)) hL (by omega) (by omega) (by omega)
    have hprev : Bd ((z + L - 1) % L) l :=
      Bd.mod (V_sub (V_add hv hL (by omega) (by omega)) V_one (by simp only [maxInt]; omega) (by omega)) hL (by omega) (by omega) (by omega)
    simp only [safe_append, safe_cons, safe_nil_iff, and_true]
    exact ⟨⟨el_ok hO (d.orb hi hC), el_ok hNN (d.pair' hi hi hN), el_ok hLN (ts.entry hi hz' hN), el_ok hLN (ts.entry hi hnext hN),
      el_ok hLN (ts.entry hi hprev hN)⟩, shermanMorrison_safe d hN hi⟩

end phonons

/-! ## main.c -/

theorem paramEvents_safe {o : ℤ} {O : I} (hO : V O o) (o1 : 1 ≤ o) (hoo : o * o ≤ maxInt) : Safe (paramEvents O) := by
  have hOO := V_mul hO hO (by omega) (by omega) hoo
  have hom : o ≤ maxInt := le_trans (le_mul_of_one_le_left (by omega) o1) hoo
  have pair : ∀ {i j : I}, Bd i o → Bd j o → Bd (i + j * O) (o * o) := fun hi hj => Bd.radix' hi hj hO (by omega)
  simp only [paramEvents, safe_append, safe_cons, safe_nil_iff, and_true]
  refine ⟨⟨⟨⟨use_ok hOO (mul_nonneg (by omega) (by omega)), use_ok hO (by omega)⟩,
    el_ok hO ⟨_, V_sub hO V_one (by simp only [maxInt]; omega) (by omega), by omega, by omega⟩⟩,
    safe_loop0 hO fun i hi => safe_loop0 hO fun j hj => ?_⟩, (safe_loop V_zero hO).2 fun z hz hzo => ?_⟩
  · simp only [safe_cons, safe_nil_iff, and_true]
    exact ⟨el_ok hO hi, el_ok hOO (pair hi hj)⟩
  · have hi : Bd (z : I) o := ⟨z, V_coe z, hz, hzo⟩
    refine safe_append.2 ⟨safe_singleton.2 (el_ok hOO (pair hi hi)), (safe_loop (V_add (V_coe z) V_one (by omega) (by omega)) hO).2 fun j hj hjo => ?_⟩
    have hj' : Bd (j : I) o := ⟨j, V_coe j, by omega, hjo⟩
    simp only [safe_cons, safe_nil_iff, and_true]
    exact ⟨el_ok hOO (pair hi hj'), el_ok hOO (pair hj' hi)⟩

section whole

variable {o x y n l b k : ℤ} (d : Dims o x y n) (ts : Slices l b k n) {O L B U M : I} {un m : ℤ} (hO : V O o) (hL : V L l) (hB : V B b)
  (hU : V U un) (hu : 0 < un → Uneq n l k) {ph : Bool} (hM : ph = true → V M m) (hm : 0 ≤ m) (hom : o * m ≤ maxInt)
include d ts hO hL hB hU hu hM hm hom

theorem setup_safe {X Y S : I} {sh : ℤ} (hX : V X x) (hY : V Y y) (hS : V S sh) (hs0 : 0 ≤ sh) (hs : 2 * (x - 1) + sh ≤ maxInt) :
    Safe (setup ph O X Y S L B U M) := by
  have o1 := d.o1
  have n1 := d.n1
  have l1 := ts.l1
  have x1 := d.x1
  have hC := d.vc hX hY
  have hN := d.vn' hO hC
  have hNN := d.vnn hN
  have hLN := ts.vln hL hN (by omega)
  have h0 : 0 ≤ n * n := mul_nonneg (by omega) (by omega)
  have hln0 : 0 ≤ l * n := mul_nonneg (by omega) (by omega)
  simp only [setup, safe_append, safe_singleton]
  refine ⟨⟨⟨⟨⟨⟨⟨⟨⟨⟨⟨⟨⟨paramEvents_safe hO o1 d.oo, allocateMeas_safe d hO hX hY hS hs0 hs⟩, ?_⟩, ?_⟩, use_ok hLN hln0⟩,
    safe_loop0 hLN fun i hi => safe_singleton.2 (el_ok hLN hi)⟩, run1_ok' hLN hLN hln0⟩, ?_⟩,
    kineticExponential_safe d hO hX hY hS hs0 (by omega)⟩, fillStratonovich_safe hO (by omega)⟩,
    allocateTimeStep_safe ts n1 d.nn hN hL hB⟩, initTimeStep_safe d ts hO hC hL hB hLN⟩, use_ok hNN h0⟩,
    greenConstruct_safe d ts hN hL hB ⟨0, V_zero, le_refl _, by omega⟩⟩
  · refine (safe_cond V_zero hU).2 ⟨fun hc => ?_, fun _ => safe_nil⟩
    simp only [lt, decide_eq_true_eq] at hc
    exact allocateUneq_safe d ts (hu hc) hO hL hX hY hS hs0 hs (ts.vk hL hB)
  · split
    · rename_i hp
      simp only [allocatePhonon, safe_cons, safe_nil_iff, and_true]
      exact ⟨use_ok hO (by omega), use_ok (V_mul hO (hM hp) (by omega) hm hom) (mul_nonneg (by omega) hm)⟩
    · exact safe_nil
  · split
    · refine safe_loop0 hL fun z hz => safe_loop0 hN fun i hi => ?_
      simp only [safe_cons, safe_nil_iff, and_true]
      exact ⟨el_ok hO (d.orb hi hC), el_ok hLN (ts.entry hi hz hN)⟩
    · exact safe_nil

theorem simulate_safe {t : Tables} (ht : t.Good (x * y)) {C W Q NL NB : I} {w q nl nb : ℤ} (hC : V C (x * y)) (hW : V W w) (hw : 1 ≤ w)
    (hQ : V Q q) (hNL : V NL nl) (hnl : nl ≤ maxInt) (hNB : V NB nb) : Safe (simulate t ph O C L B W Q U NL NB M) := by
  have o1 := d.o1
  simp only [simulate, safe_append]
  refine ⟨⟨⟨⟨?_, ?_⟩, countsMeas_safe d hO hC⟩, ?_⟩, ?_⟩
  · split
    · rename_i hp
      refine safe_append.2 ⟨safe_loop0 (hM hp) fun s hs => ?_, ?_⟩
      · exact phononIteration_safe d ts hO hC hL ht hB hW hw hQ (hM hp) hm hom (fun _ => hs) hNL hnl hNB
      · exact phononIteration_safe d ts hO hC hL ht hB hW hw V_zero (hM hp) hm hom (fun h => absurd h (lt_irrefl _)) hNL hnl hNB
    · exact safe_append.2 ⟨iteration_safe d ts hO hC hL ht hB hW hw hQ, iteration_safe d ts hO hC hL ht hB hW hw V_zero⟩
  · refine (safe_cond V_zero hU).2 ⟨fun hc => ?_, fun _ => safe_nil⟩
    simp only [lt, decide_eq_true_eq] at hc
    exact accumulateUneq_safe d ts (hu hc) ht hO hC hL hB
  · refine (safe_cond V_zero hU).2 ⟨fun hc => ?_, fun _ => safe_nil⟩
    simp only [lt, decide_eq_true_eq] at hc
    exact countsUneq_safe d ts (hu hc) hO hC hL
  · split
    · rename_i hp
      exact countsPhonon_safe hO (hM hp) hm (by omega) hom
    · exact safe_nil

end whole

/-- what the checks of the parameters (C12) guarantee, together with a shift that is not negative and small, and `2*L` not
larger than `2^31` -/
structure Cfg.Valid (c : Cfg) : Prop where
  Norb : 1 ≤ c.Norb
  Nx : 1 ≤ c.Nx
  Ny : 1 ≤ c.Ny
  shift : 0 ≤ c.shift
  shift' : 2 * (c.Nx - 1) + c.shift ≤ maxInt
  L : 1 ≤ c.L
  L2 : 2 * c.L ≤ maxInt + 1
  prodBlen : 1 ≤ c.prodBlen
  dvd : c.prodBlen ∣ c.L
  nwraps : 1 ≤ c.nwraps
  neqlt : 0 ≤ c.neqlt
  nequil : 0 ≤ c.nequil
  nsampl : 0 ≤ c.nsampl
  nLocal : c.nLocal ≤ maxInt

/-- number of sites -/
def Cfg.N (c : Cfg) : ℤ := c.Nx * c.Ny * c.Norb

/-- number of products of time step matrices -/
def Cfg.nB (c : Cfg) : ℤ := c.L / c.prodBlen

/-- The sizes that fit.  This is the specification: no array is mentioned except by its number of elements. -/
structure Cfg.Fits (c : Cfg) : Prop where
  /-- a matrix on the sites -/
  matrix : c.N * c.N ≤ maxInt
  /-- the fields -/
  fields : c.L * c.N ≤ maxInt
  /-- the number of iterations -/
  iterations : c.nequil + c.nsampl ≤ maxInt
  /-- the inversion at unequal times needs two blocks; the block matrix and the Green's functions -/
  uneq : 0 < c.nuneqlt → 2 ≤ c.nB ∧ c.N * c.N * c.nB * c.nB ≤ maxInt ∧ c.N * c.N * c.L ≤ maxInt
  /-- the record of the phonon samples -/
  phonon : c.phonons = true → 0 < c.neqlt ∧ c.nsampl * c.L ≤ maxInt ∧ c.Norb * (c.nsampl * c.L / c.neqlt) ≤ maxInt

section program

variable {c : Cfg} (v : c.Valid)
include v

theorem Cfg.Valid.k_eq : c.L = c.prodBlen * c.nB := by
  unfold Cfg.nB
  exact (Int.mul_ediv_cancel' v.dvd).symm

theorem Cfg.Valid.nB1 : 1 ≤ c.nB := by
  by_contra hc
  have h1 := v.k_eq
  have h2 : c.prodBlen * c.nB ≤ c.prodBlen * 0 := mul_le_mul_of_nonneg_left (by omega) (by have := v.prodBlen; omega)
  have := v.L
  rw [mul_zero] at h2
  omega

theorem Cfg.Valid.dims (h : c.N * c.N ≤ maxInt) : Dims c.Norb c.Nx c.Ny c.N := ⟨v.Norb, v.Nx, v.Ny, rfl, h⟩

theorem Cfg.Valid.slices (h : c.L * c.N ≤ maxInt) : Slices c.L c.prodBlen c.nB c.N := ⟨v.prodBlen, v.nB1, v.k_eq, v.L2, h⟩

/-- **C91** if the sizes fit, then no subscript of the program leaves its buffer and no `int` overflows -/
theorem program_safe (f : c.Fits) (junk : ℤ → ℤ) : Safe (program c junk) := by
  have d := v.dims f.matrix
  have ts := v.slices f.fields
  have l1 := ts.l1
  have hfit := f.iterations
  have hne := v.nequil
  have hns := v.nsampl
  have hU : 0 < c.nuneqlt → Uneq c.N c.L c.nB := fun h => ⟨(f.uneq h).1, (f.uneq h).2.1, (f.uneq h).2.2⟩
  obtain ⟨m, hM, hm, hom⟩ : ∃ m, (c.phonons = true → V ((c.nsampl : I) * (c.L : I) / (c.neqlt : I)) m) ∧ 0 ≤ m ∧ c.Norb * m ≤ maxInt := by
    by_cases hp : c.phonons = true
    · obtain ⟨p1, p2, p3⟩ := f.phonon hp
      have h1 : 0 ≤ c.nsampl * c.L := mul_nonneg hns (by omega)
      exact ⟨_, fun _ => V_div (V_mul (V_coe c.nsampl) (V_coe c.L) hns (by omega) p2) (V_coe c.neqlt) h1 p1 p2, Int.ediv_nonneg h1 (by omega), p3⟩
    · exact ⟨0, fun h => absurd h hp, le_refl _, by rw [mul_zero]; simp only [maxInt]; omega⟩
  unfold program
  refine safe_append.2 ⟨safe_append.2 ⟨?_, safe_singleton.2 ?_⟩, ?_⟩
  · exact setup_safe d ts (V_coe _) (V_coe _) (V_coe _) (V_coe _) hU hM hm hom (V_coe _) (V_coe _) (V_coe _) v.shift v.shift'
  · exact use_ok (V_add (V_coe _) (V_coe _) (by omega) hfit) (by omega)
  · exact simulate_safe d ts (V_coe _) (V_coe _) (V_coe _) (V_coe _) hU hM hm hom (tables_good d.x1 d.y1 v.shift junk)
      (d.vc (V_coe _) (V_coe _)) (V_coe _) v.nwraps (V_coe _) (V_coe _) v.nLocal (V_coe _)

/-- the sizes fit if all numbers of elements are representable -/
theorem fits_of_safe (junk : ℤ → ℤ) (h : Safe (program c junk)) : c.Fits := by
  unfold program at h
  obtain ⟨hset, hsim⟩ := safe_append.1 h
  obtain ⟨hset, hit⟩ := safe_append.1 hset
  have hit := safe_singleton.1 hit
  simp only [setup, safe_append, safe_singleton] at hset
  obtain ⟨⟨⟨⟨⟨⟨⟨⟨⟨⟨⟨⟨⟨-, hmeas⟩, hun⟩, hph⟩, hLN⟩, -⟩, -⟩, -⟩, -⟩, -⟩, -⟩, -⟩, -⟩, -⟩ := hset
  simp only [simulate, safe_append] at hsim
  obtain ⟨⟨⟨⟨-, hacc⟩, -⟩, -⟩, -⟩ := hsim
  simp only [allocateMeas, safe_append, safe_cons] at hmeas
  obtain ⟨⟨⟨-, hNN, -⟩, -⟩, -⟩ := hmeas
  -- values of products
  have vC : ∀ {z : ℤ}, V ((c.Nx : I) * (c.Ny : I)) z → z = c.Nx * c.Ny := by
    intro z hz
    obtain ⟨x, y, hx, hy, he, -⟩ := mul_inv hz
    rw [he, hx.unique (V_coe _), hy.unique (V_coe _)]
  have vN : ∀ {z : ℤ}, V ((c.Nx : I) * (c.Ny : I) * (c.Norb : I)) z → z = c.N := by
    intro z hz
    obtain ⟨x, y, hx, hy, he, -⟩ := mul_inv hz
    rw [he, vC hx, hy.unique (V_coe _), Cfg.N]
  have hmat : c.N * c.N ≤ maxInt := by
    obtain ⟨z, hz, -⟩ := hNN
    obtain ⟨x, y, hx, hy, he, hle⟩ := mul_inv hz
    rw [← vN hx]
    nth_rewrite 2 [vN hx]
    rw [← vN hy, ← he]
    exact hle
  have d := v.dims hmat
  have hC := d.vc (V_coe c.Nx) (V_coe c.Ny)
  have hN := d.vn (V_coe c.Norb) hC
  have hf : c.L * c.N ≤ maxInt := by
    obtain ⟨z, hz, -⟩ := hLN
    obtain ⟨x, y, hx, hy, he, hle⟩ := mul_inv hz
    rw [hx.unique (V_coe _), hy.unique (d.vn' (V_coe _) hC)] at he
    omega
  have ts := v.slices hf
  have hK := ts.vk (V_coe c.L) (V_coe c.prodBlen)
  refine ⟨hmat, hf, ?_, fun hu => ?_, fun hp => ?_⟩
  · obtain ⟨z, hz, -⟩ := hit
    obtain ⟨x, y, hx, hy, he, hle⟩ := add_inv hz
    rw [hx.unique (V_coe _), hy.unique (V_coe _)] at he
    omega
  · have hun := ((safe_cond V_zero (V_coe c.nuneqlt)).1 hun).1 (by simp only [lt, decide_eq_true_eq]; exact hu)
    have hacc := ((safe_cond V_zero (V_coe c.nuneqlt)).1 hacc).1 (by simp only [lt, decide_eq_true_eq]; exact hu)
    simp only [allocateUneq, safe_append, safe_cons] at hun
    obtain ⟨⟨⟨hH, -⟩, -⟩, -⟩ := hun
    simp only [accumulateUneq, safe_append, safe_cons] at hacc
    obtain ⟨⟨⟨hg, -⟩, hgr⟩, -⟩ := hacc
    refine ⟨?_, ?_, ?_⟩
    · by_contra hc
      have h1 := v.nB1
      have h2 : c.nB = 1 := by omega
      rw [h2] at hK
      simp only [unequalTimeGreens, safe_append] at hgr
      obtain ⟨⟨⟨⟨-, hinv⟩, -⟩, -⟩, -⟩ := hgr
      exact blockCyclicInverse_unsafe hN hK d.n1 hmat hinv
    · obtain ⟨z, hz, -⟩ := hH
      obtain ⟨x, y, hx, hy, he, hle⟩ := mul_inv hz
      obtain ⟨x', y', hx', hy', he', -⟩ := mul_inv hx
      rw [hx'.unique (d.vnn hN), hy'.unique hK] at he'
      rw [he', hy.unique hK] at he
      omega
    · obtain ⟨z, hz, -⟩ := hg
      obtain ⟨x, y, hx, hy, he, hle⟩ := mul_inv hz
      obtain ⟨x', y', hx', hy', he', -⟩ := mul_inv hx
      rw [hx'.unique hN, hy'.unique (V_coe _)] at he'
      rw [he', hy.unique hN] at he
      have e : c.N * c.N * c.L = c.N * c.L * c.N := by ring
      rw [e, ← he]
      exact hle
  · simp only [hp, if_true, allocatePhonon, safe_cons] at hph
    obtain ⟨-, ⟨z, hz, -⟩, -⟩ := hph
    obtain ⟨x, y, hx, hy, he, hle⟩ := mul_inv hz
    obtain ⟨x', y', hx', hy', h0, he'⟩ := div_inv hy
    obtain ⟨x'', y'', hx'', hy'', he'', hle''⟩ := mul_inv hx'
    rw [hx''.unique (V_coe _), hy''.unique (V_coe _)] at he''
    rw [hy'.unique (V_coe _)] at h0 he'
    have h1 : 0 ≤ c.nsampl * c.L := mul_nonneg v.nsampl (by have := v.L; omega)
    rw [he'', Int.tdiv_eq_ediv_of_nonneg h1] at he'
    rw [hx.unique (V_coe _), he'] at he
    have hq := v.neqlt
    exact ⟨by omega, by omega, by omega⟩

/-- **C91** the program runs without overflow and without access outside of an array if and only if the sizes fit -/
theorem program_safe_iff (junk : ℤ → ℤ) : Safe (program c junk) ↔ c.Fits :=
  ⟨fits_of_safe v junk, fun f => program_safe v f junk⟩

end program

/-! ## validated parameters -/

open Params in
/-- the integers of a parameter set -/
def cfgOf {F : Type} (p : SimParams F) : Cfg where
  Norb := p.Norb
  Nx := p.Nx
  Ny := p.Ny
  shift := p.pbcShift
  L := p.L
  prodBlen := p.prodBlen
  nwraps := p.nwraps
  neqlt := p.neqlt
  nuneqlt := p.nuneqlt
  nequil := p.nequil
  nsampl := p.nsampl
  phonons := p.usePhonons
  nLocal := p.phonon.nLocalUpdates
  nBlock := p.phonon.nBlockUpdates

open Params in
/-- **C91** for parameters that pass the checks of the code (C11) and some that it does not check, the program is free of
overflow and of accesses outside of arrays exactly if the sizes fit -/
theorem validated_safe_iff {F : Type} [Zero F] [DecidableEq F] (p : SimParams F) (h : validate p = 0) (hs : 0 ≤ p.pbcShift)
    (hs' : 2 * (p.Nx - 1) + p.pbcShift ≤ maxInt) (hL : 2 * p.L ≤ maxInt + 1) (hq : 0 ≤ p.neqlt) (he : 0 ≤ p.nequil)
    (hn : 0 ≤ p.nsampl) (hloc : p.phonon.nLocalUpdates ≤ maxInt) (junk : ℤ → ℤ) :
    Safe (program (cfgOf p) junk) ↔ (cfgOf p).Fits := by
  have a := (validate_iff p).1.1 h
  refine program_safe_iff ⟨?_, ?_, ?_, hs, hs', ?_, hL, ?_, a.dvdL, ?_, hq, he, hn, hloc⟩ junk
  · have := a.norb; simp only [cfgOf]; omega
  · have := a.nx; simp only [cfgOf]; omega
  · have := a.ny; simp only [cfgOf]; omega
  · have := a.l; simp only [cfgOf]; omega
  · have := a.prodBlen; simp only [cfgOf]; omega
  · have := a.nwraps; simp only [cfgOf]; omega

/-- non-vacuity: a 4×4 lattice with two orbitals and measurements at unequal times fits -/
example (junk : ℤ → ℤ) : Safe (program ⟨2, 4, 4, 1, 40, 8, 16, 8, 2, 1000, 5000, false, 0, 0⟩ junk) := by
  refine program_safe ⟨?_, ?_, ?_, ?_, ?_, ?_, ?_, ?_, ⟨5, ?_⟩, ?_, ?_, ?_, ?_, ?_⟩ ⟨?_, ?_, ?_, ?_, ?_⟩ junk <;> norm_num [Cfg.N, Cfg.nB, maxInt]

/-- non-vacuity: the same with phonons -/
example (junk : ℤ → ℤ) : Safe (program ⟨2, 4, 4, 1, 40, 8, 16, 8, 2, 1000, 5000, true, 100, 3⟩ junk) := by
  refine program_safe ⟨?_, ?_, ?_, ?_, ?_, ?_, ?_, ?_, ⟨5, ?_⟩, ?_, ?_, ?_, ?_, ?_⟩ ⟨?_, ?_, ?_, ?_, ?_⟩ junk <;> norm_num [Cfg.N, Cfg.nB, maxInt]

/-- an accepted parameter set with a 20×20 lattice and 120 products of time step matrices; the checks of the code do not
look at the sizes -/
def bigParams : Params.SimParams ℤ :=
  { Params.exParams with
    Norb := 1, Nx := 20, Ny := 20, t := ⟨fun _ => 0, fun _ => 1, fun _ => 1, fun _ => 0, fun _ => 0⟩, L := 480, prodBlen := 4,
    nwraps := 8, neqlt := 8, nuneqlt := 4 }

/-- **C91** (witness) the checks of the parameters do not exclude overflow: for `bigParams` the size of the block matrix
(measurement.c:458) is not an `int`, although the same parameters without measurements at unequal times are safe -/
theorem validated_overflow (junk : ℤ → ℤ) :
    Params.validate bigParams = 0 ∧ ¬ Safe (program (cfgOf bigParams) junk) ∧
      Safe (program (cfgOf { bigParams with nuneqlt := 0 }) junk) := by
  have hv : Params.validate bigParams = 0 := by decide +kernel
  have hv' : Params.validate { bigParams with nuneqlt := 0 } = 0 := by decide +kernel
  have e : cfgOf bigParams = ⟨1, 20, 20, 0, 480, 4, 8, 8, 4, 10, 20, false, 0, 0⟩ := rfl
  have e' : cfgOf { bigParams with nuneqlt := 0 } = ⟨1, 20, 20, 0, 480, 4, 8, 8, 0, 10, 20, false, 0, 0⟩ := rfl
  refine ⟨hv, fun h => ?_, ?_⟩
  · have f := (validated_safe_iff bigParams hv (by decide) (by decide) (by decide) (by decide) (by decide) (by decide) (by decide) junk).1 h
    rw [e] at f
    have := (f.uneq (by decide)).2.1
    norm_num [Cfg.N, Cfg.nB, maxInt] at this
  · refine (validated_safe_iff _ hv' (by decide) (by decide) (by decide) (by decide) (by decide) (by decide) (by decide) junk).2 ?_
    rw [e']
    refine ⟨?_, ?_, ?_, ?_, ?_⟩ <;> norm_num [Cfg.N, Cfg.nB, maxInt]

end Verif.Index
