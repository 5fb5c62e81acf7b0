import Verif.Props.Samples
import Verif.Props.HalfFilling
import Verif.Props.Textbook
import Verif.Props.IndexProgram

set_option autoImplicit false

/-! # C103: runs with the sample inputs of the repository -/

namespace Verif.Params

open Verif.Decimal Verif.Main

variable {rnd : ℝ → ℝ} {s : Sheet} {seed : BitVec 64}

theorem Sheet.Good.admissible (hr : Random.RoundsToNearest rnd) (h : s.Good) (hs : seed ≠ 0) :
    Admissible (s.params rnd seed) := by
  have h0 := rnd_zero hr
  have hl := h.l
  have aa : ∀ k, hopOf s.Norb s.taa k = 0 → (s.params rnd seed).t.aa k = 0 := fun k hk => by
    show rnd (hopOf s.Norb s.taa k : ℚ) = 0
    rw [hk, Rat.cast_zero, h0]
  have lift : ∀ i : ℤ, 0 ≤ i → i < s.Norb → ∃ k : Fin s.Norb.toNat, i = k.val := fun i h1 h2 =>
    ⟨⟨i.toNat, by omega⟩, by simp [h1]⟩
  refine ⟨h.norb, h.nx, h.ny, ?_, ?_, show 0 < s.L by omega, h.prodBlen, h.dvdL, h.dvdNwraps, h.nwraps, hs⟩
  · intro i h1 h2
    obtain ⟨k, rfl⟩ := lift i h1 h2
    exact aa _ (h.noSelf k)
  · intro i j h1 h2 h3 h4 hij
    obtain ⟨k, rfl⟩ := lift i h1 h2
    obtain ⟨m, rfl⟩ := lift j h3 h4
    exact (h.noDouble k m fun e => hij (by rw [e])).imp (aa _) (aa _)

theorem Sheet.Good.guards (hr : Random.RoundsToNearest rnd) (h : s.Good) : Guards (s.params rnd seed) := by
  refine ⟨fun o ho => mul_nonneg (rnd_nonneg hr (by exact_mod_cast h.dt)) (rnd_nonneg hr ?_), h.shift, fun _ => h.neqlt,
    fun hn => ?_⟩
  · have := h.u ⟨o, by have : (o : ℤ) < s.Norb := ho; omega⟩
    exact_mod_cast this
  · have h1 : (s.params rnd seed).nuneqlt = 0 := h.nuneqlt
    omega

theorem Sheet.Good.sites_lt (h : s.Good) : sites (s.params rnd seed) < 2 ^ 31 := by
  obtain ⟨h1, h2, h3, -⟩ := h.small
  show s.Norb.toNat * (s.Nx.toNat * s.Ny.toNat) < 2 ^ 31
  have : s.Norb.toNat * (s.Nx.toNat * s.Ny.toNat) ≤ 8 * (32 * 32) :=
    Nat.mul_le_mul (by omega) (Nat.mul_le_mul (by omega) (by omega))
  omega

theorem Sheet.Good.safe (hr : Random.RoundsToNearest rnd) (h : s.Good) (hs : seed ≠ 0) (junk : ℤ → ℤ) :
    Index.Safe (Index.program (Index.cfgOf (s.params rnd seed)) junk) := by
  classical
  have hv := (validate_iff (s.params rnd seed)).1.2 (h.admissible hr hs)
  obtain ⟨a1, a2, a3, a4⟩ := h.small
  obtain ⟨b1, b2, b3, b4⟩ := h.iters
  have c1 := h.l
  have c2 := h.l2
  have c3 := h.local'
  have c4 := h.neqlt
  have c5 := h.nuneqlt
  have c6 := h.norb
  have c7 := h.nx
  have c8 := h.ny
  refine (Index.validated_safe_iff (s.params rnd seed) hv h.shift ?_ ?_ (le_of_lt c4) b1 b3 ?_ junk).2 ?_
  · show 2 * (s.Nx - 1) + s.shift ≤ Index.maxInt
    norm_num [Index.maxInt]; omega
  · show 2 * s.L ≤ Index.maxInt + 1
    norm_num [Index.maxInt]; omega
  · show s.nlu ≤ Index.maxInt
    norm_num [Index.maxInt]; omega
  have hN : s.Nx * s.Ny * s.Norb ≤ 8192 := by
    have e1 : s.Nx * s.Ny ≤ 32 * 32 := mul_le_mul a2 a3 (by omega) (by norm_num)
    exact (mul_le_mul e1 a1 (by omega) (by norm_num)).trans (by norm_num)
  have hN0 : 0 ≤ s.Nx * s.Ny * s.Norb := by positivity
  constructor
  · show s.Nx * s.Ny * s.Norb * (s.Nx * s.Ny * s.Norb) ≤ Index.maxInt
    exact (mul_le_mul hN hN hN0 (by norm_num)).trans (by norm_num [Index.maxInt])
  · show s.L * (s.Nx * s.Ny * s.Norb) ≤ Index.maxInt
    exact (mul_le_mul c2 hN hN0 (by norm_num)).trans (by norm_num [Index.maxInt])
  · show s.nequil + s.nsampl ≤ Index.maxInt
    norm_num [Index.maxInt]; omega
  · intro hn
    have : s.nuneqlt > 0 := hn
    omega
  · intro _
    have e1 : s.nsampl * s.L ≤ 10000 * 1000 := mul_le_mul b4 c2 (by omega) (by norm_num)
    have e2 : 0 ≤ s.nsampl * s.L := mul_nonneg b3 (by omega)
    refine ⟨c4, ?_, ?_⟩
    · show s.nsampl * s.L ≤ Index.maxInt
      exact e1.trans (by norm_num [Index.maxInt])
    · show s.Norb * (s.nsampl * s.L / s.neqlt) ≤ Index.maxInt
      have e3 : s.nsampl * s.L / s.neqlt ≤ 10000 * 1000 := (Int.ediv_le_self _ e2).trans e1
      exact (mul_le_mul a1 e3 (Int.ediv_nonneg e2 (by omega)) (by norm_num)).trans (by norm_num [Index.maxInt])

end Verif.Params

namespace Verif.Main

open Verif.Params Verif.Decimal Verif.MonteCarlo Verif.Measurement Verif.Files Verif.Random Verif.Progress

variable {mc : Machine}

/-- C103: each of the files is accepted and gives exactly the parameters which can be read in it; no array is exceeded and no
`int` overflows -/
theorem samples_accepted (hmc : mc.Rounds) (hcv : Std mc.rnd mc.conv) {file : List UInt8} {s : Sheet}
    (hx : (file, s) ∈ sampleFiles) {ticks : BitVec 64} (ht : ticks ≠ 0) :
    parse mc.conv (some file) (initialParams ticks) = some (0, s.params mc.rnd ticks) ∧
    Admissible (s.params mc.rnd ticks) ∧ Guards (s.params mc.rnd ticks) ∧
    ∀ junk, Index.Safe (Index.program (Index.cfgOf (s.params mc.rnd ticks)) junk) := by
  obtain ⟨h1, h2⟩ := samples_match _ hx
  have hg := samples_good _ hx
  have h1 : file.length ≤ 1022 := h1
  exact ⟨Sheet.parse hmc hcv s file (short_of_length h1) (fun name => (valuesIn_length name file).trans (by omega)) h2 ticks,
    hg.admissible hmc ht, hg.guards hmc, hg.safe hmc ht⟩

/-- C103: what the program does with these files: it either cannot create its files, or it ends with the averages of the
Metropolis method for these parameters -/
theorem samples_textbook (hmc : mc.Rounds) (hcv : Std mc.rnd mc.conv) {s : Sheet} {inp : Input} {file : List UInt8}
    (hx : (file, s) ∈ sampleFiles) (hf : inp.file = some file) (ht : inp.ticks ≠ 0) (hc : inp.run.Clean) {fs fs1 : FS}
    {code : ℤ} (h : program mc inp fs = some (fs1, code)) (hcode : 0 ≤ code) :
    let p := s.params mc.rnd inp.ticks
    let base := inp.dir.getD (mc.defaultDir p) ++ "/sim_" ++ toString inp.ticks.toNat
    let m := iterations inp.run.stop (s.nequil + s.nsampl).toNat 0
    ∃ _ : NeZero (sites p), searchCheckpoint fs base ≠ 0 →
    ∃ w d, (textbook p (xorshift mc.rnd mc.order)).run 0 m (textbookStart p (xorshift mc.rnd mc.order)) = some w ∧
      Totals p d w.eqs w.uneqs ∧ Reports p base m w d fs1 ∧
      code = if (m : ℤ) < s.nequil + s.nsampl ∨ inp.run.late = true then 1 else 0 := by
  intro p base m
  obtain ⟨h1, h2, h3, -⟩ := samples_accepted hmc hcv hx ht
  have hg := samples_good _ hx
  have hn : NeZero (sites p) := ⟨sites_pos h2⟩
  rw [← hf] at h1
  exact ⟨hn, (program_is_textbook hmc h1 h3 hg.sites_lt (fun _ => hg.l) hc h hcode).2.2.2⟩

/-- the sites of the first sample are a checkerboard -/
theorem sheet1_half {rnd : ℝ → ℝ} (hr : RoundsToNearest rnd) (seed : BitVec 64) :
    HalfFilling (sheet1.params rnd seed) checkerboard := by
  have h0 := rnd_zero hr
  have hz : ∀ k, rnd (hopOf 1 [] k : ℚ) = 0 := fun k => by simp [hopOf, h0]
  refine ⟨checkerboard_fits (show 2 ∣ 6 by decide) (show 2 ∣ 6 by decide) (show (2 : ℤ) ∣ 0 by decide) hz hz hz, fun o ho => ?_, rfl⟩
  obtain rfl : o = 0 := by
    have : o < 1 := ho
    omega
  show rnd (orbOf [0] 0 : ℚ) = rnd (0 : ℚ)
  rfl

/-- the two orbitals of the third sample are the sublattices of the hexagonal lattice -/
theorem sheetHex_half {rnd : ℝ → ℝ} (hr : RoundsToNearest rnd) (seed : BitVec 64) :
    HalfFilling (sheetHex.params rnd seed) (orbitals fun o => o) := by
  have h0 := rnd_zero hr
  refine ⟨orbitals_fits fun k o q ho hq h => ?_, fun o ho => ?_, rfl⟩
  · have hz : ∀ k, rnd (hopOf 2 [] k : ℚ) = 0 := fun k => by simp [hopOf, h0]
    have ht : ∀ k, rnd (hopOf 2 [(1, 0, 1)] k : ℚ) ≠ 0 → k = 1 := by
      intro k hk
      by_contra hne
      exact hk (by simp [hopOf, hne, h0])
    have key : (o : ℤ) + q * 2 = 1 := by
      cases k
      · exact ht _ h
      · exact ht _ h
      · exact ht _ h
      · exact absurd (hz _) h
      · exact absurd (hz _) h
    omega
  · show rnd (orbOf [] o : ℚ) = rnd (0 : ℚ)
    simp [orbOf]

/-- C103 and C96: the results which the program writes for the first and the third sample satisfy the relations of a half
filled system: the sign is one in every sample, the densities add up to one, and the correlations and Green's functions
of the two spins are related -/
theorem samples_half_filled (hmc : mc.Rounds) (hcv : Std mc.rnd mc.conv) {file : List UInt8} {s : Sheet} {col : Coloring}
    (hx : (file, s, col) ∈ [(band1, sheet1, checkerboard), (hexagonal, sheetHex, orbitals fun o => o)])
    {inp : Input} (hf : inp.file = some file) (ht : inp.ticks ≠ 0) (hc : inp.run.Clean) (h4 : inp.logFails = false)
    (h5 : inp.uneqFails = false) {fs fs1 : FS} {code : ℤ} :
    let p := s.params mc.rnd inp.ticks
    let base := baseName mc p inp.dir
    base.utf8ByteSize ≤ 996 → searchCheckpoint fs base ≠ 0 → program mc inp fs = some (fs1, code) →
    ∃ (w : ℝ) (n : ℕ) (a : EqF → ℤ → ℝ), fs1 (base ++ "_eqlt_sign.dat") = some (encDouble w) ∧
      fs1 (base ++ "_eqlt_nsampl.dat") = some (encInt n) ∧
      (∀ f ∈ eqSaveFiles, fs1 (base ++ f.2) = some (encArray encDouble
        (EqF.size s.Norb.toNat (s.Nx.toNat * s.Ny.toNat) f.1).toNat fun i => a f.1 i)) ∧
      HalfFilled s.Nx.toNat s.Ny.toNat s.Norb.toNat s.shift (sublattice p col) w a ∧ (w = n ∨ w = n / n) := by
  intro p base hb hfs h
  have hx' : (file, s) ∈ sampleFiles ∧ HalfFilling p col := by
    simp only [List.mem_cons, Prod.mk.injEq, List.not_mem_nil, or_false] at hx
    rcases hx with ⟨rfl, rfl, rfl⟩ | ⟨rfl, rfl, rfl⟩
    · exact ⟨by simp [sampleFiles], sheet1_half hmc _⟩
    · exact ⟨by simp [sampleFiles], sheetHex_half hmc _⟩
  obtain ⟨h1, h2, h3, -⟩ := samples_accepted hmc hcv hx'.1 ht
  have hg := samples_good _ hx'.1
  have hn : NeZero (sites p) := ⟨sites_pos h2⟩
  rw [← hf] at h1
  rw [program_runs h1 le_rfl h2 h3 hb h4 h5 fs] at h
  exact files_half_filling hmc h2 h3 hg.sites_lt hx'.2 base inp.run hc fs fs1 code hfs h

/-- non-vacuity: there is a machine which rounds to nearest and reads numbers as in the C standard -/
example : ∃ mc : Machine, mc.Rounds ∧ Std mc.rnd mc.conv := by
  obtain ⟨mc, h⟩ := machine_exists
  obtain ⟨cv, hcv⟩ := std_exists mc.rnd
  exact ⟨{ mc with conv := cv }, h, hcv⟩

end Verif.Main
