import Verif.Lemmas.MeasureFull
import Verif.Props.MeasurementUneq
import Verif.Props.MeasurementPh
import Verif.Props.Files

/-! # Properties C84-C87: `measurement_full.c`, the measurements without translational averages -/

set_option autoImplicit false

namespace Verif.Measurement.Full

open Matrix Verif.Lapack Verif.TimeFlow Verif.Greens Verif.Mem Verif.Lattice Verif.Files

variable {N : ℕ}

/-! ## Specification -/

/-- The equal time estimates of one sample for every site or pair of sites.  The specifications
`densSpec`, `corrSpec` and `pairSpec` are those of `measurement.c` (C41). -/
structure Estimates [NeZero N] (Nx Ny Norb : ℕ) (U D : Mat N) (e : EqF → ℤ → ℝ) : Prop where
  /-- densities and double occupancy of every site -/
  dens : ∀ f ∈ [EqF.densityU, .densityD, .doubleocc], ∀ a : Fin N,
    e f a.val = densSpec (equalTime U D) a f
  /-- correlations of every pair of sites -/
  corr : ∀ f ∈ [EqF.uu, .dd, .ff, .zz, .xx, .ud], ∀ a b : Fin N,
    e f (a.val + N * b.val) = corrSpec (equalTime U D) a b f
  /-- pairing correlations of every orbital and pair of cells -/
  pair : ∀ f ∈ [EqF.scSw, .scDw, .scSx], ∀ o c c' : ℕ, o < Norb → c < Nx * Ny → c' < Nx * Ny →
    e f (c + (Nx * Ny : ℕ) * c' + (Nx * Ny : ℕ) * (Nx * Ny : ℕ) * o)
      = pairSpec (equalTime U D) Nx Ny 0 o c c' f
  /-- the Green's functions themselves -/
  grfunU : ∀ a b : Fin N, e .grfunU (a.val + N * b.val) = U a b
  grfunD : ∀ a b : Fin N, e .grfunD (a.val + N * b.val) = D a b

/-- The unequal time estimates of one sample.  `b1` says whether the B1g Raman correlations are
included. -/
structure UneqEstimates [NeZero N] (Nx Ny Norb L : ℕ) (b1 : Prop) (u d : TimeG N)
    (e : UneqF → ℤ → ℝ) : Prop where
  /-- density and spin correlations of every pair of sites and time difference -/
  corr : ∀ f ∈ [UneqF.nn, .zz, .xx], ∀ l : ℕ, l < L → ∀ a b : Fin N,
    e f (a.val + N * b.val + N * N * l) = ucorrSpec u d l a b f
  /-- pairing and Raman correlations of every orbital, pair of cells and time difference -/
  pair : ∀ f ∈ [UneqF.scSw, .scDw, .scSx, .b1g, .b2g], (f = .b1g → b1) →
    ∀ l o c c' : ℕ, l < L → o < Norb → c < Nx * Ny → c' < Nx * Ny →
    e f (c + (Nx * Ny : ℕ) * c' + (Nx * Ny : ℕ) * (Nx * Ny : ℕ) * (o + Norb * l))
      = upairSpec Nx Ny 0 (unequalTime u d l) o c c' f
  /-- `G(τ,0)` -/
  tau0 : ∀ l : ℕ, l < L → ∀ a b : Fin N, e .gtau0U (a.val + N * (l + L * b.val)) = u.t0 l a b ∧
    e .gtau0D (a.val + N * (l + L * b.val)) = d.t0 l a b
  /-- `G(0,τ)` -/
  zerotau : ∀ l : ℕ, l < L → ∀ a b : Fin N, e .g0tauU (a.val + N * (b.val + N * l)) = u.zt l a b ∧
    e .g0tauD (a.val + N * (b.val + N * l)) = d.zt l a b
  /-- `G(τ,τ)` -/
  eqlt : ∀ l : ℕ, l < L → ∀ a b : Fin N, e .geqltU (a.val + N * (b.val + N * l)) = u.eq l a b ∧
    e .geqltD (a.val + N * (b.val + N * l)) = d.eq l a b

/-! ## The lattice maps -/

theorem maps_nbrs (Nx Ny : ℕ) (junk : ℤ → ℤ) (c : ℤ) :
    (maps Nx Ny junk).nbrs (Nx * Ny) c = (Maps.construct Nx Ny 0 junk).nbrs (Nx * Ny) c := rfl

theorem maps_diag (Nx Ny : ℕ) (junk : ℤ → ℤ) (n : Nbrs) :
    (maps Nx Ny junk).diag (Nx * Ny) n = (Maps.construct Nx Ny 0 junk).diag (Nx * Ny) n := rfl

/-! ## C84 -/

section
variable [NeZero N] {Nx Ny Norb : ℕ} (hx : 0 < Nx) (hy : 0 < Ny) (hN : N = Nx * Ny * Norb)
include hx hy hN

/-- **C84.** One call of `AccumulateMeasurement` of `measurement_full.c` never leaves its arrays and
adds to the entry of every site or pair of sites the sign times the Wick contraction of the
corresponding operators. -/
theorem accumulateEq_estimates (junk : ℤ → ℤ) (Gu Gd : GreensFn N)
    (hu : Gu.sgndet = 1 ∨ Gu.sgndet = -1) (hd : Gd.sgndet = 1 ∨ Gd.sgndet = -1) :
    ∃ e, Estimates Nx Ny Norb Gu.mat Gd.mat e ∧
      ∀ m : EqData, accumulateEq Norb (Nx * Ny) (maps Nx Ny junk) Gu Gd m = some
        { arr := fun f z => m.arr f z + ((Gu.sgndet * Gd.sgndet : ℤ) : ℝ) * e f z
          sign := m.sign + ((Gu.sgndet * Gd.sgndet : ℤ) : ℝ)
          nsampl := m.nsampl + 1 } := by
  obtain ⟨c, hc, hm⟩ := accumulateEq_contrib hN (construct_good hx hy 0 le_rfl junk)
    (maps_nbrs Nx Ny junk) Gu Gd
  set g : ℝ := ((Gu.sgndet * Gd.sgndet : ℤ) : ℝ) with hg
  have hg2 : g * g = 1 := by
    rcases hu with h | h <;> rcases hd with h' | h' <;> simp [hg, h, h']
  have hgm : ∀ r : ℝ, g * (g * r) = r := fun r => by rw [← mul_assoc, hg2, one_mul]
  refine ⟨fun f z => g * c f z, ⟨?_, ?_, ?_, ?_, ?_⟩, fun m => ?_⟩
  · intro f hf a
    rw [hc.dens f hf a, hgm]
    exact densVal_eq _ _ _ f hf
  · intro f hf a b
    rw [hc.corr f hf a b, hgm]
    exact corrVal_eq _ _ _ _ _ Fin.ext_iff.symm f hf
  · intro f hf o i j ho hi hj
    rw [hc.pair f hf o i j ho hi hj, hgm]
    exact pairVal_eq Nx Ny Gu.mat Gd.mat o i j f hf _ (construct_nbrs hx hy 0 junk hi)
      (construct_nbrs hx hy 0 junk hj)
  · intro a b
    rw [hc.grfunU, hgm]
  · intro a b
    rw [hc.grfunD, hgm]
  · rw [hm m]
    simp only [hgm]

/-! ## C85 -/

/-- **C85.** One call of `AccumulateUnequalTimeMeasurement` of `measurement_full.c` adds to every entry
the sign times the Wick contraction of the corresponding operators. The B1g Raman correlations are
included if the lattice is not a chain, as in C65. -/
theorem accumulateUneq_estimates (junk : ℤ → ℤ) (L : ℕ) (u d : TimeG N) (hu : u.Start)
    (hd : d.Start) (sign : ℝ) (hsign : sign = 1 ∨ sign = -1) :
    ∃ e, UneqEstimates Nx Ny Norb L (Nx = 1 ↔ Ny = 1) u d e ∧
      ∀ m : UneqData, accumulateUneq Norb (Nx * Ny) L (maps Nx Ny junk) sign (u.cur L) (d.cur L) m
        = some
        { arr := fun f z => m.arr f z + sign * e f z
          sign := m.sign + sign
          nsampl := m.nsampl + 1 } := by
  obtain ⟨c, hc, hm⟩ := accumulateUneq_contrib (L := L) hN (construct_good hx hy 0 le_rfl junk)
    (maps_nbrs Nx Ny junk) (maps_diag Nx Ny junk) u d sign
  have hg2 : sign * sign = 1 := by rcases hsign with h | h <;> simp [h]
  have hgm : ∀ r : ℝ, sign * (sign * r) = r := fun r => by rw [← mul_assoc, hg2, one_mul]
  refine ⟨fun f z => sign * c f z, ⟨?_, ?_, ?_, ?_, ?_⟩, fun m => ?_⟩
  · intro f hf l hl a b
    rw [hc.corr f hf l hl a b, hgm]
    exact ucorrVal_eq u d hu hd l _ _ _ (by rw [Fin.ext_iff]) f
      ((by decide : [UneqF.nn, .zz, .xx] ⊆ ucorrFields) hf)
  · intro f hf hb l o i j hl ho hi hj
    rw [hc.pair f hf l o i j hl ho hi hj, hgm]
    exact upairVal_eq hx hy hN u d l ho hi hj f
      ((by decide : [UneqF.scSw, .scDw, .scSx, .b1g, .b2g] ⊆ upairFields) hf) hb
      (Maps.construct Nx Ny 0 junk).nbrsN fun c hc => construct_nbrs hx hy 0 junk hc
  · intro l hl a b
    rw [(hc.green l hl a b).1, (hc.green l hl a b).2.2.2.1, hgm, hgm]
    exact ⟨rfl, rfl⟩
  · intro l hl a b
    rw [(hc.green l hl a b).2.1, (hc.green l hl a b).2.2.2.2.1, hgm, hgm]
    exact ⟨rfl, rfl⟩
  · intro l hl a b
    rw [(hc.green l hl a b).2.2.1, (hc.green l hl a b).2.2.2.2.2, hgm, hgm]
    exact ⟨rfl, rfl⟩
  · rw [hm m]
    simp only [hgm]

end

/-! ## C86: the averaged measurements are averages of these -/

/-- `avg` contains the averages over translations of the entries of `full`; offsets are taken on the
lattice with shift `s` -/
structure AvgOf (Nx Ny Norb : ℕ) (s : ℤ) (full avg : EqF → ℤ → ℝ) : Prop where
  dens : ∀ f ∈ [EqF.densityU, .densityD, .doubleocc], ∀ o : ℕ, o < Norb →
    avg f o = cellAvg (Nx * Ny) fun c => full f (c + Nx * Ny * o : ℕ)
  corr : ∀ f ∈ [EqF.uu, .dd, .ff, .zz, .xx, .ud], ∀ o p : ℕ, o < Norb → p < Norb → ∀ dx dy : ℤ,
    avg f (cellOf Nx Ny s dx dy + (Nx * Ny : ℕ) * (o + Norb * p)) = cellAvg (Nx * Ny) fun c =>
      full f ((c + Nx * Ny * o)
        + (Nx * Ny * Norb) * (moveCell Nx Ny s c dx dy + Nx * Ny * p) : ℕ)
  pair : ∀ f ∈ [EqF.scSw, .scDw, .scSx], ∀ o : ℕ, o < Norb → ∀ dx dy : ℤ,
    avg f (cellOf Nx Ny s dx dy + (Nx * Ny : ℕ) * o) = cellAvg (Nx * Ny) fun c =>
      full f (c + Nx * Ny * moveCell Nx Ny s c dx dy + Nx * Ny * (Nx * Ny) * o : ℕ)
  grfun : ∀ z : ℕ, z < (Nx * Ny * Norb) * (Nx * Ny * Norb) →
    avg .grfunU z = full .grfunU z ∧ avg .grfunD z = full .grfunD z

/-- the same for unequal time data -/
structure UneqAvgOf (Nx Ny Norb L : ℕ) (s : ℤ) (b1 : Prop) (full avg : UneqF → ℤ → ℝ) : Prop where
  corr : ∀ f ∈ [UneqF.nn, .zz, .xx], ∀ l o p : ℕ, l < L → o < Norb → p < Norb → ∀ dx dy : ℤ,
    avg f (cellOf Nx Ny s dx dy + (Nx * Ny : ℕ) * (o + Norb * p + Norb * Norb * l))
      = cellAvg (Nx * Ny) fun c => full f ((c + Nx * Ny * o)
        + (Nx * Ny * Norb) * (moveCell Nx Ny s c dx dy + Nx * Ny * p)
        + (Nx * Ny * Norb) * (Nx * Ny * Norb) * l : ℕ)
  pair : ∀ f ∈ [UneqF.scSw, .scDw, .scSx, .b1g, .b2g], (f = .b1g → b1) →
    ∀ l o : ℕ, l < L → o < Norb → ∀ dx dy : ℤ,
    avg f (cellOf Nx Ny s dx dy + (Nx * Ny : ℕ) * (o + Norb * l)) = cellAvg (Nx * Ny) fun c =>
      full f (c + Nx * Ny * moveCell Nx Ny s c dx dy + Nx * Ny * (Nx * Ny) * (o + Norb * l) : ℕ)
  tau0 : ∀ f ∈ [UneqF.gtau0U, .gtau0D], ∀ l o p : ℕ, l < L → o < Norb → p < Norb → ∀ dx dy : ℤ,
    avg f (cellOf Nx Ny s dx dy + (Nx * Ny : ℕ) * (o + Norb * p + Norb * Norb * l))
      = cellAvg (Nx * Ny) fun c => full f ((c + Nx * Ny * o)
        + (Nx * Ny * Norb) * (l + L * (moveCell Nx Ny s c dx dy + Nx * Ny * p)) : ℕ)
  others : ∀ f ∈ [UneqF.g0tauU, .g0tauD, .geqltU, .geqltD], ∀ l o p : ℕ, l < L → o < Norb → p < Norb →
    ∀ dx dy : ℤ,
    avg f (cellOf Nx Ny s dx dy + (Nx * Ny : ℕ) * (o + Norb * p + Norb * Norb * l))
      = cellAvg (Nx * Ny) fun c => full f ((c + Nx * Ny * o)
        + (Nx * Ny * Norb) * ((moveCell Nx Ny s c dx dy + Nx * Ny * p) + (Nx * Ny * Norb) * l) : ℕ)

section
variable [NeZero N] {Nx Ny Norb : ℕ} (hx : 0 < Nx) (hy : 0 < Ny) (hN : N = Nx * Ny * Norb)
include hx hy hN

theorem estimates_avgOf {s : ℤ} {U D : Mat N} {e e' : EqF → ℤ → ℝ}
    (h : Estimates Nx Ny Norb U D e) (h' : Measurement.Estimates Nx Ny Norb s 0 U D e') :
    AvgOf Nx Ny Norb s e e' := by
  have sv : ∀ {o c : ℕ}, o < Norb → c < Nx * Ny →
      (siteN N (Nx * Ny) o c).val = c + Nx * Ny * o := fun ho hc => siteN_val hN ho hc
  refine ⟨?_, ?_, ?_, ?_⟩
  · intro f hf o ho
    rw [h'.dens f hf o ho]
    refine cellAvg_congr fun c hc => ?_
    rw [← h.dens f hf, sv ho hc]
  · intro f hf o p ho hp dx dy
    rw [h'.corr f hf o p ho hp]
    refine cellAvg_congr fun c hc => ?_
    rw [← h.corr f hf, sv ho hc, sv hp (moveCell_lt hx hy s c dx dy)]
    congr 1
    rw [show (N : ℤ) = ((Nx * Ny * Norb : ℕ) : ℤ) from by rw [hN]]
    push_cast
    ring
  · intro f hf o ho dx dy
    rw [h'.pair f hf o ho]
    refine cellAvg_congr fun c hc => ?_
    rw [← h.pair f hf o c _ ho hc (moveCell_lt hx hy s c dx dy)]
    push_cast
    rfl
  · intro z hz
    rw [← hN] at hz
    have e2 : (z : ℤ) = ((z % N : ℕ) : ℤ) + N * ((z / N : ℕ) : ℤ) := by
      exact_mod_cast (Nat.mod_add_div z N).symm
    have q1 := h.grfunU ⟨z % N, Nat.mod_lt _ (NeZero.pos N)⟩ ⟨z / N, Nat.div_lt_of_lt_mul hz⟩
    have q2 := h.grfunD ⟨z % N, Nat.mod_lt _ (NeZero.pos N)⟩ ⟨z / N, Nat.div_lt_of_lt_mul hz⟩
    have q1' := h'.grfunU ⟨z % N, Nat.mod_lt _ (NeZero.pos N)⟩ ⟨z / N, Nat.div_lt_of_lt_mul hz⟩
    have q2' := h'.grfunD ⟨z % N, Nat.mod_lt _ (NeZero.pos N)⟩ ⟨z / N, Nat.div_lt_of_lt_mul hz⟩
    simp only at q1 q2 q1' q2'
    rw [← e2] at q1 q2 q1' q2'
    exact ⟨q1'.trans q1.symm, q2'.trans q2.symm⟩

theorem uneqEstimates_avgOf {s : ℤ} {L : ℕ} {b1 : Prop} {u d : TimeG N} {e e' : UneqF → ℤ → ℝ}
    (h : UneqEstimates Nx Ny Norb L b1 u d e)
    (h' : Measurement.UneqEstimates Nx Ny Norb L s 0 b1 u d e') :
    UneqAvgOf Nx Ny Norb L s b1 e e' := by
  have sv : ∀ {o c : ℕ}, o < Norb → c < Nx * Ny →
      (siteN N (Nx * Ny) o c).val = c + Nx * Ny * o := fun ho hc => siteN_val hN ho hc
  have hZ : (N : ℤ) = ((Nx * Ny * Norb : ℕ) : ℤ) := by rw [hN]
  refine ⟨?_, ?_, ?_, ?_⟩
  · intro f hf l o p hl ho hp dx dy
    rw [h'.corr f ((by decide : [UneqF.nn, .zz, .xx] ⊆ ucorrFields) hf) l o p hl ho hp]
    refine cellAvg_congr fun c hc => ?_
    rw [← h.corr f hf l hl, sv ho hc, sv hp (moveCell_lt hx hy s c dx dy), hZ]
    push_cast
    rfl
  · intro f hf hb l o hl ho dx dy
    rw [h'.pair f ((by decide : [UneqF.scSw, .scDw, .scSx, .b1g, .b2g] ⊆ upairFields) hf) hb l o hl
      ho]
    refine cellAvg_congr fun c hc => ?_
    rw [← h.pair f hf hb l o c _ hl ho hc (moveCell_lt hx hy s c dx dy)]
    push_cast
    rfl
  · intro f hf l o p hl ho hp dx dy
    rw [h'.corr f ((by decide : [UneqF.gtau0U, .gtau0D] ⊆ ucorrFields) hf) l o p hl ho hp]
    refine cellAvg_congr fun c hc => ?_
    have t := h.tau0 l hl (siteN N (Nx * Ny) o c) (siteN N (Nx * Ny) p (moveCell Nx Ny s c dx dy))
    rw [sv ho hc, sv hp (moveCell_lt hx hy s c dx dy), hZ] at t
    push_cast at t ⊢
    fin_cases hf
    · exact t.1.symm
    · exact t.2.symm
  · intro f hf l o p hl ho hp dx dy
    rw [h'.corr f ((by decide : [UneqF.g0tauU, .g0tauD, .geqltU, .geqltD] ⊆ ucorrFields) hf) l o p
      hl ho hp]
    refine cellAvg_congr fun c hc => ?_
    have t := h.zerotau l hl (siteN N (Nx * Ny) o c)
      (siteN N (Nx * Ny) p (moveCell Nx Ny s c dx dy))
    have t' := h.eqlt l hl (siteN N (Nx * Ny) o c)
      (siteN N (Nx * Ny) p (moveCell Nx Ny s c dx dy))
    rw [sv ho hc, sv hp (moveCell_lt hx hy s c dx dy), hZ] at t t'
    push_cast at t t' ⊢
    fin_cases hf
    · exact t.1.symm
    · exact t.2.symm
    · exact t'.1.symm
    · exact t'.2.symm

end

theorem AvgOf.add {Nx Ny Norb : ℕ} {s : ℤ} {a a' b b' : EqF → ℤ → ℝ} (r : ℝ)
    (h : AvgOf Nx Ny Norb s a a') (h' : AvgOf Nx Ny Norb s b b') :
    AvgOf Nx Ny Norb s (fun f z => a f z + r * b f z) fun f z => a' f z + r * b' f z := by
  refine ⟨?_, ?_, ?_, ?_⟩
  · intro f hf o ho
    rw [h.dens f hf o ho, h'.dens f hf o ho, ← cellAvg_mul, ← cellAvg_add]
  · intro f hf o p ho hp dx dy
    rw [h.corr f hf o p ho hp, h'.corr f hf o p ho hp, ← cellAvg_mul, ← cellAvg_add]
  · intro f hf o ho dx dy
    rw [h.pair f hf o ho, h'.pair f hf o ho, ← cellAvg_mul, ← cellAvg_add]
  · intro z hz
    rw [(h.grfun z hz).1, (h'.grfun z hz).1, (h.grfun z hz).2, (h'.grfun z hz).2]
    exact ⟨rfl, rfl⟩

theorem UneqAvgOf.add {Nx Ny Norb L : ℕ} {s : ℤ} {b1 : Prop} {a a' b b' : UneqF → ℤ → ℝ} (r : ℝ)
    (h : UneqAvgOf Nx Ny Norb L s b1 a a') (h' : UneqAvgOf Nx Ny Norb L s b1 b b') :
    UneqAvgOf Nx Ny Norb L s b1 (fun f z => a f z + r * b f z) fun f z => a' f z + r * b' f z := by
  refine ⟨?_, ?_, ?_, ?_⟩
  · intro f hf l o p hl ho hp dx dy
    rw [h.corr f hf l o p hl ho hp, h'.corr f hf l o p hl ho hp, ← cellAvg_mul, ← cellAvg_add]
  · intro f hf hb l o hl ho dx dy
    rw [h.pair f hf hb l o hl ho, h'.pair f hf hb l o hl ho, ← cellAvg_mul, ← cellAvg_add]
  · intro f hf l o p hl ho hp dx dy
    rw [h.tau0 f hf l o p hl ho hp, h'.tau0 f hf l o p hl ho hp, ← cellAvg_mul, ← cellAvg_add]
  · intro f hf l o p hl ho hp dx dy
    rw [h.others f hf l o p hl ho hp, h'.others f hf l o p hl ho hp, ← cellAvg_mul, ← cellAvg_add]

theorem AvgOf.zero (Nx Ny Norb : ℕ) (s : ℤ) : AvgOf Nx Ny Norb s (fun _ _ => 0) fun _ _ => 0 := by
  refine ⟨?_, ?_, ?_, ?_⟩ <;> intros <;> simp [cellAvg]

theorem UneqAvgOf.zero (Nx Ny Norb L : ℕ) (s : ℤ) (b1 : Prop) :
    UneqAvgOf Nx Ny Norb L s b1 (fun _ _ => 0) fun _ _ => 0 := by
  refine ⟨?_, ?_, ?_, ?_⟩ <;> intros <;> simp [cellAvg]

/-- accumulating a list of samples with `measurement_full.c` -/
noncomputable def accumulateAll (Norb Ncell : ℕ) (mp : Maps) (m : EqData) (xs : List (Sample N)) :
    Option EqData :=
  xs.foldlM (fun m x => accumulateEq Norb Ncell mp x.up x.dn m) m

/-- an unequal time sample -/
structure USample (N : ℕ) where
  up : TimeG N
  dn : TimeG N
  sign : ℝ
  hu : up.Start
  hd : dn.Start
  hs : sign = 1 ∨ sign = -1

/-- accumulating unequal time samples, with `measurement_full.c` and with `measurement.c` -/
noncomputable def accumulateAllUneq (Norb Ncell L : ℕ) (mp : Maps) (m : UneqData)
    (xs : List (USample N)) : Option UneqData :=
  xs.foldlM (fun m x => accumulateUneq Norb Ncell L mp x.sign (x.up.cur L) (x.dn.cur L) m) m

noncomputable def avgAllUneq (Norb Ncell L : ℕ) (mp : Maps) (m : UneqData)
    (xs : List (USample N)) : Option UneqData :=
  xs.foldlM (fun m x => Measurement.accumulateUneq Norb Ncell L mp x.sign (x.up.cur L)
    (x.dn.cur L) m) m

section Scale

theorem scale_in {A : Type} (size : A → ℤ) (r : ℝ) (a : A → ℤ → ℝ) (f : A) {z : ℕ} {n : ℕ}
    (hs : size f = n) (hz : z < n) : scale size r a f z = r * a f z := by
  unfold scale
  exact if_pos ⟨by positivity, by rw [hs]; exact_mod_cast hz⟩

variable {Nx Ny Norb : ℕ} (hx : 0 < Nx) (hy : 0 < Ny)
include hx hy

/-- normalising both kinds of data keeps the relation -/
theorem AvgOf.scale {s : ℤ} {a a' : EqF → ℤ → ℝ} (h : AvgOf Nx Ny Norb s a a') (r : ℝ) :
    AvgOf Nx Ny Norb s (Measurement.scale (eqSize Norb (Nx * Ny)) r a)
      (Measurement.scale (EqF.size Norb (Nx * Ny)) r a') := by
  have cell : ∀ dx dy : ℤ, ∃ k : ℕ, k < Nx * Ny ∧ cellOf Nx Ny s dx dy = (k : ℤ) := by
    intro dx dy
    have h1 := cellOf_nonneg Nx Ny hx hy s dx dy
    have h2 := cellOf_lt Nx Ny hx hy s dx dy
    exact ⟨(cellOf Nx Ny s dx dy).toNat, by omega, by omega⟩
  refine ⟨?_, ?_, ?_, ?_⟩
  · intro f hf o ho
    rw [scale_in _ r a' f (n := Norb) (by fin_cases hf <;> rfl) ho, h.dens f hf o ho, ← cellAvg_mul]
    refine cellAvg_congr fun c hc => ?_
    rw [scale_in _ r a f (n := Nx * Ny * Norb) (by fin_cases hf <;> simp [eqSize]) (site_lt ho hc)]
  · intro f hf o p ho hp dx dy
    obtain ⟨k, hk, hk'⟩ := cell dx dy
    have e := h.corr f hf o p ho hp dx dy
    have i1 : cellOf Nx Ny s dx dy + (Nx * Ny : ℕ) * (o + Norb * p)
        = ((k + Nx * Ny * (o + Norb * p) : ℕ) : ℤ) := by rw [hk']; push_cast; ring
    rw [i1] at e ⊢
    rw [scale_in _ r a' f (n := Nx * Ny * Norb * Norb) (by fin_cases hf <;> simp [EqF.size])
      (by rw [Nat.mul_assoc (Nx * Ny)]; exact site_lt (site_lt hp ho) hk), e, ← cellAvg_mul]
    refine cellAvg_congr fun c hc => ?_
    rw [scale_in _ r a f (n := (Nx * Ny * Norb) * (Nx * Ny * Norb))
      (by fin_cases hf <;> simp [eqSize])
      (site_lt (site_lt hp (moveCell_lt hx hy s c dx dy)) (site_lt ho hc))]
  · intro f hf o ho dx dy
    obtain ⟨k, hk, hk'⟩ := cell dx dy
    have e := h.pair f hf o ho dx dy
    have i1 : cellOf Nx Ny s dx dy + (Nx * Ny : ℕ) * o = ((k + Nx * Ny * o : ℕ) : ℤ) := by
      rw [hk']; push_cast; ring
    rw [i1] at e ⊢
    rw [scale_in _ r a' f (n := Nx * Ny * Norb) (by fin_cases hf <;> simp [EqF.size])
      (site_lt ho hk), e, ← cellAvg_mul]
    refine cellAvg_congr fun c hc => ?_
    rw [scale_in _ r a f (n := Nx * Ny * (Nx * Ny) * Norb) (by fin_cases hf <;> simp [eqSize])
      (site_lt ho (site_lt (moveCell_lt hx hy s c dx dy) hc))]
  · intro z hz
    rw [scale_in _ r a' .grfunU (n := Nx * Ny * Norb * (Nx * Ny * Norb)) (by simp [EqF.size]) hz,
      scale_in _ r a' .grfunD (n := Nx * Ny * Norb * (Nx * Ny * Norb)) (by simp [EqF.size]) hz,
      scale_in _ r a .grfunU (n := Nx * Ny * Norb * (Nx * Ny * Norb)) (by simp [eqSize]) hz,
      scale_in _ r a .grfunD (n := Nx * Ny * Norb * (Nx * Ny * Norb)) (by simp [eqSize]) hz,
      (h.grfun z hz).1, (h.grfun z hz).2]
    exact ⟨rfl, rfl⟩

theorem UneqAvgOf.scale {L : ℕ} {s : ℤ} {b1 : Prop} {a a' : UneqF → ℤ → ℝ}
    (h : UneqAvgOf Nx Ny Norb L s b1 a a') (r : ℝ) :
    UneqAvgOf Nx Ny Norb L s b1 (Measurement.scale (uneqSize Norb (Nx * Ny) L) r a)
      (Measurement.scale (UneqF.size Norb (Nx * Ny) L) r a') := by
  have cell : ∀ dx dy : ℤ, ∃ k : ℕ, k < Nx * Ny ∧ cellOf Nx Ny s dx dy = (k : ℤ) := by
    intro dx dy
    have h1 := cellOf_nonneg Nx Ny hx hy s dx dy
    have h2 := cellOf_lt Nx Ny hx hy s dx dy
    exact ⟨(cellOf Nx Ny s dx dy).toNat, by omega, by omega⟩
  have av : ∀ f ∈ ucorrFields, ∀ l o p : ℕ, l < L → o < Norb → p < Norb → ∀ dx dy : ℤ,
      Measurement.scale (UneqF.size Norb (Nx * Ny) L) r a' f
        (cellOf Nx Ny s dx dy + (Nx * Ny : ℕ) * (o + Norb * p + Norb * Norb * l))
      = r * a' f (cellOf Nx Ny s dx dy + (Nx * Ny : ℕ) * (o + Norb * p + Norb * Norb * l)) := by
    intro f hf l o p hl ho hp dx dy
    obtain ⟨k, hk, hk'⟩ := cell dx dy
    have i1 : cellOf Nx Ny s dx dy + (Nx * Ny : ℕ) * (o + Norb * p + Norb * Norb * l)
        = ((k + Nx * Ny * ((o + Norb * p) + (Norb * Norb) * l) : ℕ) : ℤ) := by
      rw [hk']; push_cast; ring
    rw [i1, scale_in _ r a' f (n := Nx * Ny * (Norb * Norb * L))
      (by fin_cases hf <;> simp [UneqF.size] <;> ring)
      (site_lt (site_lt hl (site_lt hp ho)) hk)]
  refine ⟨?_, ?_, ?_, ?_⟩
  · intro f hf l o p hl ho hp dx dy
    rw [av f ((by decide : [UneqF.nn, .zz, .xx] ⊆ ucorrFields) hf) l o p hl ho hp,
      h.corr f hf l o p hl ho hp, ← cellAvg_mul]
    refine cellAvg_congr fun c hc => ?_
    rw [scale_in _ r a f (n := (Nx * Ny * Norb) * (Nx * Ny * Norb) * L)
      (by fin_cases hf <;> simp [uneqSize])
      (site_lt hl (site_lt (site_lt hp (moveCell_lt hx hy s c dx dy)) (site_lt ho hc)))]
  · intro f hf hb l o hl ho dx dy
    obtain ⟨k, hk, hk'⟩ := cell dx dy
    have e := h.pair f hf hb l o hl ho dx dy
    have i1 : cellOf Nx Ny s dx dy + (Nx * Ny : ℕ) * (o + Norb * l)
        = ((k + Nx * Ny * (o + Norb * l) : ℕ) : ℤ) := by rw [hk']; push_cast; ring
    rw [i1] at e ⊢
    rw [scale_in _ r a' f (n := Nx * Ny * (Norb * L))
      (by fin_cases hf <;> simp [UneqF.size] <;> ring) (site_lt (site_lt hl ho) hk), e, ← cellAvg_mul]
    refine cellAvg_congr fun c hc => ?_
    rw [scale_in _ r a f (n := Nx * Ny * (Nx * Ny) * (Norb * L))
      (by fin_cases hf <;> simp [uneqSize] <;> ring)
      (site_lt (site_lt hl ho) (site_lt (moveCell_lt hx hy s c dx dy) hc))]
  · intro f hf l o p hl ho hp dx dy
    rw [av f ((by decide : [UneqF.gtau0U, .gtau0D] ⊆ ucorrFields) hf) l o p hl ho hp,
      h.tau0 f hf l o p hl ho hp, ← cellAvg_mul]
    refine cellAvg_congr fun c hc => ?_
    rw [scale_in _ r a f (n := (Nx * Ny * Norb) * (L * (Nx * Ny * Norb)))
      (by fin_cases hf <;> simp [uneqSize] <;> ring)
      (site_lt (site_lt (site_lt hp (moveCell_lt hx hy s c dx dy)) hl) (site_lt ho hc))]
  · intro f hf l o p hl ho hp dx dy
    rw [av f ((by decide : [UneqF.g0tauU, .g0tauD, .geqltU, .geqltD] ⊆ ucorrFields) hf) l o p hl ho
      hp, h.others f hf l o p hl ho hp, ← cellAvg_mul]
    refine cellAvg_congr fun c hc => ?_
    rw [scale_in _ r a f (n := (Nx * Ny * Norb) * (Nx * Ny * Norb * L))
      (by fin_cases hf <;> simp [uneqSize] <;> ring)
      (site_lt (site_lt hl (site_lt hp (moveCell_lt hx hy s c dx dy))) (site_lt ho hc))]

end Scale

section
variable [NeZero N] {Nx Ny Norb : ℕ} (hx : 0 < Nx) (hy : 0 < Ny) (hN : N = Nx * Ny * Norb)
include hx hy hN

/-- **C86**, equal times. For every list of samples both files are defined, count the same samples and
the same signs, and the data of `measurement.c` are the averages over all translations of the data of
`measurement_full.c`, before and after the normalisation. -/
theorem average_of_full (s : ℤ) (hs : 0 ≤ s) (junk junk' : ℤ → ℤ) (xs : List (Sample N)) :
    ∃ mf m, accumulateAll Norb (Nx * Ny) (maps Nx Ny junk) EqData.allocate xs = some mf ∧
      Measurement.accumulateAll Norb (Nx * Ny) (Maps.construct Nx Ny s junk') EqData.allocate xs
        = some m ∧
      mf.nsampl = m.nsampl ∧ mf.sign = m.sign ∧ AvgOf Nx Ny Norb s mf.arr m.arr ∧
      (normalizeEq Norb (Nx * Ny) mf).sign = (Measurement.normalizeEq Norb (Nx * Ny) m).sign ∧
      AvgOf Nx Ny Norb s (normalizeEq Norb (Nx * Ny) mf).arr
        (Measurement.normalizeEq Norb (Nx * Ny) m).arr := by
  have gen : ∀ (xs : List (Sample N)) (mf m : EqData), mf.nsampl = m.nsampl → mf.sign = m.sign →
      AvgOf Nx Ny Norb s mf.arr m.arr →
      ∃ mf' m', accumulateAll Norb (Nx * Ny) (maps Nx Ny junk) mf xs = some mf' ∧
        Measurement.accumulateAll Norb (Nx * Ny) (Maps.construct Nx Ny s junk') m xs = some m' ∧
        mf'.nsampl = m'.nsampl ∧ mf'.sign = m'.sign ∧ AvgOf Nx Ny Norb s mf'.arr m'.arr := by
    intro xs
    induction xs with
    | nil => exact fun mf m h1 h2 h3 => ⟨mf, m, rfl, rfl, h1, h2, h3⟩
    | cons x xs ih =>
      intro mf m h1 h2 h3
      obtain ⟨e, he, hm⟩ := accumulateEq_estimates hx hy hN junk x.up x.dn x.hu x.hd
      obtain ⟨e', he', hm'⟩ := Measurement.accumulateEq_estimates hx hy hN s hs junk' x.up x.dn x.hu
        x.hd
      have ha := estimates_avgOf hx hy hN he he'
      unfold accumulateAll Measurement.accumulateAll
      rw [List.foldlM_cons, List.foldlM_cons, hm mf, hm' m]
      exact ih _ _ (by simp [h1]) (by simp [h2]) (h3.add _ ha)
  obtain ⟨mf, m, a1, a2, a3, a4, a5⟩ := gen xs EqData.allocate EqData.allocate rfl rfl
    (AvgOf.zero Nx Ny Norb s)
  refine ⟨mf, m, a1, a2, a3, a4, a5, ?_, ?_⟩
  · simp only [normalizeEq, Measurement.normalizeEq, a3, a4]
  · have := a5.scale hx hy (1.0 / m.nsampl)
    simpa only [normalizeEq, Measurement.normalizeEq, a3] using this

/-- **C86**, unequal times. -/
theorem average_of_full_uneq (s : ℤ) (hs : 0 ≤ s) (junk junk' : ℤ → ℤ) (L : ℕ)
    (xs : List (USample N)) :
    ∃ mf m, accumulateAllUneq Norb (Nx * Ny) L (maps Nx Ny junk) UneqData.allocate xs = some mf ∧
      avgAllUneq Norb (Nx * Ny) L (Maps.construct Nx Ny s junk') UneqData.allocate xs = some m ∧
      mf.nsampl = m.nsampl ∧ mf.sign = m.sign ∧
      UneqAvgOf Nx Ny Norb L s (Nx = 1 ↔ Ny = 1) mf.arr m.arr ∧
      (normalizeUneq Norb (Nx * Ny) L mf).sign
        = (Measurement.normalizeUneq Norb (Nx * Ny) L m).sign ∧
      UneqAvgOf Nx Ny Norb L s (Nx = 1 ↔ Ny = 1) (normalizeUneq Norb (Nx * Ny) L mf).arr
        (Measurement.normalizeUneq Norb (Nx * Ny) L m).arr := by
  have gen : ∀ (xs : List (USample N)) (mf m : UneqData), mf.nsampl = m.nsampl → mf.sign = m.sign →
      UneqAvgOf Nx Ny Norb L s (Nx = 1 ↔ Ny = 1) mf.arr m.arr →
      ∃ mf' m', accumulateAllUneq Norb (Nx * Ny) L (maps Nx Ny junk) mf xs = some mf' ∧
        avgAllUneq Norb (Nx * Ny) L (Maps.construct Nx Ny s junk') m xs = some m' ∧
        mf'.nsampl = m'.nsampl ∧ mf'.sign = m'.sign ∧
        UneqAvgOf Nx Ny Norb L s (Nx = 1 ↔ Ny = 1) mf'.arr m'.arr := by
    intro xs
    induction xs with
    | nil => exact fun mf m h1 h2 h3 => ⟨mf, m, rfl, rfl, h1, h2, h3⟩
    | cons x xs ih =>
      intro mf m h1 h2 h3
      obtain ⟨e, he, hm⟩ := accumulateUneq_estimates hx hy hN junk L x.up x.dn x.hu x.hd x.sign x.hs
      obtain ⟨e', he', hm'⟩ := Measurement.accumulateUneq_estimates hx hy hN s hs junk' L x.up x.dn
        x.hu x.hd x.sign x.hs
      have ha := uneqEstimates_avgOf hx hy hN he he'
      unfold accumulateAllUneq avgAllUneq
      rw [List.foldlM_cons, List.foldlM_cons, hm mf, hm' m]
      exact ih _ _ (by simp [h1]) (by simp [h2]) (h3.add _ ha)
  obtain ⟨mf, m, a1, a2, a3, a4, a5⟩ := gen xs UneqData.allocate UneqData.allocate rfl rfl
    (UneqAvgOf.zero Nx Ny Norb L s _)
  refine ⟨mf, m, a1, a2, a3, a4, a5, ?_, ?_⟩
  · simp only [normalizeUneq, Measurement.normalizeUneq, a3, a4]
  · have := a5.scale hx hy (1.0 / m.nsampl)
    simpa only [normalizeUneq, Measurement.normalizeUneq, a3] using this

end


/-! ## Phonon data -/

/-- the data kept by `measurement_full.c` agree with those of `measurement.c` -/
structure PhAgree (Norb : ℕ) (mf m : PhData) : Prop where
  nsampl : mf.nsampl = m.nsampl
  maxNsampl : mf.maxNsampl = m.maxNsampl
  sign : mf.sign = m.sign
  avg : ∀ f ∈ [PhF.xAvg, .xSqAvg], ∀ o : ℕ, o < Norb → mf.arr f o = m.arr f o
  iter : ∀ f ∈ [PhF.iterXAvg, .iterX0], ∀ z, mf.arr f z = m.arr f z

/-- the values added for a site -/
noncomputable def phVal (sf x : ℝ) : PhF → ℝ
  | .xAvg => sf * x
  | .xSqAvg => sf * x ^ 2
  | .iterXAvg => sf * x
  | _ => 0

section
variable [NeZero N] {Norb Ncell L : ℕ} (hN : N = Ncell * Norb)
include hN

theorem phAdds_eq (X : ℕ → Fin N → ℝ) (sign : ℝ) (n : ℕ) {l o : ℕ} (hl : l < L) (ho : o < Norb) :
    phAdds Norb Ncell L (flatX L X) sign n l o = some
      ((forLoop Ncell fun i => [PhF.xAvg, .xSqAvg, .iterXAvg].map fun f => (f, phIdx Norb n o f,
        phVal (sign / Ncell / L) (X l (siteN N Ncell o i)) f)) ++
      [(PhF.iterX0, phIdx Norb n o .iterX0, sign / L * X l (siteN N Ncell o 0))]) := by
  have hc : 0 < Ncell := by
    rcases Nat.eq_zero_or_pos Ncell with h | h
    · exact absurd hN (by rw [h, zero_mul]; exact NeZero.ne N)
    · exact h
  unfold phAdds
  simp only [Option.bind_eq_bind]
  have h1 : (loopM Ncell fun i => (flatX L X ((i : ℤ) + o * Ncell + l * (Ncell * Norb : ℤ))).bind
      fun x => (pure [(PhF.xAvg, (o : ℤ), sign / Ncell / L * x),
          (.xSqAvg, (o : ℤ), sign / Ncell / L * x ^ 2),
          (.iterXAvg, o + n * Norb, sign / Ncell / L * x)] : Option (List (Measurement.Add PhF))))
      = some (forLoop Ncell fun i => [PhF.xAvg, .xSqAvg, .iterXAvg].map fun f =>
        (f, phIdx Norb n o f, phVal (sign / Ncell / L) (X l (siteN N Ncell o i)) f)) := by
    refine loopM_eq _ fun i hi => ?_
    rw [read_X hN X hl ho hi rfl]
    simp [phVal, phIdx]
  rw [h1, read_X hN X hl ho hc (by push_cast; ring)]
  simp [phIdx]

/-- **C86**, phonons. While there is room for another sample, `AccumulatePhononData` of
`measurement_full.c` adds to the arrays which it has the same values as `measurement.c`, for every
sample. -/
theorem accumulatePh_agree (Gu Gd : GreensFn N) (X : ℕ → Fin N → ℝ) (dt : ℝ) (omega : ℕ → ℝ)
    {lG : ℕ} (hl : lG < L) {mf m : PhData} (h : PhAgree Norb mf m) (hm : m.nsampl < m.maxNsampl) :
    ∃ mf' m', accumulatePh Norb Ncell L Gu Gd X mf = some mf' ∧
      Measurement.accumulatePh Norb Ncell L dt omega Gu Gd lG X m = some m' ∧
      PhAgree Norb mf' m' := by
  obtain ⟨c, hc, e⟩ := accumulatePh_contrib hN Gu Gd X dt omega hl m hm
  set ws : List (Measurement.Add PhF) := forLoop L fun l => forLoop Norb fun o =>
    ((forLoop Ncell fun i => [PhF.xAvg, .xSqAvg, .iterXAvg].map fun f => (f, phIdx Norb m.nsampl o f,
        phVal (((Gu.sgndet * Gd.sgndet : ℤ) : ℝ) / Ncell / L) (X l (siteN N Ncell o i)) f)) ++
      [(PhF.iterX0, phIdx Norb m.nsampl o .iterX0,
        ((Gu.sgndet * Gd.sgndet : ℤ) : ℝ) / L * X l (siteN N Ncell o 0))]) with hws
  have h1 : (loopM L fun l => loopM Norb fun o => phAdds Norb Ncell L (flatX L X)
      ((Gu.sgndet * Gd.sgndet : ℤ) : ℝ) mf.nsampl l o) = some ws := by
    rw [h.nsampl]
    exact loopM_eq _ fun l hl => loopM_eq _ fun o ho => phAdds_eq hN X _ _ hl ho
  have ins : ∀ f ∈ [PhF.xAvg, .xSqAvg, .iterXAvg, .iterX0], ∀ o < Norb,
      0 ≤ phIdx Norb m.nsampl o f ∧ phIdx Norb m.nsampl o f < phSize Norb m.maxNsampl f := by
    intro f hf o ho
    have hlt : o + Norb * m.nsampl < Norb * m.maxNsampl := site_lt hm ho
    have h3 : ((o + m.nsampl * Norb : ℕ) : ℤ) < (Norb : ℤ) * m.maxNsampl := by
      rw [Nat.mul_comm m.nsampl]; exact_mod_cast hlt
    fin_cases hf
    · exact ⟨Int.natCast_nonneg _, Int.ofNat_lt.2 ho⟩
    · exact ⟨Int.natCast_nonneg _, Int.ofNat_lt.2 ho⟩
    · exact ⟨Int.natCast_nonneg _, h3⟩
    · exact ⟨Int.natCast_nonneg _, h3⟩
  have h2 : Inside (phSize Norb mf.maxNsampl) ws := by
    rw [h.maxNsampl]
    refine Inside.forLoop fun l _ => Inside.forLoop fun o ho => Inside.append
      (Inside.forLoop fun i _ w hw => ?_) fun w hw => ?_
    · obtain ⟨f, hf, rfl⟩ := List.mem_map.1 hw
      exact ins f ((by decide : [PhF.xAvg, .xSqAvg, .iterXAvg]
        ⊆ [PhF.xAvg, .xSqAvg, .iterXAvg, .iterX0]) hf) o ho
    · rw [List.mem_singleton.1 hw]
      exact ins .iterX0 (by decide) o ho
  have tot : ∀ f ∈ [PhF.xAvg, .xSqAvg, .iterXAvg], ∀ o < Norb, total ws f (phIdx Norb m.nsampl o f)
      = ∑ l ∈ Finset.range L, ∑ i ∈ Finset.range Ncell,
        phVal (((Gu.sgndet * Gd.sgndet : ℤ) : ℝ) / Ncell / L) (X l (siteN N Ncell o i)) f := by
    intro f hf o ho
    have hne : PhF.iterX0 ≠ f := by fin_cases hf <;> decide
    have hnd : [PhF.xAvg, .xSqAvg, .iterXAvg].Nodup := by decide
    rw [hws]
    simp only [total_forLoop, total_append, total_fields' _ hnd, total_cons, total_nil, add_zero, hne,
      false_and, if_false, hf, true_and]
    refine Finset.sum_congr rfl fun l _ => ?_
    rw [← sum_pick m.nsampl f ho fun o' => ∑ i ∈ Finset.range Ncell,
      phVal (((Gu.sgndet * Gd.sgndet : ℤ) : ℝ) / Ncell / L) (X l (siteN N Ncell o' i)) f]
    refine Finset.sum_congr rfl fun o' _ => ?_
    by_cases h : phIdx Norb m.nsampl o' f = phIdx Norb m.nsampl o f <;> simp [h]
  have tot0 : ∀ o < Norb, total ws .iterX0 (phIdx Norb m.nsampl o .iterX0)
      = ∑ l ∈ Finset.range L, ((Gu.sgndet * Gd.sgndet : ℤ) : ℝ) / L * X l (siteN N Ncell o 0) := by
    intro o ho
    have hnd : [PhF.xAvg, .xSqAvg, .iterXAvg].Nodup := by decide
    have hne : PhF.iterX0 ∉ [PhF.xAvg, .xSqAvg, .iterXAvg] := by decide
    rw [hws]
    simp only [total_forLoop, total_append, total_fields' _ hnd, total_cons, total_nil, add_zero, hne,
      false_and, if_false, true_and, Finset.sum_const_zero, zero_add]
    refine Finset.sum_congr rfl fun l _ => ?_
    rw [← sum_pick m.nsampl .iterX0 ho fun o' =>
      ((Gu.sgndet * Gd.sgndet : ℤ) : ℝ) / L * X l (siteN N Ncell o' 0)]
  have rest : ∀ f ∈ [PhF.iterXAvg, .iterX0], ∀ z : ℤ, (∀ o < Norb, z ≠ phIdx Norb m.nsampl o f) →
      total ws f z = 0 := by
    intro f hf z hz
    have hnd : [PhF.xAvg, .xSqAvg, .iterXAvg].Nodup := by decide
    rw [hws]
    simp only [total_forLoop, total_append, total_fields' _ hnd, total_cons, total_nil, add_zero]
    refine Finset.sum_eq_zero fun l _ => Finset.sum_eq_zero fun o ho => ?_
    have hne := hz o (Finset.mem_range.1 ho)
    rw [Finset.sum_eq_zero fun i _ => if_neg fun h => hne h.2.symm, zero_add]
    exact if_neg fun h => hne (by rw [← h.2, ← h.1])
  refine ⟨{ mf with arr := fun f z => mf.arr f z + total ws f z
                    sign := mf.sign + ((Gu.sgndet * Gd.sgndet : ℤ) : ℝ)
                    nsampl := mf.nsampl + 1 }, _, ?_, e, ?_⟩
  · unfold accumulatePh
    simp only [h1, Option.bind_eq_bind, Option.bind_some, execute_eq _ mf.arr ws h2, Option.pure_def]
  · refine ⟨by simp [h.nsampl], h.maxNsampl, by simp [h.sign], ?_, ?_⟩
    · intro f hf o ho
      have hf' : f ∈ [PhF.xAvg, .xSqAvg, .iterXAvg] := by fin_cases hf <;> decide
      have hi : phIdx Norb m.nsampl o f = (o : ℤ) := by fin_cases hf <;> rfl
      have t := tot f hf' o ho
      rw [hi] at t
      simp only
      rw [h.avg f hf o ho, t]
      congr 1
      fin_cases hf
      · exact (hc.xAvg o ho).symm
      · exact (hc.slice .xSqAvg (by decide) o ho).symm
    · intro f hf z
      simp only
      rw [h.iter f hf z]
      congr 1
      by_cases hz : ∀ o < Norb, z ≠ phIdx Norb m.nsampl o f
      · rw [rest f hf z hz, hc.others f hf z hz]
      · push Not at hz
        obtain ⟨o, ho, rfl⟩ := hz
        fin_cases hf
        · exact (tot .iterXAvg (by decide) o ho).trans (hc.slice .iterXAvg (by decide) o ho).symm
        · exact (tot0 o ho).trans (hc.x0 o ho).symm

end

/-- **C86**, phonons: the agreement holds for freshly allocated data and is kept by the normalisation -/
theorem normalizePh_agree {Norb : ℕ} {mf m : PhData} (h : PhAgree Norb mf m) :
    PhAgree Norb (normalizePh Norb mf) (Measurement.normalizePh Norb m) := by
  refine ⟨h.nsampl, h.maxNsampl, by simp only [normalizePh, Measurement.normalizePh, h.sign, h.nsampl],
    ?_, ?_⟩
  · intro f hf o ho
    have e := h.avg f hf o ho
    fin_cases hf
    · simp only [normalizePh, Measurement.normalizePh]
      rw [scale_in (phSize Norb mf.maxNsampl) _ _ .xAvg (n := Norb) rfl ho,
        scale_in (PhF.size Norb m.maxNsampl) _ _ .xAvg (n := Norb) rfl ho, e, h.nsampl]
    · simp only [normalizePh, Measurement.normalizePh]
      rw [scale_in (phSize Norb mf.maxNsampl) _ _ .xSqAvg (n := Norb) rfl ho,
        scale_in (PhF.size Norb m.maxNsampl) _ _ .xSqAvg (n := Norb) rfl ho, e, h.nsampl]
  · intro f hf z
    have e := h.iter f hf z
    fin_cases hf
    · exact e
    · exact e

theorem allocatePh_agree (Norb maxNsampl : ℕ) :
    PhAgree Norb (PhData.allocate maxNsampl) (PhData.allocate maxNsampl) :=
  ⟨rfl, rfl, rfl, fun _ _ _ _ => rfl, fun _ _ _ => rfl⟩

/-! ## C87 -/

/-- the total density per cell printed at the end, in terms of the averaged data: the sums over sites
and over orbitals agree -/
theorem summary_sum {Nx Ny Norb : ℕ} (hx : 0 < Nx) (hy : 0 < Ny) {s : ℤ} {mf m : EqData}
    (h : AvgOf Nx Ny Norb s mf.arr m.arr) :
    summaryDensity Norb (Nx * Ny) mf = ∑ o ∈ Finset.range Norb, (m.arr .densityU o + m.arr .densityD o) := by
  have hc : ((Nx * Ny : ℕ) : ℝ) ≠ 0 := by exact_mod_cast (Nat.mul_pos hx hy).ne'
  unfold summaryDensity
  have e : ∀ o ∈ Finset.range Norb, m.arr .densityU o + m.arr .densityD o
      = cellAvg (Nx * Ny) fun c => mf.arr .densityU (c + Nx * Ny * o : ℕ)
        + mf.arr .densityD (c + Nx * Ny * o : ℕ) := fun o ho => by
    rw [h.dens .densityU (by decide) o (Finset.mem_range.1 ho),
      h.dens .densityD (by decide) o (Finset.mem_range.1 ho), ← cellAvg_add]
  rw [Finset.sum_congr rfl e]
  unfold cellAvg
  rw [← Finset.sum_div]
  congr 1
  generalize Nx * Ny = C
  clear hc h hx hy e
  induction Norb with
  | zero => simp
  | succ n ih =>
    rw [Finset.sum_range_succ, ← ih, Nat.add_mul, one_mul, Finset.sum_range_add]
    congr 1
    refine Finset.sum_congr rfl fun c _ => ?_
    rw [show n * C + c = c + C * n by ring]

/-- **C87 is false**: both versions of the program print the total density of the normalised data, but
`measurement_full.c` does not divide by the average sign.  The printed numbers differ by the factor
`sign`. -/
theorem summary_factor_partial {Nx Ny Norb : ℕ} (hx : 0 < Nx) (hy : 0 < Ny) {s : ℤ} {mf m : EqData}
    (h : AvgOf Nx Ny Norb s mf.arr m.arr) (h0 : m.sign ≠ 0) :
    summaryDensity Norb (Nx * Ny) mf = m.sign * summaryDensityAvg Norb m := by
  rw [summary_sum hx hy h]
  unfold summaryDensityAvg
  field_simp

/-- one sample on one site with a negative sign: density 1 per spin -/
noncomputable def negativeSample : Sample 1 where
  up := ⟨0, 0, 1⟩
  dn := ⟨0, 0, -1⟩
  hu := Or.inl rfl
  hd := Or.inr rfl

/-- **C87 is false**: for one sample of negative sign on a full site, `measurement.c` reports the
density 2 and `measurement_full.c` the density -2. -/
theorem summary_differs (junk : ℤ → ℤ) : ∃ mf m,
    accumulateAll 1 1 (maps 1 1 junk) EqData.allocate [negativeSample] = some mf ∧
    Measurement.accumulateAll 1 1 (Maps.construct 1 1 0 junk) EqData.allocate [negativeSample] = some m ∧
    summaryDensity 1 1 (normalizeEq 1 1 mf) = -2 ∧
    summaryDensityAvg 1 (Measurement.normalizeEq 1 1 m) = 2 := by
  obtain ⟨e, he, hm⟩ := Measurement.accumulateEq_estimates (N := 1) (Nx := 1) (Ny := 1) (Norb := 1)
    (by norm_num) (by norm_num) (by norm_num) 0 le_rfl junk negativeSample.up negativeSample.dn
    negativeSample.hu negativeSample.hd
  obtain ⟨mf, m, a1, a2, a3, a4, a5, a6, a7⟩ := average_of_full (N := 1) (Nx := 1) (Ny := 1) (Norb := 1)
    (by norm_num) (by norm_num) (by norm_num) 0 le_rfl junk junk [negativeSample]
  have d : ∀ f ∈ [EqF.densityU, .densityD], e f 0 = 1 := by
    intro f hf
    have := he.dens f (by fin_cases hf <;> decide) 0 (by norm_num)
    rw [show ((0 : ℕ) : ℤ) = 0 from rfl] at this
    rw [this]
    fin_cases hf <;>
    simp [cellAvg, densSpec, Pairs.mean, equalTime, spinG, nOp, negativeSample]
  have hmv : m = { arr := fun f z => EqData.allocate.arr f z
        + ((negativeSample.up.sgndet * negativeSample.dn.sgndet : ℤ) : ℝ) * e f z
                   sign := EqData.allocate.sign
        + ((negativeSample.up.sgndet * negativeSample.dn.sgndet : ℤ) : ℝ)
                   nsampl := EqData.allocate.nsampl + 1 } := by
    have h := a2
    unfold Measurement.accumulateAll at h
    rw [List.foldlM_cons, show (1 * 1 : ℕ) = 1 from rfl] at h
    rw [show (1 * 1 : ℕ) = 1 from rfl] at hm
    rw [hm EqData.allocate] at h
    exact (Option.some.inj h).symm
  have hs : (Measurement.normalizeEq 1 1 m).sign = -1 := by
    rw [hmv]
    norm_num [Measurement.normalizeEq, EqData.allocate, negativeSample]
  have dU : (Measurement.normalizeEq 1 1 m).arr .densityU 0 = -1 := by
    rw [hmv]
    norm_num [Measurement.normalizeEq, EqData.allocate, negativeSample, Measurement.scale, EqF.size,
      d .densityU (by decide)]
  have dD : (Measurement.normalizeEq 1 1 m).arr .densityD 0 = -1 := by
    rw [hmv]
    norm_num [Measurement.normalizeEq, EqData.allocate, negativeSample, Measurement.scale, EqF.size,
      d .densityD (by decide)]
  have hd : summaryDensityAvg 1 (Measurement.normalizeEq 1 1 m) = 2 := by
    unfold summaryDensityAvg
    rw [Finset.sum_range_one, hs]
    simp only [Nat.cast_zero, dU, dD]
    norm_num
  refine ⟨mf, m, a1, a2, ?_, hd⟩
  have := summary_factor_partial (Nx := 1) (Ny := 1) (Norb := 1) (by norm_num) (by norm_num) a7
    (by rw [show (1 * 1 : ℕ) = 1 from rfl, hs]; norm_num)
  rw [show (1 * 1 : ℕ) = 1 from rfl] at this
  rw [this, hs, hd]
  norm_num

/-! ## C88: files -/

section Files
variable (F : Float64) (fnbase : String)

theorem eqWrites_nodup (Norb Ncell : ℕ) (m : EqData) :
    ((eqWrites Norb Ncell fnbase m).map Prod.fst).Nodup := by
  have h : (eqWrites Norb Ncell fnbase m).map Prod.fst
      = (["_eqlt_sign.dat", "_eqlt_nsampl.dat"] ++ eqSaveFiles.map Prod.snd).map (fnbase ++ ·) := by
    unfold eqWrites
    rw [List.map_append, arrayWrites_names, List.map_append]
    rfl
  rw [h]
  exact names_nodup fnbase _ (by decide)

theorem uneqWrites_nodup (Norb Ncell L : ℕ) (m : UneqData) :
    ((uneqWrites Norb Ncell L fnbase m).map Prod.fst).Nodup := by
  have h : (uneqWrites Norb Ncell L fnbase m).map Prod.fst
      = (["_uneqlt_sign.dat", "_uneqlt_nsampl.dat"] ++ uneqFiles.map Prod.snd).map
        (fnbase ++ ·) := by
    unfold uneqWrites
    rw [List.map_append, arrayWrites_names, List.map_append]
    rfl
  rw [h]
  exact names_nodup fnbase _ (by decide)

/-- **C88.** Equal time data saved without a fault are loaded again exactly. -/
theorem loadEq_saveEq (Norb Ncell : ℕ) (fs : FS) (m old : EqData) (hn : m.nsampl < 2 ^ 31) :
    loadEq Norb Ncell F (writeAll (fun _ => .none) fs (eqWrites Norb Ncell fnbase m)) fnbase old =
      { sign := m.sign, nsampl := m.nsampl
        arr := fun a z => if 0 ≤ z ∧ z < eqSize Norb Ncell a then m.arr a z else old.arr a z } := by
  unfold loadEq
  rw [writeAll_none]
  have hm := putAll_mem fs _ (eqWrites_nodup fnbase Norb Ncell m)
  have e1 := hm (fnbase ++ "_eqlt_sign.dat", encDouble m.sign) (by simp [eqWrites])
  have e2 := hm (fnbase ++ "_eqlt_nsampl.dat", encInt m.nsampl) (by simp [eqWrites])
  have e3 : ∀ f ∈ eqLoadFiles, putAll fs (eqWrites Norb Ncell fnbase m) (fnbase ++ f.2)
      = some (encArray encDouble (eqSize Norb Ncell f.1).toNat fun i => m.arr f.1 i) := by
    intro f hf
    have hf' : f ∈ eqSaveFiles := (by decide : eqLoadFiles ⊆ eqSaveFiles) hf
    exact hm (fnbase ++ f.2, _) (List.mem_append_right _ (List.mem_map.2 ⟨f, hf', rfl⟩))
  rw [loadDouble_saved F _ _ _ _ e1, loadCount_saved F _ _ _ _ hn e2,
    loadArrays_saved F fnbase _ _ _ _ _ (by decide) eqLoad_all e3]

theorem uneqFiles_all (a : UneqF) (h1 : a ≠ .jx) (h2 : a ≠ .jy) : ∃ n, (a, n) ∈ uneqFiles := by
  have h : a ∈ uneqFiles.map Prod.fst := by
    cases a <;> first | exact absurd rfl h1 | exact absurd rfl h2 | decide
  obtain ⟨⟨b, n⟩, hf, rfl⟩ := List.mem_map.1 h
  exact ⟨n, hf⟩

/-- arrays without a file are not changed -/
theorem loadArrays_not_mem {A : Type} [DecidableEq A] (fs : FS) (files : List (A × String))
    (size : A → ℤ) (old : Arrays A) (a : A) (h : a ∉ files.map Prod.fst) :
    loadArrays F fs fnbase files size old a = old a := by
  unfold loadArrays
  induction files generalizing old with
  | nil => rfl
  | cons f l ih =>
    rw [List.map_cons, List.mem_cons, not_or] at h
    rw [List.foldl_cons, ih _ h.2, Function.update_of_ne h.1]

/-- **C88.** Unequal time data saved without a fault are loaded again exactly (the current correlations
are not allocated). -/
theorem loadUneq_saveUneq (Norb Ncell L : ℕ) (fs : FS) (m old : UneqData)
    (hn : m.nsampl < 2 ^ 31) :
    loadUneq Norb Ncell L F (writeAll (fun _ => .none) fs (uneqWrites Norb Ncell L fnbase m)) fnbase
        old =
      { sign := m.sign, nsampl := m.nsampl
        arr := fun a z =>
          if 0 ≤ z ∧ z < uneqSize Norb Ncell L a then m.arr a z else old.arr a z } := by
  unfold loadUneq
  rw [writeAll_none]
  have hm := putAll_mem fs _ (uneqWrites_nodup fnbase Norb Ncell L m)
  have e1 := hm (fnbase ++ "_uneqlt_sign.dat", encDouble m.sign) (by simp [uneqWrites])
  have e2 := hm (fnbase ++ "_uneqlt_nsampl.dat", encInt m.nsampl) (by simp [uneqWrites])
  have e3 : ∀ f ∈ uneqFiles, putAll fs (uneqWrites Norb Ncell L fnbase m) (fnbase ++ f.2)
      = some (encArray encDouble (uneqSize Norb Ncell L f.1).toNat fun i => m.arr f.1 i) := by
    intro f hf
    exact hm (fnbase ++ f.2, _) (List.mem_append_right _ (List.mem_map.2 ⟨f, hf, rfl⟩))
  rw [loadDouble_saved F _ _ _ _ e1, loadCount_saved F _ _ _ _ hn e2]
  congr 1
  funext a
  by_cases h : a ∈ uneqFiles.map Prod.fst
  · obtain ⟨⟨b, n⟩, hf, rfl⟩ := List.mem_map.1 h
    rw [loadArrays_mem F _ fnbase uneqFiles _ _ (by decide) _ hf]
    exact loadArray_saved F _ _ _ _ _ (e3 _ hf)
  · rw [loadArrays_not_mem F fnbase _ _ _ _ a h]
    have hz : uneqSize Norb Ncell L a = 0 := by
      cases a <;> first | rfl | exact absurd (by decide) h
    funext z
    rw [hz, if_neg (by omega)]

end Files

/-- C84 is not vacuous: 2 × 2 cells with 2 orbitals -/
example : ∃ e, Estimates 2 2 2 (1 : Mat 8) (2 • (1 : Mat 8)) e := by
  obtain ⟨e, he, -⟩ := accumulateEq_estimates (N := 8) (Nx := 2) (Ny := 2) (Norb := 2) (by norm_num)
    (by norm_num) (by norm_num) (fun _ => 0) ⟨1, 0, 1⟩ ⟨2 • 1, 0, -1⟩ (Or.inl rfl) (Or.inr rfl)
  exact ⟨e, he⟩

/-- C85 is not vacuous: 2 × 3 cells with 2 orbitals, three time slices -/
example : ∃ e, UneqEstimates 2 3 2 3 (2 = 1 ↔ 3 = 1) (⟨fun _ => 1, fun _ => 1, fun _ => 1⟩ : TimeG 12)
    ⟨fun l => l • 1, fun l => l • 1, fun l => l • 1⟩ e := by
  obtain ⟨e, he, -⟩ := accumulateUneq_estimates (N := 12) (Nx := 2) (Ny := 3) (Norb := 2) (by norm_num)
    (by norm_num) (by norm_num) (fun _ => 0) 3 ⟨fun _ => 1, fun _ => 1, fun _ => 1⟩
    ⟨fun l => l • 1, fun l => l • 1, fun l => l • 1⟩ ⟨rfl, rfl⟩ ⟨rfl, rfl⟩ (-1) (Or.inr rfl)
  exact ⟨e, he⟩

/-- C86: there are samples of both signs -/
example : (negativeSample.sgn = -1) := by simp [Sample.sgn, negativeSample]

end Verif.Measurement.Full
