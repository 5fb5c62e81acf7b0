import Verif.Lemmas.MeasFwd
import Verif.Model.MainFull
import Verif.Props.MeasurementFull

/-! # Lemmas: the data of `measurement.c` are averages of those of `measurement_full.c` at every step -/

set_option autoImplicit false

namespace Verif.Measurement.Full

open Matrix Verif.Lapack Verif.TimeFlow Verif.Greens Verif.Mem Verif.Lattice Verif.Files

variable {N : ℕ}

theorem corrVal_congr (U D : Mat N) {same same' : Prop} [Decidable same] [Decidable same']
    (h : same ↔ same') (a b : Fin N) (f : EqF) : corrVal U D same a b f = corrVal U D same' a b f := by
  unfold corrVal
  by_cases hs : same
  · have hs' := h.1 hs
    simp only [hs, hs', if_true]
  · have hs' : ¬ same' := fun x => hs (h.2 x)
    simp only [hs, hs', if_false]

theorem ucorrVal_congr (u d : TimeG N) (l : ℕ) {same same' : Prop} [Decidable same] [Decidable same']
    (h : same ↔ same') (a b : Fin N) (f : UneqF) :
    ucorrVal u d l same a b f = ucorrVal u d l same' a b f := by
  unfold ucorrVal
  by_cases hs : same
  · have hs' := h.1 hs
    simp only [hs, hs', if_true]
  · have hs' : ¬ same' := fun x => hs (h.2 x)
    simp only [hs, hs', if_false]

section
variable [NeZero N] {Nx Ny Norb : ℕ} (hx : 0 < Nx) (hy : 0 < Ny) (hN : N = Nx * Ny * Norb)
  {s : ℤ} (hs : 0 ≤ s) (junk : ℤ → ℤ)
include hx hy hN hs

/-- what `AccumulateMeasurement` adds in the two files -/
theorem contrib_avgOf {U D : Mat N} {g : ℝ} {c c' : EqF → ℤ → ℝ}
    (h : EqContrib Norb (Nx * Ny) (Maps.construct Nx Ny 0 junk) U D g c)
    (h' : Measurement.EqContrib Norb (Nx * Ny) (Maps.construct Nx Ny s junk) U D g c') :
    AvgOf Nx Ny Norb s c c' := by
  have sv : ∀ {o c : ℕ}, o < Norb → c < Nx * Ny →
      (siteN N (Nx * Ny) o c).val = c + Nx * Ny * o := fun ho hc => siteN_val hN ho hc
  have hZ : (N : ℤ) = ((Nx * Ny * Norb : ℕ) : ℤ) := by rw [hN]
  have cell : ∀ dx dy : ℤ, ∃ k : ℕ, k < Nx * Ny ∧ (k : ℤ) = cellOf Nx Ny s dx dy := by
    intro dx dy
    have h1 := cellOf_nonneg Nx Ny hx hy s dx dy
    have h2 := cellOf_lt Nx Ny hx hy s dx dy
    exact ⟨(cellOf Nx Ny s dx dy).toNat, by omega, by omega⟩
  refine ⟨?_, ?_, ?_, ?_⟩
  · intro f hf o ho
    rw [h'.dens f hf o ho, show g / ((Nx * Ny : ℕ) : ℝ) * (∑ i ∈ Finset.range (Nx * Ny),
      densVal U D (siteN N (Nx * Ny) o i) f) = cellAvg (Nx * Ny)
        (fun i => g * densVal U D (siteN N (Nx * Ny) o i) f) by
          rw [cellAvg_mul]; unfold cellAvg; ring]
    refine cellAvg_congr fun i hi => ?_
    rw [← h.dens f hf, sv ho hi]
  · intro f hf o p ho hp dx dy
    obtain ⟨k, hk, hk'⟩ := cell dx dy
    rw [← hk', h'.corr f hf o p k ho hp hk, sgn_mul_avg, ← cellAvg_mul]
    refine cellAvg_congr fun i hi => ?_
    have hj := moveCell_lt hx hy s i dx dy
    have t := h.corr f hf (siteN N (Nx * Ny) o i) (siteN N (Nx * Ny) p (moveCell Nx Ny s i dx dy))
    rw [construct_add hx hy s hs junk k dx dy hk' hi]
    refine Eq.trans (congrArg (g * ·) (corrVal_congr U D ?_ _ _ f)) (t.symm.trans ?_)
    · rw [← Fin.ext_iff, siteN_inj hN ho hi hp hj, eq_comm (a := i),
        moveCell_eq_self hx hy s hs k dx dy hk' hi]
    · rw [sv ho hi, sv hp hj, hZ]
      push_cast
      rfl
  · intro f hf o ho dx dy
    obtain ⟨k, hk, hk'⟩ := cell dx dy
    rw [← hk', h'.pair f hf o k ho hk, sgn_mul_avg, ← cellAvg_mul]
    refine cellAvg_congr fun i hi => ?_
    have hj := moveCell_lt hx hy s i dx dy
    have t := h.pair f hf o i (moveCell Nx Ny s i dx dy) ho hi hj
    rw [construct_nbrs hx hy 0 junk hi, construct_nbrs hx hy 0 junk hj] at t
    rw [construct_add hx hy s hs junk k dx dy hk' hi, construct_nbrs hx hy s junk hi,
      construct_nbrs hx hy s junk hj]
    refine t.symm.trans ?_
    push_cast
    rfl
  · intro z hz
    have e : ∀ a b : Fin N, ((a.val : ℤ) + N * b.val) = ((a.val + N * b.val : ℕ) : ℤ) := fun a b => by
      push_cast; rfl
    have hz' : z < N * N := by rw [hN]; exact hz
    have hb : z / N < N := Nat.div_lt_of_lt_mul hz'
    have hzz : z = z % N + N * (z / N) := (Nat.mod_add_div z N).symm
    have hp : 0 < N := Nat.pos_of_ne_zero (NeZero.ne N)
    have t1 := h.grfunU ⟨z % N, Nat.mod_lt _ hp⟩ ⟨z / N, hb⟩
    have t2 := h.grfunD ⟨z % N, Nat.mod_lt _ hp⟩ ⟨z / N, hb⟩
    have t3 := h'.grfunU ⟨z % N, Nat.mod_lt _ hp⟩ ⟨z / N, hb⟩
    have t4 := h'.grfunD ⟨z % N, Nat.mod_lt _ hp⟩ ⟨z / N, hb⟩
    rw [e] at t1 t2 t3 t4
    simp only [← hzz] at t1 t2 t3 t4
    rw [t1, t2, t3, t4]
    exact ⟨rfl, rfl⟩

/-- what `AccumulateUnequalTimeMeasurement` adds in the two files -/
theorem uneq_contrib_avgOf {L : ℕ} {u d : TimeG N} {g : ℝ} {c c' : UneqF → ℤ → ℝ}
    (h : UneqContrib Norb (Nx * Ny) L (Maps.construct Nx Ny 0 junk) u d g c)
    (h' : Measurement.UneqContrib Norb (Nx * Ny) L (Maps.construct Nx Ny s junk) u d g c') :
    UneqAvgOf Nx Ny Norb L s True c c' := by
  have sv : ∀ {o c : ℕ}, o < Norb → c < Nx * Ny →
      (siteN N (Nx * Ny) o c).val = c + Nx * Ny * o := fun ho hc => siteN_val hN ho hc
  have hZ : (N : ℤ) = ((Nx * Ny * Norb : ℕ) : ℤ) := by rw [hN]
  have cell : ∀ dx dy : ℤ, ∃ k : ℕ, k < Nx * Ny ∧ (k : ℤ) = cellOf Nx Ny s dx dy := by
    intro dx dy
    have h1 := cellOf_nonneg Nx Ny hx hy s dx dy
    have h2 := cellOf_lt Nx Ny hx hy s dx dy
    exact ⟨(cellOf Nx Ny s dx dy).toNat, by omega, by omega⟩
  have key : ∀ f ∈ ucorrFields, ∀ l o p : ℕ, l < L → o < Norb → p < Norb → ∀ dx dy : ℤ,
      c' f (cellOf Nx Ny s dx dy + (Nx * Ny : ℕ) * (o + Norb * p + Norb * Norb * l))
      = cellAvg (Nx * Ny) fun i => g * ucorrVal u d l
        ((siteN N (Nx * Ny) o i).val = (siteN N (Nx * Ny) p (moveCell Nx Ny s i dx dy)).val ∧ l = 0)
        (siteN N (Nx * Ny) o i) (siteN N (Nx * Ny) p (moveCell Nx Ny s i dx dy)) f := by
    intro f hf l o p hl ho hp dx dy
    obtain ⟨k, hk, hk'⟩ := cell dx dy
    rw [← hk', h'.corr f hf l o p k hl ho hp hk, sgn_mul_avg, ← cellAvg_mul]
    refine cellAvg_congr fun i hi => ?_
    have hj := moveCell_lt hx hy s i dx dy
    rw [construct_add hx hy s hs junk k dx dy hk' hi]
    refine congrArg (g * ·) (ucorrVal_congr u d l ?_ _ _ f)
    rw [← Fin.ext_iff, siteN_inj hN ho hi hp hj, eq_comm (a := i),
      moveCell_eq_self hx hy s hs k dx dy hk' hi]
    tauto
  refine ⟨?_, ?_, ?_, ?_⟩
  · intro f hf l o p hl ho hp dx dy
    rw [key f ((by decide : [UneqF.nn, .zz, .xx] ⊆ ucorrFields) hf) l o p hl ho hp]
    refine cellAvg_congr fun i hi => ?_
    have hj := moveCell_lt hx hy s i dx dy
    rw [← h.corr f hf l hl, sv ho hi, sv hp hj, hZ]
    push_cast
    rfl
  · intro f hf _ l o hl ho dx dy
    obtain ⟨k, hk, hk'⟩ := cell dx dy
    have hz : (k : ℤ) + (Nx * Ny : ℕ) * (o + Norb * l)
        = k + (((Nx * Ny : ℕ) : ℤ) * o + (((Nx * Ny : ℕ) : ℤ) * Norb) * l) := by ring
    rw [← hk', hz, h'.pair f ((by decide : [UneqF.scSw, .scDw, .scSx, .b1g, .b2g] ⊆ upairFields) hf) l o k
      hl ho hk, sgn_mul_avg, ← cellAvg_mul]
    refine cellAvg_congr fun i hi => ?_
    have hj := moveCell_lt hx hy s i dx dy
    have t := h.pair f hf l o i (moveCell Nx Ny s i dx dy) hl ho hi hj
    have en : ∀ x : ℕ, x < Nx * Ny → (Maps.construct Nx Ny s junk).nbrsN x
        = (Maps.construct Nx Ny 0 junk).nbrsN x := fun x hx' => by
      rw [construct_nbrs hx hy s junk hx', construct_nbrs hx hy 0 junk hx']
    have ed : ∀ x : ℕ, x < Nx * Ny →
        (Maps.construct Nx Ny s junk).diagN ((Maps.construct Nx Ny 0 junk).nbrsN x)
        = (Maps.construct Nx Ny 0 junk).diagN ((Maps.construct Nx Ny 0 junk).nbrsN x) := fun x hx' => by
      unfold Maps.diagN
      rw [construct_nbrs hx hy 0 junk hx']
      simp only [en _ (moveCell_lt hx hy 0 x 1 0), en _ (moveCell_lt hx hy 0 x (-1) 0)]
    rw [construct_add hx hy s hs junk k dx dy hk' hi, en i hi, en _ hj, ed i hi, ed _ hj]
    refine t.symm.trans ?_
    push_cast
    rfl
  · intro f hf l o p hl ho hp dx dy
    rw [key f ((by decide : [UneqF.gtau0U, .gtau0D] ⊆ ucorrFields) hf) l o p hl ho hp]
    refine cellAvg_congr fun i hi => ?_
    have hj := moveCell_lt hx hy s i dx dy
    have t := h.green l hl (siteN N (Nx * Ny) o i) (siteN N (Nx * Ny) p (moveCell Nx Ny s i dx dy))
    rw [sv ho hi, sv hp hj, hZ] at t
    push_cast at t ⊢
    fin_cases hf
    · exact t.1.symm
    · exact t.2.2.2.1.symm
  · intro f hf l o p hl ho hp dx dy
    rw [key f ((by decide : [UneqF.g0tauU, .g0tauD, .geqltU, .geqltD] ⊆ ucorrFields) hf) l o p hl ho hp]
    refine cellAvg_congr fun i hi => ?_
    have hj := moveCell_lt hx hy s i dx dy
    have t := h.green l hl (siteN N (Nx * Ny) o i) (siteN N (Nx * Ny) p (moveCell Nx Ny s i dx dy))
    rw [sv ho hi, sv hp hj, hZ] at t
    push_cast at t ⊢
    fin_cases hf
    · exact t.2.1.symm
    · exact t.2.2.2.2.1.symm
    · exact t.2.2.1.symm
    · exact t.2.2.2.2.2.symm

end

/-- the matrices in arrays of the time dependent Green's functions -/
def ofArrays (N L : ℕ) (A : GreensUneq.Arrays) : TimeG N where
  t0 l a b := A.Gtau0 (a.val + N * (l + L * b.val))
  zt l a b := A.G0tau (a.val + N * (b.val + N * l))
  eq l a b := A.Geqlt (a.val + N * (b.val + N * l))

theorem toCur_eq (N L : ℕ) [NeZero N] (A : GreensUneq.Arrays) : A.toCur N L = (ofArrays N L A).cur L := by
  have hp : 0 < N := Nat.pos_of_ne_zero (NeZero.ne N)
  have none1 : ∀ z : ℤ, z < 0 → ¬ (0 ≤ z / N / N) := fun z hz => by
    have h1 : z / N < 0 := Int.ediv_neg_of_neg_of_pos hz (by omega)
    have h2 : z / N / N < 0 := Int.ediv_neg_of_neg_of_pos h1 (by omega)
    omega
  have e2 : ∀ (G : BlockCyclic.Buf) (z : ℤ),
      (if 0 ≤ z ∧ z < (L * N * N : ℕ) then some (G z.toNat) else none)
      = cube L (fun l (a b : Fin N) => G (a.val + N * (b.val + N * l))) (z / N / N) (z % N) (z / N % N) := by
    intro G z
    unfold cube
    rcases lt_or_ge z 0 with hz | hz
    · rw [if_neg (by omega), dif_neg (fun x => none1 z hz x.2.2.1)]
    · obtain ⟨n, rfl⟩ := Int.eq_ofNat_of_zero_le hz
      have c1 : (n : ℤ) / N / N = ((n / N / N : ℕ) : ℤ) := by push_cast; rfl
      have c2 : (n : ℤ) % N = ((n % N : ℕ) : ℤ) := by push_cast; rfl
      have c3 : (n : ℤ) / N % N = ((n / N % N : ℕ) : ℤ) := by push_cast; rfl
      simp only [c1, c2, c3, Int.toNat_natCast]
      have m1 := Nat.mod_lt n hp
      have m2 := Nat.mod_lt (n / N) hp
      by_cases hn : n < L * N * N
      · have h3 : n / N / N < L := by
          rw [Nat.div_div_eq_div_mul]
          exact Nat.div_lt_of_lt_mul (by rw [Nat.mul_comm (N * N), ← Nat.mul_assoc]; exact hn)
        rw [if_pos ⟨by omega, by exact_mod_cast hn⟩, dif_pos ⟨⟨by omega, by exact_mod_cast m1⟩,
          ⟨by omega, by exact_mod_cast m2⟩, Int.natCast_nonneg _, by exact_mod_cast h3⟩, Nat.mod_add_div, Nat.mod_add_div]
      · rw [if_neg (by push_cast at hn ⊢; intro x; exact hn (by exact_mod_cast x.2)), dif_neg]
        rintro ⟨-, -, -, h3⟩
        have h3 : n / N / N < L := by exact_mod_cast h3
        rw [Nat.div_div_eq_div_mul, Nat.div_lt_iff_lt_mul (Nat.mul_pos hp hp), ← Nat.mul_assoc] at h3
        exact hn h3
  have e1 : ∀ (G : BlockCyclic.Buf) (z : ℤ),
      (if 0 ≤ z ∧ z < (L * N * N : ℕ) then some (G z.toNat) else none)
      = cube L (fun l (a b : Fin N) => G (a.val + N * (l + L * b.val))) (z / N % L) (z % N) (z / N / L) := by
    intro G z
    unfold cube
    rcases Nat.eq_zero_or_pos L with hL | hL
    · subst hL
      rw [if_neg (by push_cast; omega), dif_neg]
      rintro ⟨-, -, h3, h4⟩
      push_cast at h4
      omega
    rcases lt_or_ge z 0 with hz | hz
    · rw [if_neg (by omega), dif_neg]
      rintro ⟨-, h2, -⟩
      have h1 : z / N < 0 := Int.ediv_neg_of_neg_of_pos hz (by omega)
      have h3 : z / N / L < 0 := Int.ediv_neg_of_neg_of_pos h1 (by omega)
      omega
    · obtain ⟨n, rfl⟩ := Int.eq_ofNat_of_zero_le hz
      have c1 : (n : ℤ) / N % L = ((n / N % L : ℕ) : ℤ) := by push_cast; rfl
      have c2 : (n : ℤ) % N = ((n % N : ℕ) : ℤ) := by push_cast; rfl
      have c3 : (n : ℤ) / N / L = ((n / N / L : ℕ) : ℤ) := by push_cast; rfl
      simp only [c1, c2, c3, Int.toNat_natCast]
      have m1 := Nat.mod_lt n hp
      have m2 := Nat.mod_lt (n / N) hL
      by_cases hn : n < L * N * N
      · have h3 : n / N / L < N := by
          rw [Nat.div_div_eq_div_mul]
          exact Nat.div_lt_of_lt_mul (by rw [Nat.mul_comm N L]; exact hn)
        rw [if_pos ⟨by omega, by exact_mod_cast hn⟩, dif_pos ⟨⟨by omega, by exact_mod_cast m1⟩,
          ⟨Int.natCast_nonneg _, by exact_mod_cast h3⟩, by omega, by exact_mod_cast m2⟩, Nat.mod_add_div, Nat.mod_add_div]
      · rw [if_neg (by push_cast at hn ⊢; intro x; exact hn (by exact_mod_cast x.2)), dif_neg]
        rintro ⟨-, ⟨-, h3⟩, -⟩
        have h3 : n / N / L < N := by exact_mod_cast h3
        rw [Nat.div_div_eq_div_mul, Nat.div_lt_iff_lt_mul (Nat.mul_pos hp hL),
          show N * (N * L) = L * N * N by ring] at h3
        exact hn h3
  unfold GreensUneq.Arrays.toCur TimeG.cur Cur.ofMats ofArrays
  refine congr (congr (congrArg Cur.mk (funext fun z => e1 A.Gtau0 z)) (funext fun z => e2 A.G0tau z))
    (funext fun z => e2 A.Geqlt z)

/-! ## Phonon measurements -/

theorem sumM_none {n : ℕ} (hn : 0 < n) {f : ℕ → Option ℝ} (h : f 0 = none) : sumM n f = none := by
  obtain ⟨k, rfl⟩ := Nat.exists_eq_succ_of_ne_zero hn.ne'
  unfold sumM
  rw [List.range_succ_eq_map, List.foldlM_cons, h]
  rfl

theorem loopM_none {β : Type} {n : ℕ} (hn : 0 < n) {f : ℕ → Option (List β)} (h : f 0 = none) :
    loopM n f = none := by
  obtain ⟨k, rfl⟩ := Nat.exists_eq_succ_of_ne_zero hn.ne'
  unfold loopM
  rw [List.range_succ_eq_map, List.mapM_cons, h]
  rfl

/-- a defined call of `AccumulatePhononData` of `measurement.c` had a slice in range and room in the
buffers -/
theorem accumulatePh_room [NeZero N] {Norb Ncell L : ℕ} (hN : N = Ncell * Norb) {dt : ℝ} {omega : ℕ → ℝ}
    {Gu Gd : GreensFn N} {lG : ℕ} {X : ℕ → Fin N → ℝ} {m m1 : PhData}
    (h : Measurement.accumulatePh Norb Ncell L dt omega Gu Gd lG X m = some m1) :
    lG < L ∧ m.nsampl < m.maxNsampl := by
  have hp : 0 < Ncell * Norb := hN ▸ Nat.pos_of_ne_zero (NeZero.ne N)
  have h0 : 0 < Norb := Nat.pos_of_mul_pos_left hp
  have hc : 0 < Ncell := Nat.pos_of_mul_pos_right hp
  have hl : lG < L := by
    by_contra hL
    have hX : flatX L X ((0 : ℕ) + (0 : ℕ) * Ncell + lG * (Ncell * Norb : ℤ)) = none := by
      unfold flatX
      rw [dif_neg]
      rintro ⟨-, h2⟩
      have h3 : ((N * L : ℕ) : ℤ) ≤ ((lG * (Ncell * Norb) : ℕ) : ℤ) := by
        rw [← hN, Nat.mul_comm N]
        exact_mod_cast Nat.mul_le_mul_right N (Nat.le_of_not_lt hL)
      push_cast at h2 h3
      omega
    have hn : phNXAdds Norb Ncell (flat Gu.mat) (flat Gd.mat) (flatX L X)
        ((Gu.sgndet * Gd.sgndet : ℤ) : ℝ) lG 0 = none := by
      unfold phNXAdds
      simp only [Option.bind_eq_bind]
      rw [sumM_none hc]
      · rfl
      · rw [hX]
        cases flat Gu.mat (((0 : ℕ) : ℤ) + Ncell * (0 : ℕ) + (Ncell * Norb : ℤ) * (((0 : ℕ) : ℤ) + Ncell * (0 : ℕ))) with
        | none => rfl
        | some a =>
          cases flat Gd.mat (((0 : ℕ) : ℤ) + Ncell * (0 : ℕ) + (Ncell * Norb : ℤ) * (((0 : ℕ) : ℤ) + Ncell * (0 : ℕ))) with
          | none => rfl
          | some b => rfl
    have hn' : (loopM Norb fun o => phNXAdds Norb Ncell (flat Gu.mat) (flat Gd.mat) (flatX L X)
        ((Gu.sgndet * Gd.sgndet : ℤ) : ℝ) lG o) = none := loopM_none h0 hn
    simp only [Measurement.accumulatePh, Measurement.phAdds, hn', Option.bind_eq_bind,
      Option.bind_none, Option.bind_fun_none, reduceCtorEq] at h
  refine ⟨hl, ?_⟩
  by_contra hm
  rw [accumulatePh_overflow hN h0 Gu Gd X dt omega hl m (Nat.le_of_not_lt hm)] at h
  exact absurd h (by simp)

end Verif.Measurement.Full

namespace Verif.Main.Full

open Verif.Measurement Verif.MonteCarlo

/-- Data of a run with `measurement.c` (`m`) and with `measurement_full.c` (`mf`): the numbers of samples
and the signs are equal, and the former are averages over translations of the latter. The phonon data
are averages over cells in both; some are missing in the second file. -/
structure Agree (Nx Ny Norb L : ℕ) (s : ℤ) (m mf : MeasData) : Prop where
  eqCount : mf.eq.nsampl = m.eq.nsampl
  eqSign : mf.eq.sign = m.eq.sign
  eqArr : Measurement.Full.AvgOf Nx Ny Norb s mf.eq.arr m.eq.arr
  uneqCount : mf.uneq.nsampl = m.uneq.nsampl
  uneqSign : mf.uneq.sign = m.uneq.sign
  uneqArr : Measurement.Full.UneqAvgOf Nx Ny Norb L s True mf.uneq.arr m.uneq.arr
  ph : Measurement.Full.PhAgree Norb mf.ph m.ph

variable {N : ℕ}

/-- every measurement keeps this relation -/
theorem realMeas_follows [NeZero N] {Nx Ny Norb : ℕ} (hx : 0 < Nx) (hy : 0 < Ny)
    (hN : N = Nx * Ny * Norb) {s : ℤ} (hs : 0 ≤ s) (junk : ℤ → ℤ) (L : ℕ) (dt : ℝ) (omega : ℕ → ℝ)
    (alg : BlockCyclic.QRs N) (tau : BlockCyclic.Buf) (old : GreensUneq.Arrays) :
    (Main.realMeas Norb (Nx * Ny) L (Maps.construct Nx Ny s junk) dt omega alg tau old).Follows
      (realMeas Norb (Nx * Ny) L (Measurement.Full.maps Nx Ny junk) alg tau old)
      (Agree Nx Ny Norb L s) := by
  refine ⟨?_, ?_, ?_⟩
  · intro gu gd m mf m1 hr h
    obtain ⟨c', hc', e'⟩ := accumulateEq_contrib hN (construct_good hx hy s hs junk) gu gd
    obtain ⟨c, hc, e⟩ := Measurement.Full.accumulateEq_contrib hN (construct_good hx hy 0 le_rfl junk)
      (Measurement.Full.maps_nbrs Nx Ny junk) gu gd
    have h1 := Measurement.Full.contrib_avgOf hx hy hN hs junk hc hc'
    simp only [Main.realMeas, e', Option.map_some, Option.some.injEq] at h
    subst h
    refine ⟨{ mf with eq := ⟨fun f z => mf.eq.arr f z + c f z,
        mf.eq.sign + ((gu.sgndet * gd.sgndet : ℤ) : ℝ), mf.eq.nsampl + 1⟩ },
      congrArg (Option.map fun e : EqData => ({ mf with eq := e } : MeasData)) (e mf.eq), ?_⟩
    refine ⟨by simp only [hr.eqCount], by simp only [hr.eqSign], ?_, hr.uneqCount, hr.uneqSign, hr.uneqArr, hr.ph⟩
    have := Measurement.Full.AvgOf.add 1 hr.eqArr h1
    simpa only [one_mul] using this
  · intro gu gd l X m mf m1 hr h
    simp only [Main.realMeas] at h
    obtain ⟨p1, hp1, rfl⟩ := Option.map_eq_some_iff.1 h
    obtain ⟨hl, hm⟩ := Measurement.Full.accumulatePh_room hN hp1
    obtain ⟨pf, p', h1, h2, h3⟩ := Measurement.Full.accumulatePh_agree hN gu gd X dt omega hl hr.ph hm
    rw [hp1] at h2
    obtain rfl := Option.some.inj h2
    refine ⟨{ mf with ph := pf },
      congrArg (Option.map fun e : PhData => ({ mf with ph := e } : MeasData)) h1, ?_⟩
    exact ⟨hr.eqCount, hr.eqSign, hr.eqArr, hr.uneqCount, hr.uneqSign, hr.uneqArr, h3⟩
  · intro sg tu td m mf m1 hr h
    simp only [Main.realMeas] at h
    obtain ⟨u, hu, h⟩ := Option.bind_eq_some_iff.1 h
    obtain ⟨d, hd, h⟩ := Option.bind_eq_some_iff.1 h
    obtain ⟨c', hc', e'⟩ := accumulateUneq_contrib (L := L) hN (construct_good hx hy s hs junk)
      (Measurement.Full.ofArrays N L u) (Measurement.Full.ofArrays N L d) (sg : ℝ)
    obtain ⟨c, hc, e⟩ := Measurement.Full.accumulateUneq_contrib (L := L) hN
      (construct_good hx hy 0 le_rfl junk)
      (Measurement.Full.maps_nbrs Nx Ny junk) (Measurement.Full.maps_diag Nx Ny junk)
      (Measurement.Full.ofArrays N L u) (Measurement.Full.ofArrays N L d) (sg : ℝ)
    have h1 := Measurement.Full.uneq_contrib_avgOf hx hy hN hs junk hc hc'
    rw [Measurement.Full.toCur_eq, Measurement.Full.toCur_eq, e'] at h
    obtain rfl := Option.some.inj h
    refine ⟨_, by
      simp only [realMeas, hu, hd, Measurement.Full.toCur_eq, e, Option.bind_eq_bind, Option.bind_some]
      rfl, ?_⟩
    refine ⟨hr.eqCount, hr.eqSign, hr.eqArr, by simp only [hr.uneqCount], by simp only [hr.uneqSign], ?_, hr.ph⟩
    have := Measurement.Full.UneqAvgOf.add 1 hr.uneqArr h1
    simpa only [one_mul] using this

theorem Agree.allocate (Nx Ny Norb L : ℕ) (s : ℤ) (n : ℕ) :
    Agree Nx Ny Norb L s (MeasData.allocate n) (MeasData.allocate n) :=
  ⟨rfl, rfl, Measurement.Full.AvgOf.zero Nx Ny Norb s, rfl, rfl,
    Measurement.Full.UneqAvgOf.zero Nx Ny Norb L s True, Measurement.Full.allocatePh_agree Norb n⟩

end Verif.Main.Full
