import Verif.Model.GreensUneq
import Verif.Props.BlockCyclic
import Verif.Props.Greens
import Verif.Props.MeasurementUneq
import Mathlib.LinearAlgebra.Matrix.SchurComplement

/-!
# Unequal time Green's functions

C44.
-/

set_option autoImplicit false

namespace Verif.GreensUneq

open Matrix Verif.BlockCyclic Verif.TimeFlow Verif.Greens

variable {N : ℕ}

/-! ## Specification -/

/-- `B (i-1) ... B (j+1) B j` -/
def seg (B : ℕ → Mat N) (i j : ℕ) : Mat N := prodSeq (fun l => B (j + l)) (i - j)

theorem seg_self (B : ℕ → Mat N) (i : ℕ) : seg B i i = 1 := by
  rw [seg, Nat.sub_self, prodSeq]

theorem seg_zero (B : ℕ → Mat N) (i : ℕ) : seg B i 0 = prodSeq B i := by
  rw [seg, Nat.sub_zero]
  exact prodSeq_congr fun l _ => by rw [zero_add]

theorem seg_mul (B : ℕ → Mat N) {i j k : ℕ} (h1 : k ≤ j) (h2 : j ≤ i) :
    seg B i j * seg B j k = seg B i k := by
  obtain ⟨x, rfl⟩ := Nat.exists_eq_add_of_le h1
  obtain ⟨y, rfl⟩ := Nat.exists_eq_add_of_le h2
  rw [seg, seg, seg, show k + x + y - (k + x) = y by omega, show k + x - k = x by omega,
    show k + x + y - k = x + y by omega, prodSeq_add]
  simp only [add_assoc]

theorem seg_one (B : ℕ → Mat N) (i : ℕ) : seg B (i + 1) i = B i := by
  rw [seg, Nat.add_sub_cancel_left, prodSeq, prodSeq, Matrix.mul_one, add_zero]

theorem seg_succ (B : ℕ → Mat N) {i j : ℕ} (h : j ≤ i) : seg B (i + 1) j = B i * seg B i j := by
  rw [← seg_mul B h (Nat.le_succ i), seg_one]

theorem cyclic_seg (B : ℕ → Mat N) {L j : ℕ} (h : j ≤ L) :
    cyclicProd B L j = seg B j 0 * seg B L j := by
  have e : cyclicProd B L j = prodSeq (fun l => B ((j + l) % L)) (L - j + j) := by
    rw [Nat.sub_add_cancel h]; rfl
  rw [e, prodSeq_add, seg_zero, seg]
  congr 1
  · refine prodSeq_congr fun l hl => ?_
    rw [show j + (L - j + l) = L + l by omega, Nat.add_mod_left, Nat.mod_eq_of_lt (by omega)]
  · refine prodSeq_congr fun l hl => ?_
    rw [Nat.mod_eq_of_lt (by omega)]

/-- equal time Green's function at time `j` -/
noncomputable def green (B : ℕ → Mat N) (L j : ℕ) : Mat N := (1 + cyclicProd B L j)⁻¹

theorem det_cyclic (B : ℕ → Mat N) {L j : ℕ} (h : j ≤ L) :
    (1 + cyclicProd B L j).det = (1 + cyclicProd B L 0).det := by
  rw [cyclic_seg B h, det_one_add_mul_comm, seg_mul B (Nat.zero_le _) h, cyclic_seg B (Nat.zero_le L),
    seg_self, Matrix.one_mul]

/-- Green's function between the times `i` and `j` -/
noncomputable def gfun (B : ℕ → Mat N) (L i j : ℕ) : Mat N :=
  if j ≤ i then seg B i j * green B L j else -(seg B i 0 * seg B L j * green B L j)

theorem mul_green (B : ℕ → Mat N) {L j : ℕ} (h : j ≤ L) (hdet : (1 + cyclicProd B L 0).det ≠ 0) :
    green B L j + seg B j 0 * seg B L j * green B L j = 1 := by
  rw [← det_cyclic B h] at hdet
  rw [← cyclic_seg B h]
  have := Matrix.mul_nonsing_inv (1 + cyclicProd B L j) (isUnit_iff_ne_zero.2 hdet)
  rwa [Matrix.add_mul, Matrix.one_mul] at this

theorem green_mul (B : ℕ → Mat N) {L j : ℕ} (h : j ≤ L) (hdet : (1 + cyclicProd B L 0).det ≠ 0) :
    green B L j + green B L j * (seg B j 0 * seg B L j) = 1 := by
  rw [← det_cyclic B h] at hdet
  rw [← cyclic_seg B h]
  have := Matrix.nonsing_inv_mul (1 + cyclicProd B L j) (isUnit_iff_ne_zero.2 hdet)
  rwa [Matrix.mul_add, Matrix.mul_one] at this

/-- `G(0, j)` in terms of the Green's function at time 0 -/
theorem seg_green (B : ℕ → Mat N) {L j : ℕ} (h : j ≤ L) (hdet : (1 + cyclicProd B L 0).det ≠ 0) :
    seg B L j * green B L j = green B L 0 * seg B L j := by
  have h1 := mul_green B h hdet
  have h2 := green_mul B (Nat.zero_le L) hdet
  rw [seg_self, Matrix.one_mul] at h2
  have e : green B L 0 * (seg B L j * (green B L j + seg B j 0 * seg B L j * green B L j))
      = (green B L 0 + green B L 0 * seg B L 0) * (seg B L j * green B L j) := by
    rw [← seg_mul B (Nat.zero_le j) h]
    noncomm_ring
  rw [h1, h2, Matrix.mul_one, Matrix.one_mul] at e
  exact e.symm

/-! ## The matrix to be inverted -/

variable {p : ℕ}

theorem store_mk (A : Buf) (a ld : ℕ) (M : Mat N) :
    store A a ld (mk 1 1 fun _ _ => M) = store A a ld M := by
  funext x
  rw [store, store]
  by_cases h : a ≤ x ∧ (x - a) % ld < N ∧ (x - a) / ld < N
  · have h' : a ≤ x ∧ (x - a) % ld < 1 * N ∧ (x - a) / ld < 1 * N := by rwa [Nat.one_mul]
    rw [dif_pos h, dif_pos h', mk, of_apply]
    congr 1
    · apply Fin.ext
      exact Nat.mod_eq_of_lt h.2.1
    · apply Fin.ext
      exact Nat.mod_eq_of_lt h.2.2
  · have h' : ¬ (a ≤ x ∧ (x - a) % ld < 1 * N ∧ (x - a) / ld < 1 * N) := by rwa [Nat.one_mul]
    rw [dif_neg h, dif_neg h']

theorem load_one {A : Buf} {f : ℕ → ℕ → Mat N} (hA : Rep p A f) {i j : ℕ} (hi : i < p) (hj : j < p)
    {z : ℤ} (hz : z = (i + (N * p : ℕ) * j) * N) :
    load ((N * p) * (N * p)) A z (N * p) N N = some (f i j) := by
  have h := fits_block (n := N) (a := 1) (b := 1) (i₀ := i) (j₀ := j) hi hj hz
  rw [Nat.one_mul] at h
  rw [load, if_pos h, toNat_addr hz]
  congr 1
  ext r s
  rw [view, of_apply, ← hA i hi j hj]
  congr 1
  ring

theorem save_one {A : Buf} {f : ℕ → ℕ → Mat N} (hA : Rep p A f) {i j : ℕ} (hi : i < p) (hj : j < p)
    {z : ℤ} (hz : z = (i + (N * p : ℕ) * j) * N) (M : Mat N) :
    ∃ A', save ((N * p) * (N * p)) A z (N * p) M = some A' ∧
      Rep p A' fun a b => if a = i ∧ b = j then M else f a b := by
  obtain ⟨A', h1, h2⟩ := save_block (a := 1) (b := 1) hA (i₀ := i) (j₀ := j) hi hj hz
    (mk 1 1 fun _ _ => M)
  have h := fits_block (n := N) (a := 1) (b := 1) (i₀ := i) (j₀ := j) hi hj hz
  refine ⟨A', ?_, h2.congr fun a _ b _ => ?_⟩
  · rw [save, if_pos h, store_mk] at h1
    rw [Nat.one_mul] at h
    rw [save, if_pos h, h1]
  · rw [patch]
    by_cases hab : a = i ∧ b = j
    · rw [if_pos (by omega), if_pos hab, blk_mk _ (by omega) (by omega)]
    · rw [if_neg (by omega), if_neg hab]

theorem identity_apply (m : ℕ) (c : ℕ) (x : ℕ) :
    (List.range m).foldl (fun (H : Buf) i => Function.update H (i + i * c * N) 1) (fun _ => 0) x
      = if ∃ i < m, x = i + i * c * N then 1 else 0 := by
  induction m with
  | zero => simp
  | succ m ih =>
    rw [List.range_succ, List.foldl_append, List.foldl_cons, List.foldl_nil]
    by_cases h : x = m + m * c * N
    · subst h
      rw [Function.update_self, if_pos ⟨m, by omega, rfl⟩]
    · rw [Function.update_of_ne h, ih]
      congr 1
      apply propext
      constructor
      · rintro ⟨i, hi, rfl⟩; exact ⟨i, by omega, rfl⟩
      · rintro ⟨i, hi, rfl⟩
        refine ⟨i, ?_, rfl⟩
        rcases (by omega : i < m ∨ i = m) with h' | h'
        · exact h'
        · subst h'; exact absurd rfl h

theorem identity_rep : Rep p (identity N p) fun a b => if a = b then (1 : Mat N) else 0 := by
  intro a ha b hb r s
  have hr := r.2
  have hs := s.2
  have lt : ∀ (k : ℕ) (t : Fin N), k < p → N * k + t < N * p := by
    intro k t hk
    have := Nat.mul_le_mul_left N hk
    rw [Nat.succ_eq_add_one, mul_add, mul_one] at this
    have := t.2
    omega
  have h1 := lt a r ha
  have h2 := lt b s hb
  have inj : N * a + r.val = N * b + s.val ↔ a = b ∧ r = s := by
    constructor
    · intro h
      have e1 : (N * a + r.val) / N = a := by
        rw [Nat.mul_add_div (by omega), Nat.div_eq_of_lt hr, add_zero]
      have e2 : (N * b + s.val) / N = b := by
        rw [Nat.mul_add_div (by omega), Nat.div_eq_of_lt hs, add_zero]
      have : a = b := by rw [← e1, ← e2, h]
      subst this
      exact ⟨rfl, Fin.ext (by omega)⟩
    · rintro ⟨rfl, rfl⟩; rfl
  rw [identity, identity_apply]
  have key : (∃ i < p * N, (N * a + r.val) + N * p * (N * b + s.val) = i + i * p * N)
      ↔ N * a + r.val = N * b + s.val := by
    constructor
    · rintro ⟨i, hi, h⟩
      have hi' : i < N * p := by rwa [mul_comm]
      have e : i + i * p * N = i + N * p * i := by ring
      rw [e] at h
      have m1 := congrArg (· % (N * p)) h
      have m2 := congrArg (· / (N * p)) h
      simp only [Nat.add_mul_mod_self_left, Nat.mod_eq_of_lt h1, Nat.mod_eq_of_lt hi'] at m1
      simp only [Nat.add_mul_div_left _ _ (by omega : 0 < N * p), Nat.div_eq_of_lt h1,
        Nat.div_eq_of_lt hi'] at m2
      omega
    · intro h
      refine ⟨N * b + s.val, by rwa [mul_comm p], ?_⟩
      rw [h]
      ring
  show _ = (if a = b then (1 : Mat N) else 0) r s
  by_cases hab : a = b
  · rw [if_pos hab, Matrix.one_apply]
    by_cases hrs : r = s
    · rw [if_pos (key.2 (inj.2 ⟨hab, hrs⟩)), if_pos hrs]
    · rw [if_neg (fun h => hrs (inj.1 (key.1 h)).2), if_neg hrs]
  · rw [if_neg hab, if_neg (fun h => hab (inj.1 (key.1 h)).1)]
    rfl

/-- blocks of the matrix -/
def hBlocks (p : ℕ) (Bp : ℕ → Mat N) : ℕ → ℕ → Mat N := fun a b =>
  if a = b then 1 else if a = b + 1 then -Bp b else if a = 0 ∧ b = p - 1 then Bp b else 0

theorem buildH_rep (tsm : TSM N) (hp : 2 ≤ tsm.numBprod) :
    ∃ H, buildH tsm = some H ∧ Rep tsm.numBprod H (hBlocks tsm.numBprod tsm.Bprod) := by
  set p := tsm.numBprod with hpdef
  have loop : ∀ k ≤ p, ∃ H, (List.range k).foldlM (putBlock p tsm.Bprod) (identity N p) = some H ∧
      Rep p H fun a b => if a = b then 1 else if b < k then hBlocks p tsm.Bprod a b else 0 := by
    intro k
    induction k with
    | zero =>
      intro _
      refine ⟨_, rfl, identity_rep.congr fun a _ b _ => ?_⟩
      simp
    | succ k ih =>
      intro hk
      obtain ⟨H, e, r⟩ := ih (by omega)
      have : ∃ H', putBlock p tsm.Bprod H k = some H' ∧
          Rep p H' fun a b => if a = b then 1 else if b < k + 1 then hBlocks p tsm.Bprod a b else 0 := by
        rw [putBlock]
        by_cases hk' : k < p - 1
        · obtain ⟨H', e', r'⟩ := save_one r (i := k + 1) (j := k) (by omega) (by omega)
            (z := ((k + 1 : ℤ) + (N * p : ℕ) * k) * N) (by push_cast; ring) ((-1.0 : ℝ) • tsm.Bprod k)
          rw [if_pos hk']
          refine ⟨H', e', r'.congr fun a ha b hb => ?_⟩
          by_cases hab : a = k + 1 ∧ b = k
          · rw [if_pos hab, if_neg (by omega), if_pos (by omega), hBlocks, if_neg (by omega),
              if_pos (by omega), hab.2]
            norm_num
          · rw [if_neg hab]
            by_cases h1 : a = b
            · rw [if_pos h1, if_pos h1]
            · rw [if_neg h1, if_neg h1]
              by_cases h2 : b < k
              · rw [if_pos h2, if_pos (by omega)]
              · rw [if_neg h2]
                by_cases h3 : b < k + 1
                · rw [if_pos h3, hBlocks, if_neg h1, if_neg (by omega), if_neg (by omega)]
                · rw [if_neg h3]
        · have hkp : k = p - 1 := by omega
          obtain ⟨H', e', r'⟩ := save_one r (i := 0) (j := p - 1) (by omega) (by omega)
            (z := (N * p : ℕ) * (p - 1) * N) (by rw [Nat.cast_sub (by omega)]; push_cast; ring)
            ((1.0 : ℝ) • tsm.Bprod k)
          rw [if_neg hk']
          refine ⟨H', e', r'.congr fun a ha b hb => ?_⟩
          by_cases hab : a = 0 ∧ b = p - 1
          · rw [if_pos hab, if_neg (by omega), if_pos (by omega), hBlocks, if_neg (by omega),
              if_neg (by omega), if_pos hab, hab.2, hkp]
            norm_num
          · rw [if_neg hab]
            by_cases h1 : a = b
            · rw [if_pos h1, if_pos h1]
            · rw [if_neg h1, if_neg h1]
              by_cases h2 : b < k
              · rw [if_pos h2, if_pos (by omega)]
              · rw [if_neg h2]
                by_cases h3 : b < k + 1
                · rw [if_pos h3, hBlocks, if_neg h1, if_neg (by omega), if_neg hab]
                · rw [if_neg h3]
      obtain ⟨H', e', r'⟩ := this
      refine ⟨H', ?_, r'⟩
      rw [List.range_succ, List.foldlM_append, e]
      simp [e']
  obtain ⟨H, e, r⟩ := loop p le_rfl
  refine ⟨H, e, r.congr fun a _ b hb => ?_⟩
  by_cases h1 : a = b
  · rw [if_pos h1, hBlocks, if_pos h1]
  · rw [if_neg h1, if_pos hb]

theorem hBlocks_cyclic (Bp : ℕ → Mat N) : Cyclic p (hBlocks p Bp) :=
  ⟨fun a b _ _ h1 h2 h3 => by rw [hBlocks, if_neg h1, if_neg h2, if_neg h3]⟩

/-- the Green's functions between the block boundaries form the inverse -/
theorem hBlocks_mul (tsm : TSM N) (hd : Dims tsm) (hf : Fresh tsm) (hp : 2 ≤ tsm.numBprod)
    (hdet : (1 + cyclicProd tsm.B tsm.L 0).det ≠ 0) :
    mk tsm.numBprod tsm.numBprod (hBlocks tsm.numBprod tsm.Bprod)
      * mk tsm.numBprod tsm.numBprod
        (fun i j => gfun tsm.B tsm.L (i * tsm.prodBlen) (j * tsm.prodBlen)) = 1 := by
  set p := tsm.numBprod with hpdef
  set len := tsm.prodBlen with hlen
  have hL : tsm.L = p * len := hd.mul
  have hB : ∀ m < p, tsm.Bprod m = seg tsm.B ((m + 1) * len) (m * len) := by
    intro m hm
    rw [hf m hm, seg]
    congr 1
    rw [Nat.succ_mul, Nat.add_sub_cancel_left]
  have le : ∀ {i j : ℕ}, i ≤ j → i * len ≤ j * len := fun h => Nat.mul_le_mul_right _ h
  have lt : ∀ {i j : ℕ}, i * len ≤ j * len ↔ i ≤ j := fun {i j} =>
    ⟨fun h => Nat.le_of_mul_le_mul_right h hd.len, fun h => le h⟩
  rw [mk_mul, ← mk_one]
  refine mk_congr fun i hi j hj => ?_
  rw [bmul]
  have hjL : j * len ≤ tsm.L := by rw [hL]; exact le (by omega)
  have hG := mul_green tsm.B hjL hdet
  -- only two blocks contribute
  have two : ∀ k, k < p → k ≠ i → ∀ X : ℕ → Mat N, (∀ x < p, x ≠ i → x ≠ k → hBlocks p tsm.Bprod i x = 0) →
      ∑ x ∈ Finset.range p, hBlocks p tsm.Bprod i x * X x
        = X i + hBlocks p tsm.Bprod i k * X k := by
    intro k hk hki X h0
    rw [← Finset.sum_subset (s₁ := {i, k})]
    · rw [Finset.sum_pair (fun h => hki h.symm)]
      congr 1
      rw [hBlocks, if_pos rfl, Matrix.one_mul]
    · intro x hx
      simp only [Finset.mem_insert, Finset.mem_singleton] at hx
      rw [Finset.mem_range]
      omega
    · intro x hx hx'
      simp only [Finset.mem_insert, Finset.mem_singleton, not_or] at hx'
      rw [h0 x (Finset.mem_range.1 hx) hx'.1 hx'.2, Matrix.zero_mul]
  rcases Nat.eq_zero_or_pos i with h0 | h0
  · subst h0
    rw [two (p - 1) (by omega) (by omega) _ (fun x hx h1 h2 => by
      rw [hBlocks, if_neg (by omega), if_neg (by omega), if_neg (by omega)]), hBlocks,
      if_neg (by omega), if_neg (by omega), if_pos ⟨rfl, rfl⟩, hB (p - 1) (by omega),
      Nat.sub_add_cancel (by omega), ← hL]
    rw [gfun, gfun, if_pos (le (by omega : j ≤ p - 1)), ← Matrix.mul_assoc,
      seg_mul tsm.B (le (by omega : j ≤ p - 1)) (by rw [hL]; exact le (by omega))]
    by_cases hj0 : j = 0
    · subst hj0
      rw [if_pos le_rfl, if_pos rfl, seg_self, Matrix.one_mul]
      rw [Nat.zero_mul] at hG ⊢
      rwa [seg_self, Matrix.one_mul] at hG
    · rw [if_neg (fun h => hj0 (by have := lt.1 h; omega)), if_neg (fun h => hj0 (by omega)),
        Nat.zero_mul, seg_self, Matrix.one_mul, neg_add_cancel]
  · obtain ⟨k, rfl⟩ : ∃ k, i = k + 1 := ⟨i - 1, by omega⟩
    rw [two k (by omega) (by omega) _ (fun x hx h1 h2 => by
      rw [hBlocks, if_neg (by omega), if_neg (by omega), if_neg (by omega)]), hBlocks,
      if_neg (by omega), if_pos rfl, hB k (by omega), gfun, gfun]
    have step : ∀ {m : ℕ}, m ≤ k * len → seg tsm.B ((k + 1) * len) (k * len) * seg tsm.B (k * len) m
        = seg tsm.B ((k + 1) * len) m := fun h => seg_mul tsm.B h (le (by omega))
    rcases lt_trichotomy j (k + 1) with h | h | h
    · rw [if_pos (le (by omega)), if_pos (le (by omega)), if_neg (by omega), Matrix.neg_mul,
        ← Matrix.mul_assoc, step (le (by omega)), add_neg_cancel]
    · subst h
      rw [if_pos le_rfl, if_neg (fun h => by have := lt.1 h; omega), if_pos rfl, seg_self,
        Matrix.one_mul, Matrix.neg_mul, Matrix.mul_neg, neg_neg, ← Matrix.mul_assoc,
        ← Matrix.mul_assoc, step (Nat.zero_le _), hG]
    · rw [if_neg (fun h => by have := lt.1 h; omega), if_neg (fun h => by have := lt.1 h; omega),
        if_neg (by omega), Matrix.neg_mul, Matrix.mul_neg, neg_neg,
        ← Matrix.mul_assoc, ← Matrix.mul_assoc, step (Nat.zero_le _), neg_add_cancel]

theorem hBlocks_det (tsm : TSM N) (hd : Dims tsm) (hf : Fresh tsm)
    (hp : 2 ≤ tsm.numBprod) (hdet : (1 + cyclicProd tsm.B tsm.L 0).det ≠ 0) :
    (mk tsm.numBprod tsm.numBprod (hBlocks tsm.numBprod tsm.Bprod)).det ≠ 0 := by
  have hmul := hBlocks_mul tsm hd hf hp hdet
  intro h0
  have := congrArg Matrix.det hmul
  rw [det_mul, h0, zero_mul, det_one] at this
  exact zero_ne_one this

theorem rep_inverse (tsm : TSM N) (hd : Dims tsm) (hf : Fresh tsm)
    (hp : 2 ≤ tsm.numBprod) (hdet : (1 + cyclicProd tsm.B tsm.L 0).det ≠ 0) {H' : Buf} {g : ℕ → ℕ → Mat N}
    (r' : Rep tsm.numBprod H' g)
    (v' : mk tsm.numBprod tsm.numBprod g = (mk tsm.numBprod tsm.numBprod (hBlocks tsm.numBprod tsm.Bprod))⁻¹) :
    Rep tsm.numBprod H' fun i j => gfun tsm.B tsm.L (i * tsm.prodBlen) (j * tsm.prodBlen) := by
  have hmul := hBlocks_mul tsm hd hf hp hdet
  refine r'.congr fun i hi j hj => ?_
  rw [inv_eq_right_inv hmul] at v'
  exact mk_inj v' hi hj

theorem inverse_rep (alg : QRs N) (tsm : TSM N) (hd : Dims tsm) (hf : Fresh tsm)
    (hp : 2 ≤ tsm.numBprod) (hdet : (1 + cyclicProd tsm.B tsm.L 0).det ≠ 0) (tau : Buf) :
    ∃ H H', buildH tsm = some H ∧ blockCyclicInverse alg tsm.numBprod H tau = some H' ∧
      Rep tsm.numBprod H' fun i j => gfun tsm.B tsm.L (i * tsm.prodBlen) (j * tsm.prodBlen) := by
  obtain ⟨H, e, r⟩ := buildH_rep tsm hp
  obtain ⟨H', g, e', r', v'⟩ := inverse_done alg hp (hBlocks_cyclic tsm.Bprod) (hBlocks_det tsm hd hf hp hdet) tau r
  exact ⟨H, H', e, e', rep_inverse tsm hd hf hp hdet r' v'⟩

/-! ## The three arrays -/

variable {L : ℕ}

theorem fits_tall {i : ℕ} (hi : i < L) : Fits (L * N * N) ((i : ℤ) * N) (L * N) N N := by
  refine ⟨by positivity, fun h _ => ?_⟩
  have h1 : i * N + N ≤ L * N := by rw [← Nat.succ_mul]; exact Nat.mul_le_mul_right _ hi
  have h2 : L * N * (N - 1) + L * N = L * N * N := by
    rw [← Nat.mul_succ, Nat.succ_eq_add_one, Nat.sub_add_cancel (by omega)]
  have h3 : (i : ℤ) * N + (N - 1 : ℕ) + (L * N : ℕ) * (N - 1 : ℕ)
      = ((i * N + (N - 1) + L * N * (N - 1) : ℕ) : ℤ) := by push_cast; ring
  rw [h3]
  have h4 : i * N + (N - 1) + L * N * (N - 1) < L * N * N := by omega
  exact_mod_cast h4

theorem fits_seq {i : ℕ} (hi : i < L) : Fits (L * N * N) ((i : ℤ) * N * N) N N N := by
  refine ⟨by positivity, fun h _ => ?_⟩
  have h1 : i * N * N + N * N ≤ L * N * N := by
    rw [← Nat.add_mul, ← Nat.succ_mul]
    exact Nat.mul_le_mul_right _ (Nat.mul_le_mul_right _ hi)
  have h2 : N * (N - 1) + N = N * N := by
    rw [← Nat.mul_succ, Nat.succ_eq_add_one, Nat.sub_add_cancel (by omega)]
  have h3 : (i : ℤ) * N * N + (N - 1 : ℕ) + (N : ℕ) * (N - 1 : ℕ)
      = ((i * N * N + (N - 1) + N * (N - 1) : ℕ) : ℤ) := by push_cast; ring
  rw [h3]
  have h4 : i * N * N + (N - 1) + N * (N - 1) < L * N * N := by omega
  exact_mod_cast h4

/-- entry `τ` of the array `Gtau0` -/
abbrev tallAt (N L : ℕ) (G : Buf) (i : ℕ) : Mat N := view G (i * N) (L * N) N N

/-- entry `τ` of the arrays `G0tau` and `Geqlt` -/
abbrev seqAt (N : ℕ) (G : Buf) (i : ℕ) : Mat N := view G (i * N * N) N N N

theorem load_tall (G : Buf) {i : ℕ} (hi : i < L) :
    load (L * N * N) G ((i : ℤ) * N) (L * N) N N = some (tallAt N L G i) := by
  have : ((i : ℤ) * N).toNat = i * N := by rw [← Nat.cast_mul, Int.toNat_natCast]
  rw [load, if_pos (fits_tall hi), this]

theorem save_tall (G : Buf) {i : ℕ} (hi : i < L) (M : Mat N) :
    ∃ G', save (L * N * N) G ((i : ℤ) * N) (L * N) M = some G' ∧ tallAt N L G' i = M ∧
      ∀ k < i, tallAt N L G' k = tallAt N L G k := by
  have e : ((i : ℤ) * N).toNat = i * N := by rw [← Nat.cast_mul, Int.toNat_natCast]
  have hiN : i * N + N ≤ L * N := by rw [← Nat.succ_mul]; exact Nat.mul_le_mul_right _ hi
  refine ⟨_, if_pos (fits_tall hi), ?_, ?_⟩
  · rw [e]
    exact view_store _ _ (by omega) M
  · intro k hk
    rw [e]
    have hkN : k * N + N ≤ i * N := by rw [← Nat.succ_mul]; exact Nat.mul_le_mul_right _ hk
    ext r s
    have hr := r.2
    show store G (i * N) (L * N) M (k * N + r + L * N * s) = G (k * N + r + L * N * s)
    rw [store, dif_neg]
    rintro ⟨h1, h2, -⟩
    generalize hLN : L * N = W at *
    rcases Nat.eq_zero_or_pos s.val with h0 | h0
    · rw [h0, Nat.mul_zero] at h1
      omega
    · obtain ⟨d, hd⟩ : ∃ d, s.val = d + 1 := ⟨s.val - 1, by omega⟩
      have e2 : k * N + r.val + W * s.val - i * N = (k * N + r.val + W - i * N) + W * d := by
        rw [hd, Nat.mul_succ]
        omega
      rw [e2, Nat.add_mul_mod_self_left, Nat.mod_eq_of_lt (by omega)] at h2
      omega

theorem load_seq (G : Buf) {i : ℕ} (hi : i < L) :
    load (L * N * N) G ((i : ℤ) * N * N) N N N = some (seqAt N G i) := by
  have : ((i : ℤ) * N * N).toNat = i * N * N := by
    rw [← Nat.cast_mul, ← Nat.cast_mul, Int.toNat_natCast]
  rw [load, if_pos (fits_seq hi), this]

theorem save_seq (G : Buf) {i : ℕ} (hi : i < L) (M : Mat N) :
    ∃ G', save (L * N * N) G ((i : ℤ) * N * N) N M = some G' ∧ seqAt N G' i = M ∧
      ∀ k < i, seqAt N G' k = seqAt N G k := by
  have e : ((i : ℤ) * N * N).toNat = i * N * N := by
    rw [← Nat.cast_mul, ← Nat.cast_mul, Int.toNat_natCast]
  refine ⟨_, if_pos (fits_seq hi), ?_, ?_⟩
  · rw [e]
    exact view_store _ _ le_rfl M
  · intro k hk
    rw [e]
    have hkN : k * N * N + N * N ≤ i * N * N := by
      rw [← Nat.add_mul, ← Nat.succ_mul]
      exact Nat.mul_le_mul_right _ (Nat.mul_le_mul_right _ hk)
    ext r s
    have hr := r.2
    have hs : N * s.val + N ≤ N * N := by
      rw [← Nat.mul_succ]; exact Nat.mul_le_mul_left _ s.2
    show store G (i * N * N) N M (k * N * N + r + N * s) = G (k * N * N + r + N * s)
    rw [store, dif_neg (by omega)]

/-- loop over all times with an array of matrices -/
theorem fill_loop (step : Buf → ℕ → Option Buf) (at_ : Buf → ℕ → Mat N) (val : ℕ → Mat N)
    (h : ∀ i < L, ∀ G, (∀ k < i, at_ G k = val k) → ∃ G', step G i = some G' ∧ at_ G' i = val i ∧
      ∀ k < i, at_ G' k = at_ G k) (G : Buf) :
    ∀ m ≤ L, ∃ G', (List.range m).foldlM step G = some G' ∧ ∀ k < m, at_ G' k = val k := by
  intro m
  induction m with
  | zero => exact fun _ => ⟨G, rfl, fun k hk => absurd hk (by omega)⟩
  | succ m ih =>
    intro hm
    obtain ⟨G1, e1, v1⟩ := ih (by omega)
    obtain ⟨G2, e2, v2, o2⟩ := h m (by omega) G1 v1
    refine ⟨G2, ?_, fun k hk => ?_⟩
    · rw [List.range_succ, List.foldlM_append, e1]
      simp [e2]
    · rcases (by omega : k < m ∨ k = m) with hk' | rfl
      · rw [o2 k hk', v1 k hk']
      · exact v2

theorem block_of_mod (tsm : TSM N) (hd : Dims tsm) {i : ℕ} (hi : i < tsm.L) (h : i % tsm.prodBlen = 0) :
    i / tsm.prodBlen < tsm.numBprod ∧ i / tsm.prodBlen * tsm.prodBlen = i := by
  constructor
  · rw [hd.mul] at hi
    exact Nat.div_lt_of_lt_mul (by rwa [mul_comm])
  · exact Nat.div_mul_cancel (Nat.dvd_of_mod_eq_zero h)

/-- the loops over the time slices, once the inverse is available -/
theorem arrays_spec (tsm : TSM N) (hd : Dims tsm) (hp : 2 ≤ tsm.numBprod) (hinv : ∀ l < tsm.L, tsm.B l * tsm.invB l = 1)
    (hdet : (1 + cyclicProd tsm.B tsm.L 0).det ≠ 0) {H' : Buf}
    (r : Rep tsm.numBprod H' fun i j => gfun tsm.B tsm.L (i * tsm.prodBlen) (j * tsm.prodBlen)) (old : Arrays) :
    ∃ A : Arrays, (List.range tsm.L).foldlM (tau0Step tsm tsm.L H') old.Gtau0 = some A.Gtau0 ∧
      (List.range tsm.L).foldlM (zerotauStep tsm tsm.L H') old.G0tau = some A.G0tau ∧
      (List.range tsm.L).foldlM (eqltStep tsm tsm.L H') old.Geqlt = some A.Geqlt ∧ ∀ i < tsm.L,
      tallAt N tsm.L A.Gtau0 i = prodSeq tsm.B i * (1 + prodSeq tsm.B tsm.L)⁻¹ ∧
      seqAt N A.G0tau i = (if i = 0 then (1 + prodSeq tsm.B tsm.L)⁻¹ else
        -((1 + prodSeq tsm.B tsm.L)⁻¹ * prodSeq (fun l => tsm.B (i + l)) (tsm.L - i))) ∧
      seqAt N A.Geqlt i
        = (1 + prodSeq tsm.B i * prodSeq (fun l => tsm.B (i + l)) (tsm.L - i))⁻¹ := by
  have h00 : green tsm.B tsm.L 0 = (1 + prodSeq tsm.B tsm.L)⁻¹ := by
    rw [green, cyclic_seg _ (Nat.zero_le _), seg_self, Matrix.one_mul, seg_zero]
  -- first column
  obtain ⟨T, e3, v3⟩ := fill_loop (N := N) (L := tsm.L) (tau0Step tsm tsm.L H') (tallAt N tsm.L)
    (fun i => seg tsm.B i 0 * green tsm.B tsm.L 0) (by
      intro i hi G hG
      rw [tau0Step]
      by_cases hm : i % tsm.prodBlen = 0
      · obtain ⟨h1, h2⟩ := block_of_mod tsm hd hi hm
        obtain ⟨G', s1, s2, s3⟩ := save_tall G hi (gfun tsm.B tsm.L i 0)
        refine ⟨G', ?_, ?_, s3⟩
        · simp only [if_pos hm, Option.bind_eq_bind]
          refine (Option.bind_eq_some_iff).2 ⟨_, load_one r h1 (show 0 < tsm.numBprod by omega)
            (by push_cast; ring), ?_⟩
          rw [h2, Nat.zero_mul]
          exact s1
        · rw [s2, gfun, if_pos (Nat.zero_le _)]
      · have hi0 : 0 < i := Nat.pos_of_ne_zero fun h => hm (by rw [h, Nat.zero_mod])
        obtain ⟨k, rfl⟩ : ∃ k, i = k + 1 := ⟨i - 1, by omega⟩
        obtain ⟨G', s1, s2, s3⟩ := save_tall G hi (tsm.B k * tallAt N tsm.L G k)
        refine ⟨G', ?_, ?_, s3⟩
        · simp only [if_neg hm, Option.bind_eq_bind, Nat.add_sub_cancel]
          refine (Option.bind_eq_some_iff).2 ⟨_, ?_, s1⟩
          rw [← load_tall G (show k < tsm.L by omega)]
          congr 1
          push_cast
          ring
        · rw [s2, hG k (by omega), ← Matrix.mul_assoc, ← seg_succ _ (Nat.zero_le k)])
    old.Gtau0 tsm.L le_rfl
  -- first row
  obtain ⟨Z, e4, v4⟩ := fill_loop (N := N) (L := tsm.L) (zerotauStep tsm tsm.L H') (seqAt N)
    (fun i => gfun tsm.B tsm.L 0 i) (by
      intro i hi G hG
      rw [zerotauStep]
      have hrow : ∀ j, 0 < j → j ≤ tsm.L →
          gfun tsm.B tsm.L 0 j = -(green tsm.B tsm.L 0 * seg tsm.B tsm.L j) := by
        intro j hj hj'
        rw [gfun, if_neg (by omega), seg_self, Matrix.one_mul, seg_green _ hj' hdet]
      by_cases hm : i % tsm.prodBlen = 0
      · obtain ⟨h1, h2⟩ := block_of_mod tsm hd hi hm
        obtain ⟨G', s1, s2, s3⟩ := save_seq G hi (gfun tsm.B tsm.L 0 i)
        refine ⟨G', ?_, s2, s3⟩
        simp only [if_pos hm, Option.bind_eq_bind]
        refine (Option.bind_eq_some_iff).2 ⟨_, load_one r (show 0 < tsm.numBprod by omega) h1
          (by push_cast; ring), ?_⟩
        rw [h2, Nat.zero_mul]
        exact s1
      · have hi0 : 0 < i := Nat.pos_of_ne_zero fun h => hm (by rw [h, Nat.zero_mod])
        obtain ⟨k, rfl⟩ : ∃ k, i = k + 1 := ⟨i - 1, by omega⟩
        have hB := hinv k (by omega)
        have hstep : seg tsm.B tsm.L k * tsm.invB k = seg tsm.B tsm.L (k + 1) := by
          rw [← seg_mul tsm.B (Nat.le_succ k) (show k + 1 ≤ tsm.L by omega), seg_one, Matrix.mul_assoc,
            hB, Matrix.mul_one]
        by_cases hi1 : k + 1 = 1
        · have hk : k = 0 := by omega
          subst hk
          obtain ⟨G', s1, s2, s3⟩ := save_seq G hi
            ((gfun tsm.B tsm.L 0 0 - 1) * tsm.invB 0)
          refine ⟨G', ?_, ?_, s3⟩
          · simp only [if_neg hm, Option.bind_eq_bind]
            refine (Option.bind_eq_some_iff).2 ⟨_, load_one r (i := 0) (j := 0)
              (show 0 < tsm.numBprod by omega) (show 0 < tsm.numBprod by omega)
              (by push_cast; ring), ?_⟩
            simp only [Nat.zero_mul]
            exact s1
          · have h2 := green_mul tsm.B (Nat.zero_le tsm.L) hdet
            rw [seg_self, Matrix.one_mul] at h2
            have h3 : gfun tsm.B tsm.L 0 0 - 1 = -(green tsm.B tsm.L 0 * seg tsm.B tsm.L 0) := by
              rw [gfun, if_pos le_rfl, seg_self, Matrix.one_mul]
              exact sub_eq_iff_eq_add.2 (by rw [← h2]; abel)
            rw [s2, h3, Matrix.neg_mul, Matrix.mul_assoc, hstep, hrow _ (by omega) (by omega)]
        · obtain ⟨G', s1, s2, s3⟩ := save_seq G hi (seqAt N G k * tsm.invB k)
          refine ⟨G', ?_, ?_, s3⟩
          · simp only [if_neg hm, if_neg hi1, Option.bind_eq_bind, Nat.add_sub_cancel]
            refine (Option.bind_eq_some_iff).2 ⟨_, ?_, s1⟩
            rw [← load_seq G (show k < tsm.L by omega)]
            congr 1
            push_cast
            ring
          · rw [s2, hG k (by omega), hrow k (by omega) (by omega), Matrix.neg_mul, Matrix.mul_assoc,
              hstep, hrow _ (by omega) (by omega)])
    old.G0tau tsm.L le_rfl
  -- diagonal
  obtain ⟨E, e5, v5⟩ := fill_loop (N := N) (L := tsm.L) (eqltStep tsm tsm.L H') (seqAt N)
    (fun i => green tsm.B tsm.L i) (by
      intro i hi G hG
      rw [eqltStep]
      by_cases hm : i % tsm.prodBlen = 0
      · obtain ⟨h1, h2⟩ := block_of_mod tsm hd hi hm
        obtain ⟨G', s1, s2, s3⟩ := save_seq G hi (gfun tsm.B tsm.L i i)
        refine ⟨G', ?_, ?_, s3⟩
        · simp only [if_pos hm, Option.bind_eq_bind]
          refine (Option.bind_eq_some_iff).2 ⟨_, load_one r h1 h1 (by push_cast; ring), ?_⟩
          rw [h2]
          exact s1
        · rw [s2, gfun, if_pos le_rfl, seg_self, Matrix.one_mul]
      · have hi0 : 0 < i := Nat.pos_of_ne_zero fun h => hm (by rw [h, Nat.zero_mod])
        obtain ⟨k, rfl⟩ : ∃ k, i = k + 1 := ⟨i - 1, by omega⟩
        obtain ⟨G', s1, s2, s3⟩ := save_seq G hi
          (timeSliceWrap (tsm.B k) (tsm.invB k) (seqAt N G k))
        refine ⟨G', ?_, ?_, s3⟩
        · simp only [if_neg hm, Option.bind_eq_bind, Nat.add_sub_cancel]
          refine (Option.bind_eq_some_iff).2 ⟨_, ?_, s1⟩
          rw [← load_seq G (show k < tsm.L by omega)]
          congr 1
          push_cast
          ring
        · rw [s2, hG k (by omega), green,
            (timeSliceWrap_spec tsm.B tsm.invB tsm.L k (by omega) (hinv k (by omega))).1,
            Nat.mod_eq_of_lt (by omega), green])
    old.Geqlt tsm.L le_rfl
  refine ⟨⟨T, Z, E⟩, e3, e4, e5, fun i hi => ⟨?_, ?_, ?_⟩⟩
  · show tallAt N tsm.L T i = _
    rw [v3 i hi, seg_zero, h00]
  · show seqAt N Z i = _
    rw [v4 i hi, gfun]
    by_cases h0 : i = 0
    · subst h0
      rw [if_pos le_rfl, if_pos rfl, seg_self, Matrix.one_mul, h00]
    · rw [if_neg (by omega), if_neg h0, seg_self, Matrix.one_mul, seg_green _ (by omega) hdet, h00, seg]
  · show seqAt N E i = _
    rw [v5 i hi, green, cyclic_seg _ (by omega), seg_zero, seg]

/-- C44: with fresh products and at least two blocks, the arrays hold the Green's functions
`G(τ,0) = B (τ-1) ... B 0 G(0,0)`, `G(0,τ) = -G(0,0) B (L-1) ... B τ` and
`G(τ,τ) = (1 + B (τ-1) ... B 0 B (L-1) ... B τ)⁻¹` for every `τ`, whatever the QR routine and the
previous content of the arrays. -/
theorem compute_spec (alg : QRs N) (tsm : TSM N) (hd : Dims tsm) (hf : Fresh tsm)
    (hp : 2 ≤ tsm.numBprod) (hinv : ∀ l < tsm.L, tsm.B l * tsm.invB l = 1)
    (hdet : (1 + cyclicProd tsm.B tsm.L 0).det ≠ 0) (tau : Buf) (old : Arrays) :
    ∃ A, compute alg tsm tsm.L tau old = some A ∧ ∀ i < tsm.L,
      tallAt N tsm.L A.Gtau0 i = prodSeq tsm.B i * (1 + prodSeq tsm.B tsm.L)⁻¹ ∧
      seqAt N A.G0tau i = (if i = 0 then (1 + prodSeq tsm.B tsm.L)⁻¹ else
        -((1 + prodSeq tsm.B tsm.L)⁻¹ * prodSeq (fun l => tsm.B (i + l)) (tsm.L - i))) ∧
      seqAt N A.Geqlt i
        = (1 + prodSeq tsm.B i * prodSeq (fun l => tsm.B (i + l)) (tsm.L - i))⁻¹ := by
  obtain ⟨H, H', e1, e2, r⟩ := inverse_rep alg tsm hd hf hp hdet tau
  obtain ⟨A, e3, e4, e5, v⟩ := arrays_spec tsm hd hp hinv hdet r old
  refine ⟨A, ?_, v⟩
  unfold compute
  simp only [Option.bind_eq_bind, Option.pure_def]
  refine (Option.bind_eq_some_iff).2 ⟨_, e1, ?_⟩
  refine (Option.bind_eq_some_iff).2 ⟨_, e2, ?_⟩
  refine (Option.bind_eq_some_iff).2 ⟨_, e3, ?_⟩
  refine (Option.bind_eq_some_iff).2 ⟨_, e4, ?_⟩
  exact (Option.bind_eq_some_iff).2 ⟨_, e5, rfl⟩

/-! ## Use in the measurements -/

/-- the exact Green's functions of the matrices `B 0, ..., B (L-1)` -/
noncomputable def exactG (B : ℕ → Mat N) (L : ℕ) : Measurement.TimeG N where
  t0 i := prodSeq B i * (1 + prodSeq B L)⁻¹
  zt i := if i = 0 then (1 + prodSeq B L)⁻¹ else
    -((1 + prodSeq B L)⁻¹ * prodSeq (fun l => B (i + l)) (L - i))
  eq i := (1 + prodSeq B i * prodSeq (fun l => B (i + l)) (L - i))⁻¹

theorem exactG_start (B : ℕ → Mat N) (L : ℕ) : (exactG B L).Start := by
  have : prodSeq (fun l => B (0 + l)) (L - 0) = prodSeq B L := seg_zero B L
  constructor
  · simp only [exactG]
    rw [this, prodSeq, Matrix.one_mul, Matrix.one_mul]
  · simp only [exactG]
    rw [this, if_pos trivial, prodSeq, Matrix.one_mul]

theorem toCur_eq (A : Arrays) (g : Measurement.TimeG N) (L : ℕ)
    (h : ∀ i < L, tallAt N L A.Gtau0 i = g.t0 i ∧ seqAt N A.G0tau i = g.zt i ∧
      seqAt N A.Geqlt i = g.eq i) : A.toCur N L = g.cur L := by
  have hseq : ∀ (G : Buf) (M : ℕ → Mat N), (∀ i < L, seqAt N G i = M i) → ∀ z : ℤ,
      (if 0 ≤ z ∧ z < (L * N * N : ℕ) then some (G z.toNat) else none)
        = Measurement.cube L M (z / N / N) (z % N) (z / N % N) := by
    intro G M hM z
    rw [Measurement.cube]
    by_cases hz : 0 ≤ z ∧ z < (L * N * N : ℕ)
    · obtain ⟨w, rfl⟩ := Int.eq_ofNat_of_zero_le hz.1
      have hw : w < L * N * N := by exact_mod_cast hz.2
      have hN : 0 < N := Nat.pos_of_ne_zero fun h0 => by rw [h0, Nat.mul_zero] at hw; omega
      have h1 : w % N < N := Nat.mod_lt _ hN
      have h2 : w / N % N < N := Nat.mod_lt _ hN
      have h3 : w / N / N < L := Nat.div_lt_of_lt_mul (Nat.div_lt_of_lt_mul (by
        rw [mul_comm N L, mul_comm N]; exact hw))
      have e1 : ((w : ℤ) % N) = ((w % N : ℕ) : ℤ) := by push_cast; rfl
      have e2 : ((w : ℤ) / N % N) = ((w / N % N : ℕ) : ℤ) := by push_cast; rfl
      have e3 : ((w : ℤ) / N / N) = ((w / N / N : ℕ) : ℤ) := by push_cast; rfl
      rw [if_pos hz, dif_pos (by
        rw [e1, e2, e3]
        exact ⟨⟨by positivity, by exact_mod_cast h1⟩, ⟨by positivity, by exact_mod_cast (by assumption)⟩,
          by positivity, by exact_mod_cast (by assumption)⟩)]
      congr 1
      have key := congrFun (congrFun (hM _ h3) ⟨w % N, h1⟩) ⟨w / N % N, h2⟩
      simp only [e1, e2, e3, Int.toNat_natCast]
      rw [← key]
      show G _ = G _
      congr 1
      have d1 := Nat.div_add_mod w N
      have d2 := Nat.div_add_mod (w / N) N
      calc w = N * (w / N) + w % N := d1.symm
        _ = N * (N * (w / N / N) + w / N % N) + w % N := by rw [d2]
        _ = w / N / N * N * N + w % N + N * (w / N % N) := by ring
    · rw [if_neg hz, dif_neg]
      rintro ⟨⟨h1, h2⟩, ⟨h3, h4⟩, h5, h6⟩
      apply hz
      have hN : (0 : ℤ) < N := by omega
      have d1 := Int.mul_ediv_add_emod z N
      have d2 := Int.mul_ediv_add_emod (z / N) N
      have hz0 : z / N / N + 1 ≤ L := by omega
      have m1 : (0 : ℤ) ≤ N * (z / N / N) := by positivity
      have m2 : (0 : ℤ) ≤ N * (z / N) := Int.mul_nonneg hN.le (by omega)
      have m3 : (N : ℤ) * (z / N / N + 1) ≤ N * L := Int.mul_le_mul_of_nonneg_left hz0 hN.le
      have m4 : z / N + 1 ≤ N * L := by rw [mul_add, mul_one] at m3; omega
      have m5 : (N : ℤ) * (z / N + 1) ≤ N * (N * L) := Int.mul_le_mul_of_nonneg_left m4 hN.le
      have e : (N : ℤ) * (N * L) = ((L * N * N : ℕ) : ℤ) := by push_cast; ring
      rw [mul_add, mul_one, e] at m5
      constructor
      · omega
      · omega
  have htall : ∀ (G : Buf) (M : ℕ → Mat N), (∀ i < L, tallAt N L G i = M i) → ∀ z : ℤ,
      (if 0 ≤ z ∧ z < (L * N * N : ℕ) then some (G z.toNat) else none)
        = Measurement.cube L M (z / N % L) (z % N) (z / N / L) := by
    intro G M hM z
    rw [Measurement.cube]
    by_cases hz : 0 ≤ z ∧ z < (L * N * N : ℕ)
    · obtain ⟨w, rfl⟩ := Int.eq_ofNat_of_zero_le hz.1
      have hw : w < L * N * N := by exact_mod_cast hz.2
      have hN : 0 < N := Nat.pos_of_ne_zero fun h0 => by rw [h0, Nat.mul_zero] at hw; omega
      have hL : 0 < L := Nat.pos_of_ne_zero fun h0 => by
        rw [h0, Nat.zero_mul, Nat.zero_mul] at hw; omega
      have h1 : w % N < N := Nat.mod_lt _ hN
      have h2 : w / N % L < L := Nat.mod_lt _ hL
      have h3 : w / N / L < N := Nat.div_lt_of_lt_mul (Nat.div_lt_of_lt_mul (by
        rw [mul_comm N (L * N)]; exact hw))
      have e1 : ((w : ℤ) % N) = ((w % N : ℕ) : ℤ) := by push_cast; rfl
      have e2 : ((w : ℤ) / N % L) = ((w / N % L : ℕ) : ℤ) := by push_cast; rfl
      have e3 : ((w : ℤ) / N / L) = ((w / N / L : ℕ) : ℤ) := by push_cast; rfl
      rw [if_pos hz, dif_pos (by
        rw [e1, e2, e3]
        exact ⟨⟨by positivity, by exact_mod_cast h1⟩, ⟨by positivity, by exact_mod_cast (by assumption)⟩,
          by positivity, by exact_mod_cast (by assumption)⟩)]
      congr 1
      have key := congrFun (congrFun (hM _ h2) ⟨w % N, h1⟩) ⟨w / N / L, h3⟩
      simp only [e1, e2, e3, Int.toNat_natCast]
      rw [← key]
      show G _ = G _
      congr 1
      have d1 := Nat.div_add_mod w N
      have d2 := Nat.div_add_mod (w / N) L
      calc w = N * (w / N) + w % N := d1.symm
        _ = N * (L * (w / N / L) + w / N % L) + w % N := by rw [d2]
        _ = w / N % L * N + w % N + L * N * (w / N / L) := by ring
    · rw [if_neg hz, dif_neg]
      rintro ⟨⟨h1, h2⟩, ⟨h3, h4⟩, h5, h6⟩
      apply hz
      have hN : (0 : ℤ) < N := by omega
      have hL : (0 : ℤ) < L := by omega
      have d1 := Int.mul_ediv_add_emod z N
      have d2 := Int.mul_ediv_add_emod (z / N) L
      have hz0 : z / N / L + 1 ≤ N := by omega
      have m1 : (0 : ℤ) ≤ L * (z / N / L) := Int.mul_nonneg hL.le h3
      have m2 : (0 : ℤ) ≤ N * (z / N) := Int.mul_nonneg hN.le (by omega)
      have m3 : (L : ℤ) * (z / N / L + 1) ≤ L * N := Int.mul_le_mul_of_nonneg_left hz0 hL.le
      have m4 : z / N + 1 ≤ L * N := by rw [mul_add, mul_one] at m3; omega
      have m5 : (N : ℤ) * (z / N + 1) ≤ N * (L * N) := Int.mul_le_mul_of_nonneg_left m4 hN.le
      have e : (N : ℤ) * (L * N) = ((L * N * N : ℕ) : ℤ) := by push_cast; ring
      rw [mul_add, mul_one, e] at m5
      constructor
      · omega
      · omega
  unfold Arrays.toCur Measurement.TimeG.cur Measurement.Cur.ofMats
  congr 1
  · funext z; exact htall _ _ (fun i hi => (h i hi).1) z
  · funext z; exact hseq _ _ (fun i hi => (h i hi).2.1) z
  · funext z; exact hseq _ _ (fun i hi => (h i hi).2.2) z

/-- what the measurement functions read is the exact set of Green's functions -/
theorem compute_toCur (alg : QRs N) (tsm : TSM N) (hd : Dims tsm) (hf : Fresh tsm)
    (hp : 2 ≤ tsm.numBprod) (hinv : ∀ l < tsm.L, tsm.B l * tsm.invB l = 1)
    (hdet : (1 + cyclicProd tsm.B tsm.L 0).det ≠ 0) (tau : Buf) (old : Arrays) :
    ∃ A, compute alg tsm tsm.L tau old = some A ∧ A.toCur N tsm.L = (exactG tsm.B tsm.L).cur tsm.L := by
  obtain ⟨A, h1, h2⟩ := compute_spec alg tsm hd hf hp hinv hdet tau old
  exact ⟨A, h1, toCur_eq A _ _ h2⟩

/-- with a single block the computation leaves the arrays (C12) -/
theorem compute_one (alg : QRs N) (hN : 0 < N) (tsm : TSM N) (hp : tsm.numBprod = 1) (L : ℕ) (tau : Buf)
    (old : Arrays) : compute alg tsm L tau old = none := by
  unfold compute
  cases h : buildH tsm with
  | none => rfl
  | some H =>
    rw [hp, Option.bind_eq_bind, Option.bind_some, blockCyclicInverse_one alg hN]
    rfl

/-- non-vacuity: for two slices with different, non-commuting matrices -/
example (alg : QRs 2) (tau : Buf) (old : Arrays) :
    let B : ℕ → Mat 2 := fun l => if l = 0 then !![1, 1; 0, 1] else !![1, 0; 1, 1]
    let invB : ℕ → Mat 2 := fun l => if l = 0 then !![1, -1; 0, 1] else !![1, 0; -1, 1]
    ∃ A, compute alg ⟨B, invB, B, 2, 1, 2⟩ 2 tau old = some A ∧
      tallAt 2 2 A.Gtau0 1 = !![1, 1; 0, 1] * (1 + !![1, 0; 1, 1] * !![1, 1; 0, 1])⁻¹ := by
  intro B invB
  have hc : cyclicProd B 2 0 = !![1, 0; 1, 1] * !![1, 1; 0, 1] := by
    simp [cyclicProd, prodSeq, B]
  obtain ⟨A, h1, h2⟩ := compute_spec alg ⟨B, invB, B, 2, 1, 2⟩ ⟨by norm_num, by norm_num, by norm_num⟩
    (fun m _ => by simp [FreshAt, prodSeq]) le_rfl
    (fun l _ => by
      simp only [B, invB]
      split <;> · ext i j; fin_cases i <;> fin_cases j <;> simp [Matrix.mul_apply, Fin.sum_univ_two])
    (by
      show (1 + cyclicProd B 2 0).det ≠ 0
      rw [hc, det_fin_two]
      simp
      norm_num)
    tau old
  refine ⟨A, h1, ?_⟩
  rw [(h2 1 (by norm_num)).1]
  simp [prodSeq, B]

end Verif.GreensUneq
