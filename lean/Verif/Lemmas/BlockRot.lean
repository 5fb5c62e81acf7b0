import Verif.Lemmas.BlockTri

/-! # The rotations of the block cyclic inversion -/

set_option autoImplicit false

namespace Verif.BlockCyclic

open Matrix Verif.Lapack

variable {n p b c : ℕ}

theorem view_store {m k ld : ℕ} (A : Buf) (x : ℕ) (hm : m ≤ ld) (M : Matrix (Fin m) (Fin k) ℝ) :
    view (store A x ld M) x ld m k = M := by
  ext i j
  have hi := i.2
  have hj := j.2
  have e : x + i + ld * j - x = i + ld * j := by omega
  have h1 : (x + i.val + ld * j.val - x) % ld = i := by
    rw [e, Nat.add_mul_mod_self_left, Nat.mod_eq_of_lt (by omega)]
  have h2 : (x + i.val + ld * j.val - x) / ld = j := by
    rw [e, Nat.add_mul_div_left _ _ (by omega), Nat.div_eq_of_lt (by omega), zero_add]
  rw [view, of_apply, store, dif_pos ⟨by omega, by omega, by omega⟩]
  have g1 : (⟨(x + i.val + ld * j.val - x) % ld, by rw [h1]; exact hi⟩ : Fin m) = i := Fin.ext h1
  have g2 : (⟨(x + i.val + ld * j.val - x) / ld, by rw [h2]; exact hj⟩ : Fin k) = j := Fin.ext h2
  exact congrArg₂ M g1 g2

theorem fits_Q (hb : b ≤ 2) : Fits (4 * n * n) 0 (2 * n) (2 * n) (b * n) := by
  refine ⟨le_rfl, fun h1 h2 => ?_⟩
  have h3 : b * n ≤ 2 * n := Nat.mul_le_mul_right _ hb
  have h4 : (2 * n) * (b * n - 1) ≤ (2 * n) * (2 * n - 1) := Nat.mul_le_mul_left _ (by omega)
  have h5 : (2 * n) * (2 * n - 1) + 2 * n = 4 * n * n := by
    rw [← Nat.mul_succ, Nat.succ_eq_add_one, Nat.sub_add_cancel (by omega)]
    ring
  have h6 : 2 * n - 1 + (2 * n) * (b * n - 1) < 4 * n * n := by omega
  rw [zero_add]
  exact_mod_cast h6

theorem moveLower_block (hb : b ≤ 2) {A : Buf} (Q : Buf) {f : ℕ → ℕ → Mat n} (hA : Rep p A f) {i : ℕ}
    (hi : i + 2 ≤ p) {z : ℤ} (hz : z = (i + (n * p : ℕ) * i) * n) :
    ∃ A' Q' F, moveLower (2 * n) (b * n) ((n * p) * (n * p)) (4 * n * n) A Q z (n * p) (2 * n)
        = some (A', Q') ∧
      Rep p A' (patch f i i 2 b (blk (upper (mk 2 b fun r s => f (i + r) (i + s))))) ∧
      load (4 * n * n) Q' 0 (2 * n) (2 * n) (b * n) = some F ∧
      ∀ (r : Fin (2 * n)) (s : Fin (b * n)), s.val < r.val →
        F r s = mk 2 b (fun r s => f (i + r) (i + s)) r s := by
  set M := mk 2 b (fun r s => f (i + r) (i + s)) with hM
  have hup : (Matrix.of fun (r : Fin (2 * n)) (s : Fin (b * n)) => if s.val < r.val then 0 else M r s)
      = upper M := by
    ext r s
    rw [upper, of_apply, of_apply]
    by_cases h : s.val < r.val
    · rw [if_pos h, if_neg (by omega)]
    · rw [if_neg h, if_pos (by omega)]
  obtain ⟨A', e, r⟩ := save_block hA hi (by omega : i + b ≤ p) hz (upper M)
  refine ⟨A', store Q 0 (2 * n) (Matrix.of fun (r : Fin (2 * n)) (s : Fin (b * n)) =>
    if s.val < r.val then M r s else view Q 0 (2 * n) (2 * n) (b * n) r s), _, ?_, r,
    if_pos (fits_Q hb), ?_⟩
  · unfold moveLower
    have q : load (4 * n * n) Q 0 (2 * n) (2 * n) (b * n) = some (view Q 0 (2 * n) (2 * n) (b * n)) :=
      if_pos (fits_Q hb)
    have q' : ∀ K : Matrix (Fin (2 * n)) (Fin (b * n)) ℝ,
        save (4 * n * n) Q 0 (2 * n) K = some (store Q 0 (2 * n) K) := fun K => if_pos (fits_Q hb)
    simp only [Option.bind_eq_bind, load_block hA 2 b hi (by omega) hz, ← hM, Option.bind_some, q, q',
      hup, e]
    rfl
  · intro r s hrs
    rw [Int.toNat_zero, view_store _ _ le_rfl, of_apply, if_pos hrs]

theorem dormqrR_block (k : ℕ) {A Q tau : Buf} {f : ℕ → ℕ → Mat n} (hA : Rep p A f) {i : ℕ}
    (hi : i + 2 ≤ p) (hk : i + k ≤ p) {t z : ℤ} (ht : t = (i : ℤ) * n) (hz : z = ((n * p : ℕ) * i) * n)
    {F : Matrix (Fin (2 * n)) (Fin (k * n)) ℝ}
    (hF : load (4 * n * n) Q 0 (2 * n) (2 * n) (k * n) = some F) {G : Mat (2 * n)}
    (hG : qMat F (tauAt tau i k) = G) :
    ∃ A', dormqrR (p * n) (2 * n) (k * n) ((n * p) * (n * p)) (4 * n * n) (n * p) A Q tau t z (2 * n)
        (n * p) = some A' ∧
      Rep p A' fun x y => if i ≤ y ∧ y < i + 2 then
        f x i * blk Gᵀ 0 (y - i) + f x (i + 1) * blk Gᵀ 1 (y - i) else f x y := by
  have hz' : z = ((0 : ℕ) + (n * p : ℕ) * (i : ℤ)) * n := by rw [hz]; push_cast; ring
  obtain ⟨A', e, r⟩ := save_block hA (i₀ := 0) (a := p) (by omega) hi hz'
    ((mk p 2 fun r s => f (0 + r) (i + s)) * Gᵀ)
  refine ⟨A', ?_, r.congr fun x hx y hy => ?_⟩
  · unfold dormqrR
    simp only [Option.bind_eq_bind, hF, ht, loadTau_eq tau k hk, Option.bind_some,
      load_block hA p 2 (i₀ := 0) (by omega) hi hz', hG, e]
  · rw [patch]
    by_cases h : i ≤ y ∧ y < i + 2
    · rw [if_pos ⟨by omega, h⟩, if_pos h, blk_mk_mul _ _ (by omega) (by omega)]
      simp only [Nat.sub_zero, zero_add, add_zero]
    · rw [if_neg (fun h' => h h'.2), if_neg h]

/-- the entries of the reflectors survive the triangular inversion -/
theorem qMat_sameLower {f g : ℕ → ℕ → Mat n} {i : ℕ} (tau : Fin (b * n) → ℝ)
    (F : Matrix (Fin (2 * n)) (Fin (b * n)) ℝ)
    (hF : ∀ (r : Fin (2 * n)) (s : Fin (b * n)), s.val < r.val →
      F r s = mk 2 b (fun r s => f (i + r) (i + s)) r s)
    (h : ∀ r < 2, ∀ s < b, s < r → f (i + r) (i + s) = g (i + r) (i + s))
    (h' : ∀ r < 2, r < b → ∀ u v : Fin n, v.val < u.val → f (i + r) (i + r) u v = g (i + r) (i + r) u v) :
    qMat F tau = qMat (mk 2 b fun r s => g (i + r) (i + s)) tau := by
  refine qMat_congr tau fun r s hrs => ?_
  rw [hF r s hrs]
  obtain ⟨⟨x, u⟩, rfl⟩ := finProdFinEquiv.surjective r
  obtain ⟨⟨y, v⟩, rfl⟩ := finProdFinEquiv.surjective s
  rw [mk_apply, mk_apply]
  have hn : ¬ ((finProdFinEquiv (x, u)).val ≤ (finProdFinEquiv (y, v)).val) := by omega
  rw [val_lt_iff] at hn
  rcases lt_or_ge y.val x.val with hxy | hxy
  · rw [h x x.2 y y.2 hxy]
  · have e : x.val = y.val := by omega
    have hx : x.val < b := by rw [e]; exact y.2
    rw [← e]
    exact h' x x.2 hx u v (by omega)

theorem P_orthogonal {f : ℕ → ℕ → Mat n} {tau : Buf} (i : ℕ) (hi : i + 1 ≤ p)
    (good : ∀ k < i, GoodTau (mk 2 1 fun r s => f (k + r) (k + s)) (tauAt tau k 1)) :
    (P p f tau i)ᵀ * P p f tau i = 1 := by
  induction i with
  | zero => rw [P, Matrix.transpose_one, Matrix.one_mul]
  | succ i ih =>
    rw [P, Matrix.transpose_mul, Matrix.mul_assoc, ← Matrix.mul_assoc _ (P p f tau i),
      ih (by omega) (fun k hk => good k (by omega)), Matrix.one_mul, E_transpose, E_mul_E (by omega),
      Qof, qMat_orthogonal (good i (by omega)), E_one]

structure RotInv (p : ℕ) (f f' : ℕ → ℕ → Mat n) (tau : Buf) (Y : Mat (p * n)) (i : ℕ)
    (g : ℕ → ℕ → Mat n) : Prop where
  left : ∀ x < p, ∀ y < i, g x y = f' x y
  eq : mk p p (rpart i g) * (P p f tau i)ᵀ = Y

/-- after the strictly lower part has been moved, the columns hold the upper triangle -/
theorem patch_upper (f : ℕ → ℕ → Mat n) (i : ℕ) {x y : ℕ} (hb : b ≤ 2) (hy : i ≤ y) (hy' : y < i + b)
    (h : i + 2 ≤ x → f x y = 0) :
    patch f i i 2 b (blk (upper (mk 2 b fun r s => f (i + r) (i + s)))) x y = triu f x y := by
  rw [patch]
  by_cases hx : i ≤ x ∧ x < i + 2
  · rw [if_pos ⟨hx, hy, hy'⟩, upper_mk, blk_mk _ (by omega) (by omega)]
    obtain ⟨r, rfl⟩ := Nat.exists_eq_add_of_le hx.1
    obtain ⟨s, rfl⟩ := Nat.exists_eq_add_of_le hy
    simp only [Nat.add_sub_cancel_left, triu, add_lt_add_iff_left, add_right_inj]
  · rw [if_neg (fun h' => hx h'.1)]
    rcases lt_or_ge x i with hlt | hge
    · rw [triu_of_lt f (by omega)]
    · rw [h (by omega), triu_of_gt f (by omega)]

theorem rotStep_inv {f₀ f f' : ℕ → ℕ → Mat n} {tau : Buf} (hQ : QRDone p f₀ f tau)
    (hs : SameLower f' f) {Y : Mat (p * n)} {i : ℕ} (hi : i < p - 2) {A Q : Buf} {g : ℕ → ℕ → Mat n}
    (hA : Rep p A g) (h : RotInv p f f' tau Y (i + 1) g) :
    ∃ A' Q' g', rotStep n p tau (A, Q) i = some (A', Q') ∧ Rep p A' g' ∧ RotInv p f f' tau Y i g' := by
  obtain ⟨A1, Q1, F, e1, r1, l1, v1⟩ := moveLower_block (b := 1) (by omega) Q hA (i := i) (by omega)
    (z := (1 + (n * p : ℕ)) * i * n) (by ring)
  have hG : qMat F (tauAt tau i 1) = Qof f tau i := by
    refine qMat_sameLower (f := g) _ F v1 ?_ ?_
    · intro r hr s hs' hsr
      rw [h.left _ (by omega) _ (by omega), hs.off _ _ (by omega)]
    · intro r hr hr' u v huv
      rw [h.left _ (by omega) _ (by omega), hs.diag _ _ _ huv]
  obtain ⟨A2, e2, r2⟩ := dormqrR_block 1 r1 (i := i) (by omega) (by omega)
    (t := (i : ℤ) * n) rfl (z := (n * p : ℕ) * i * n) rfl l1 hG
  have hcol : ∀ x < p, patch g i i 2 1 (blk (upper (mk 2 1 fun r s => g (i + r) (i + s)))) x i
      = triu g x i := by
    intro x hx
    refine patch_upper g i (by omega) le_rfl (by omega) fun h2 => ?_
    rw [h.left x hx i (by omega), hs.off x i (by omega), hQ.below x i hx (by omega)]
  have hoth : ∀ x y, y ≠ i → patch g i i 2 1 (blk (upper (mk 2 1 fun r s => g (i + r) (i + s)))) x y
      = g x y := by
    intro x y hy
    rw [patch, if_neg (by omega)]
  refine ⟨A2, Q1, _, ?_, r2, ?_, ?_⟩
  · unfold rotStep
    simp only [Option.bind_eq_bind, Option.pure_def]
    refine (Option.bind_eq_some_iff).2 ⟨_, e1, ?_⟩
    exact (Option.bind_eq_some_iff).2 ⟨_, e2, rfl⟩
  · intro x hx y hy
    rw [if_neg (by omega), hoth x y (by omega), h.left x hx y (by omega)]
  · rw [← h.eq, P, Matrix.transpose_mul, E_transpose, ← Matrix.mul_assoc, mul_E (by omega)]
    congr 1
    refine mk_congr fun x hx y hy => ?_
    simp only [rpart]
    by_cases hy' : i ≤ y ∧ y < i + 2
    · rw [if_neg (by omega), if_pos hy', if_pos hy', hcol x hx, hoth x (i + 1) (by omega),
        if_pos (by omega), if_neg (by omega)]
    · by_cases hlt : y < i
      · rw [if_pos hlt, if_neg hy', if_pos (by omega), triu, triu, if_neg hy', hoth x y (by omega)]
      · rw [if_neg hlt, if_neg hy', if_neg hy', if_neg (by omega), hoth x y (by omega)]

theorem rotLoop_inv {f₀ f f' : ℕ → ℕ → Mat n} {tau : Buf} (hQ : QRDone p f₀ f tau)
    (hs : SameLower f' f) {Y : Mat (p * n)} (m : ℕ) (hm : m ≤ p - 2) {A Q : Buf} {g : ℕ → ℕ → Mat n}
    (hA : Rep p A g) (h : RotInv p f f' tau Y m g) :
    ∃ s g', (List.range m).reverse.foldlM (rotStep n p tau) (A, Q) = some s ∧ Rep p s.1 g' ∧
      RotInv p f f' tau Y 0 g' := by
  induction m generalizing A Q g with
  | zero => exact ⟨(A, Q), g, rfl, hA, h⟩
  | succ m ih =>
    obtain ⟨A1, Q1, g1, e1, r1, i1⟩ := rotStep_inv hQ hs (by omega) (Q := Q) hA h
    obtain ⟨s, g2, e2, r2, i2⟩ := ih (by omega) (Q := Q1) r1 i1
    refine ⟨s, g2, ?_, r2, i2⟩
    rw [List.range_succ, List.reverse_append, List.reverse_singleton, List.singleton_append,
      List.foldlM_cons, e1]
    exact e2

theorem blockCyclicRot_done {f₀ f f' : ℕ → ℕ → Mat n} {tau : Buf} (hp : 2 ≤ p) (hQ : QRDone p f₀ f tau)
    (hs : SameLower f' f) {A : Buf} (hA : Rep p A f') :
    ∃ A' g, blockCyclicRot n p A tau = some A' ∧ Rep p A' g ∧
      mk p p g = mk p p (triu f') * (P p f tau (p - 2) * E p (p - 2) (Qlast p f tau))ᵀ := by
  have hc : ((p - 2 : ℕ) : ℤ) = (p : ℤ) - 2 := by omega
  obtain ⟨A1, Q1, F, e1, r1, l1, v1⟩ := moveLower_block (b := 2) le_rfl (fun _ => 0) hA (i := p - 2)
    (by omega) (z := (1 + (n * p : ℕ)) * (p - 2) * n) (by rw [hc]; ring)
  have hG : qMat F (tauAt tau (p - 2) 2) = Qlast p f tau :=
    qMat_sameLower (f := f') _ F v1 (fun r hr s hs' hsr => hs.off _ _ (by omega))
      (fun r hr hr' u v huv => hs.diag _ _ _ huv)
  obtain ⟨A2, e2, r2⟩ := dormqrR_block 2 r1 (i := p - 2) (by omega) (by omega)
    (t := ((p : ℤ) - 2) * n) (by rw [hc]) (z := (n * p : ℕ) * (p - 2) * n) (by rw [hc]) l1 hG
  have hcol : ∀ x < p, ∀ y, p - 2 ≤ y → y < p →
      patch f' (p - 2) (p - 2) 2 2
        (blk (upper (mk 2 2 fun r s => f' (p - 2 + r) (p - 2 + s)))) x y = triu f' x y :=
    fun x hx y hy hy' => patch_upper f' _ le_rfl hy (by omega) (fun h => by omega)
  have hoth : ∀ x y, y < p - 2 → patch f' (p - 2) (p - 2) 2 2
      (blk (upper (mk 2 2 fun r s => f' (p - 2 + r) (p - 2 + s)))) x y = f' x y := by
    intro x y hy
    rw [patch, if_neg (by omega)]
  have inv : RotInv p f f' tau
      (mk p p (triu f') * (P p f tau (p - 2) * E p (p - 2) (Qlast p f tau))ᵀ) (p - 2)
      (fun x y => if p - 2 ≤ y ∧ y < p - 2 + 2 then
        patch f' (p - 2) (p - 2) 2 2
          (blk (upper (mk 2 2 fun r s => f' (p - 2 + r) (p - 2 + s)))) x (p - 2)
            * blk (Qlast p f tau)ᵀ 0 (y - (p - 2)) +
        patch f' (p - 2) (p - 2) 2 2
          (blk (upper (mk 2 2 fun r s => f' (p - 2 + r) (p - 2 + s)))) x (p - 2 + 1)
            * blk (Qlast p f tau)ᵀ 1 (y - (p - 2))
        else patch f' (p - 2) (p - 2) 2 2
          (blk (upper (mk 2 2 fun r s => f' (p - 2 + r) (p - 2 + s)))) x y) := by
    constructor
    · intro x hx y hy
      rw [if_neg (by omega), hoth x y hy]
    · rw [Matrix.transpose_mul, E_transpose, ← Matrix.mul_assoc, mul_E (by omega)]
      congr 1
      refine mk_congr fun x hx y hy => ?_
      simp only [rpart]
      by_cases hy' : p - 2 ≤ y ∧ y < p - 2 + 2
      · rw [if_neg (by omega), if_pos hy', if_pos hy', hcol x hx _ le_rfl (by omega),
          hcol x hx _ (by omega) (by omega)]
      · rw [if_pos (by omega), if_neg hy', triu, triu, if_neg hy', hoth x y (by omega)]
  obtain ⟨s, g, e3, r3, i3⟩ := rotLoop_inv hQ hs (p - 2) le_rfl (Q := Q1) r2 inv
  refine ⟨s.1, g, ?_, r3, ?_⟩
  · unfold blockCyclicRot
    simp only [Option.bind_eq_bind, Option.pure_def]
    refine (Option.bind_eq_some_iff).2 ⟨_, e1, ?_⟩
    refine (Option.bind_eq_some_iff).2 ⟨_, e2, ?_⟩
    exact (Option.bind_eq_some_iff).2 ⟨_, e3, rfl⟩
  · have h := i3.eq
    rw [P, Matrix.transpose_one, Matrix.mul_one] at h
    rw [← h]
    exact mk_congr fun x _ y _ => by rw [rpart, if_neg (by omega)]

end Verif.BlockCyclic
