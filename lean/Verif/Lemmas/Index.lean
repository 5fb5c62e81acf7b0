import Verif.Model.Index
import Mathlib.Tactic.Linarith
import Mathlib.Tactic.Ring
import Mathlib.Tactic.Push

set_option autoImplicit false

/-!
# Lemmas on 32-bit `int` arithmetic and lists of accesses
-/

namespace Verif.Index

/-- the expression is defined and has the value `x` -/
def V (e : I) (x : ℤ) : Prop := e.val = some x

/-- the expression is defined and its value lies in `0, …, u - 1` -/
def Bd (e : I) (u : ℤ) : Prop := ∃ v, V e v ∧ 0 ≤ v ∧ v < u

theorem V_coe (z : ℤ) : V (z : I) z := rfl
theorem V_zero : V (0 : I) 0 := rfl
theorem V_one : V (1 : I) 1 := rfl
theorem V_two : V (2 : I) 2 := rfl
theorem V_three : V (3 : I) 3 := rfl
theorem V_four : V (4 : I) 4 := rfl

theorem V.unique {e : I} {x y : ℤ} (h : V e x) (h' : V e y) : x = y := by
  unfold V at h h'
  rw [h] at h'
  exact Option.some.inj h'

theorem V.of_eq {e : I} {x y : ℤ} (h : V e x) (he : x = y) : V e y := he ▸ h

theorem chk_val {z : ℤ} (h1 : -maxInt - 1 ≤ z) (h2 : z ≤ maxInt) : V (chk z) z := by
  simp only [V, chk, if_pos (And.intro h1 h2)]

theorem chk_undef {z : ℤ} (h : maxInt < z) : (chk z).val = none := by
  simp only [chk]
  rw [if_neg]
  rintro ⟨-, h'⟩
  omega

theorem op_val {f : ℤ → ℤ → I} {a b : I} {x y : ℤ} (ha : V a x) (hb : V b y) : op f a b = f x y := by
  unfold V at ha hb
  simp only [op, ha, hb]

theorem add_val {a b : I} {x y : ℤ} (ha : V a x) (hb : V b y) : a + b = chk (x + y) :=
  op_val (f := fun x y => chk (x + y)) ha hb

theorem sub_val {a b : I} {x y : ℤ} (ha : V a x) (hb : V b y) : a - b = chk (x - y) :=
  op_val (f := fun x y => chk (x - y)) ha hb

theorem mul_val {a b : I} {x y : ℤ} (ha : V a x) (hb : V b y) : a * b = chk (x * y) :=
  op_val (f := fun x y => chk (x * y)) ha hb

theorem V_add {a b : I} {x y : ℤ} (ha : V a x) (hb : V b y) (h0 : 0 ≤ x + y) (h : x + y ≤ maxInt) :
    V (a + b) (x + y) := by
  rw [add_val ha hb]
  exact chk_val (by simp only [maxInt]; omega) h

theorem V_sub {a b : I} {x y : ℤ} (ha : V a x) (hb : V b y) (h0 : -maxInt ≤ x - y) (h : x - y ≤ maxInt) :
    V (a - b) (x - y) := by
  rw [sub_val ha hb]
  exact chk_val (by omega) h

theorem V_mul {a b : I} {x y : ℤ} (ha : V a x) (hb : V b y) (hx : 0 ≤ x) (hy : 0 ≤ y) (h : x * y ≤ maxInt) :
    V (a * b) (x * y) := by
  rw [mul_val ha hb]
  have := mul_nonneg hx hy
  exact chk_val (by simp only [maxInt]; omega) h

theorem V_mul3 {a b c : I} {x y z : ℤ} (ha : V a x) (hb : V b y) (hc : V c z) (hx : 0 ≤ x) (hy : 0 ≤ y)
    (hz : 1 ≤ z) (h : x * y * z ≤ maxInt) : V (a * b * c) (x * y * z) := by
  have hxy := mul_nonneg hx hy
  exact V_mul (V_mul ha hb hx hy (le_trans (le_mul_of_one_le_right hxy hz) h)) hc hxy (by omega) h

theorem V_div {a b : I} {x y : ℤ} (ha : V a x) (hb : V b y) (hx : 0 ≤ x) (hy : 0 < y) (h : x ≤ maxInt) :
    V (a / b) (x / y) := by
  have : a / b = _ := op_val (f := fun x y => if y = 0 then ⟨none⟩ else chk (Int.tdiv x y)) ha hb
  rw [this, if_neg (by omega), Int.tdiv_eq_ediv_of_nonneg hx]
  have h0 : 0 ≤ x / y := Int.ediv_nonneg hx (le_of_lt hy)
  have h1 : x / y ≤ x := Int.ediv_le_self y hx
  exact chk_val (by simp only [maxInt]; omega) (by omega)

theorem V_mod {a b : I} {x y : ℤ} (ha : V a x) (hb : V b y) (hx : 0 ≤ x) (hy : 0 < y) (h : x ≤ maxInt) :
    V (a % b) (x % y) := by
  have : a % b = _ := op_val (f := fun x y => if y = 0 then ⟨none⟩ else
    if (chk (Int.tdiv x y)).val = none then ⟨none⟩ else chk (Int.tmod x y)) ha hb
  have h0 : 0 ≤ x / y := Int.ediv_nonneg hx (le_of_lt hy)
  have h1 : x / y ≤ x := Int.ediv_le_self y hx
  have hd : (chk (Int.tdiv x y)).val = some (x / y) := by
    rw [Int.tdiv_eq_ediv_of_nonneg hx]
    exact chk_val (by simp only [maxInt]; omega) (by omega)
  rw [this, if_neg (by omega), hd, if_neg (by simp), Int.tmod_eq_emod_of_nonneg hx]
  have h2 : 0 ≤ x % y := Int.emod_nonneg x (by omega)
  have h3 : x % y ≤ x := by
    have := Int.emod_add_mul_ediv x y
    have := mul_nonneg (le_of_lt hy) h0
    omega
  exact chk_val (by simp only [maxInt]; omega) (by omega)

theorem Bd.mk {e : I} {x u : ℤ} (h : V e x) (h0 : 0 ≤ x) (h1 : x < u) : Bd e u := ⟨x, h, h0, h1⟩

theorem Bd.mono {e : I} {u w : ℤ} (h : Bd e u) (hu : u ≤ w) : Bd e w := by
  obtain ⟨v, h1, h2, h3⟩ := h
  exact ⟨v, h1, h2, by omega⟩

theorem radix_lt {x y n m : ℤ} (hx0 : 0 ≤ x) (hx : x < n) (hy0 : 0 ≤ y) (hy : y < m) : 0 ≤ x + n * y ∧ x + n * y < n * m := by
  have h1 : 0 ≤ n * y := mul_nonneg (by omega) hy0
  have h2 : n * (y + 1) ≤ n * m := mul_le_mul_of_nonneg_left (by omega) (by omega)
  rw [mul_add, mul_one] at h2
  omega

/-- `i + N*j` -/
theorem Bd.radix {i j N : I} {n m : ℤ} (hi : Bd i n) (hj : Bd j m) (hN : V N n) (h : n * m ≤ maxInt + 1) :
    Bd (i + N * j) (n * m) := by
  obtain ⟨x, hx, hx0, hxn⟩ := hi
  obtain ⟨y, hy, hy0, hym⟩ := hj
  have hr := radix_lt hx0 hxn hy0 hym
  have h1 : 0 ≤ n * y := mul_nonneg (by omega) hy0
  exact ⟨x + n * y, V_add hx (V_mul hN hy (by omega) hy0 (by omega)) hr.1 (by omega), hr.1, hr.2⟩

/-- `i + j*N` -/
theorem Bd.radix' {i j N : I} {n m : ℤ} (hi : Bd i n) (hj : Bd j m) (hN : V N n) (h : n * m ≤ maxInt + 1) :
    Bd (i + j * N) (n * m) := by
  obtain ⟨x, hx, hx0, hxn⟩ := hi
  obtain ⟨y, hy, hy0, hym⟩ := hj
  have hr := radix_lt hx0 hxn hy0 hym
  have h1 : 0 ≤ n * y := mul_nonneg (by omega) hy0
  have hm : V (j * N) (n * y) := (V_mul hy hN hy0 (by omega) (by rw [mul_comm]; omega)).of_eq (mul_comm _ _)
  exact ⟨x + n * y, V_add hx hm hr.1 (by omega), hr.1, hr.2⟩

/-- `j*N + i` -/
theorem Bd.radix'' {i j N : I} {n m : ℤ} (hi : Bd i n) (hj : Bd j m) (hN : V N n) (h : n * m ≤ maxInt + 1) :
    Bd (j * N + i) (n * m) := by
  obtain ⟨x, hx, hx0, hxn⟩ := hi
  obtain ⟨y, hy, hy0, hym⟩ := hj
  have hr := radix_lt hx0 hxn hy0 hym
  have h1 : 0 ≤ n * y := mul_nonneg (by omega) hy0
  have hm : V (j * N) (n * y) := (V_mul hy hN hy0 (by omega) (by rw [mul_comm]; omega)).of_eq (mul_comm _ _)
  exact ⟨n * y + x, V_add hm hx (by omega) (by omega), by omega, by omega⟩

/-- `N*j` -/
theorem Bd.mul {j N : I} {n m : ℤ} (hj : Bd j m) (hN : V N n) (hn : 1 ≤ n) (h : n * m ≤ maxInt + 1) :
    Bd (N * j) (n * m) := by
  obtain ⟨y, hy, hy0, hym⟩ := hj
  have h1 : 0 ≤ n * y := mul_nonneg (by omega) hy0
  have h2 : n * (y + 1) ≤ n * m := mul_le_mul_of_nonneg_left (by omega) (by omega)
  rw [mul_add, mul_one] at h2
  exact ⟨n * y, V_mul hN hy (by omega) hy0 (by omega), h1, by omega⟩

theorem Bd.mod {a b : I} {x y : ℤ} (ha : V a x) (hb : V b y) (hx : 0 ≤ x) (hy : 0 < y) (h : x ≤ maxInt) :
    Bd (a % b) y :=
  ⟨x % y, V_mod ha hb hx hy h, Int.emod_nonneg x (by omega), Int.emod_lt_of_pos x hy⟩

/-- a site number divided by the number of cells is an orbital number -/
theorem Bd.div {a b : I} {c m : ℤ} (ha : Bd a (c * m)) (hb : V b c) (hc : 0 < c) (h : c * m ≤ maxInt + 1) : Bd (a / b) m := by
  obtain ⟨x, hx, hx0, hxn⟩ := ha
  exact ⟨x / c, V_div hx hb hx0 hc (by omega), Int.ediv_nonneg hx0 (le_of_lt hc),
    Int.ediv_lt_of_lt_mul hc (by rw [mul_comm]; exact hxn)⟩

theorem Bd.sel {p : ℤ → ℤ → Bool} {a b t e : I} {x y u : ℤ} (ha : V a x) (hb : V b y) (ht : p x y = true → Bd t u)
    (he : p x y = false → Bd e u) : Bd (sel p a b t e) u := by
  unfold V at ha hb
  simp only [Index.sel, ha, hb]
  cases h : p x y
  · simpa [h] using he h
  · simpa [h] using ht h

theorem Bd.get {tab : ℤ → ℤ} {i : I} {m u : ℤ} (hi : Bd i m) (h : ∀ x, 0 ≤ x → x < m → 0 ≤ tab x ∧ tab x < u)
    (hu : u ≤ maxInt + 1) : Bd (get tab i) u := by
  obtain ⟨x, hx, hx0, hxm⟩ := hi
  obtain ⟨h0, h1⟩ := h x hx0 hxm
  unfold V at hx
  refine ⟨tab x, ?_, h0, h1⟩
  simp only [Index.get, hx]
  exact chk_val (by simp only [maxInt]; omega) (by omega)

/-! ## lists of events -/

theorem safe_nil : Safe [] := by intro e he; cases he

theorem safe_append {a b : List Event} : Safe (a ++ b) ↔ Safe a ∧ Safe b := by
  unfold Safe
  constructor
  · intro h
    exact ⟨fun e he => h e (List.mem_append_left _ he), fun e he => h e (List.mem_append_right _ he)⟩
  · rintro ⟨h1, h2⟩ e he
    rcases List.mem_append.1 he with h | h
    · exact h1 e h
    · exact h2 e h

theorem safe_cons {a : Event} {b : List Event} : Safe (a :: b) ↔ a.ok ∧ Safe b := by
  unfold Safe
  simp only [List.mem_cons, forall_eq_or_imp]

theorem safe_singleton {a : Event} : Safe [a] ↔ a.ok := by
  rw [safe_cons]
  exact and_iff_left safe_nil

theorem safe_flatMap {α : Type*} {l : List α} {f : α → List Event} : Safe (l.flatMap f) ↔ ∀ a ∈ l, Safe (f a) := by
  unfold Safe
  simp only [List.mem_flatMap]
  constructor
  · intro h a ha e he
    exact h e ⟨a, ha, he⟩
  · rintro h e ⟨a, ha, he⟩
    exact h a ha e he

theorem safe_loop {lo hi : I} {a b : ℤ} {body : I → List Event} (hlo : V lo a) (hhi : V hi b) :
    Safe (loop lo hi body) ↔ ∀ z : ℤ, a ≤ z → z < b → Safe (body (z : I)) := by
  unfold V at hlo hhi
  simp only [loop, hlo, hhi, safe_flatMap, List.mem_range]
  constructor
  · intro h z hz hzb
    have := h (z - a).toNat (by omega)
    rwa [show (a + ((z - a).toNat : ℤ)) = z by omega] at this
  · intro h k hk
    exact h _ (by omega) (by omega)

theorem safe_loop0 {hi : I} {b : ℤ} {body : I → List Event} (hhi : V hi b) (h : ∀ i : I, Bd i b → Safe (body i)) :
    Safe (loop 0 hi body) :=
  (safe_loop V_zero hhi).2 fun z h0 h1 => h _ ⟨z, V_coe z, h0, h1⟩

theorem safe_cond {p : ℤ → ℤ → Bool} {a b : I} {x y : ℤ} {t e : List Event} (ha : V a x) (hb : V b y) :
    Safe (cond p a b t e) ↔ (p x y = true → Safe t) ∧ (p x y = false → Safe e) := by
  unfold V at ha hb
  simp only [cond, ha, hb]
  cases h : p x y <;> simp

/-! ## single events -/

theorem use_ok {f : String} {l : ℕ} {v : I} {x : ℤ} (h : V v x) (h0 : 0 ≤ x) : (Event.use f l v).ok := ⟨x, h, h0⟩

theorem offset_one {a : I} {x : ℤ} (h : V a x) : offset [a] = some x := by
  unfold V at h
  simp [offset, h]

theorem offset_two {a b : I} {x y : ℤ} (h : V a x) (h' : V b y) : offset [a, b] = some (x + y) := by
  unfold V at h h'
  simp [offset, h, h']

theorem el_ok {f : String} {l : ℕ} {size off : I} {n : ℤ} (hs : V size n) (h : Bd off n) : (el f l size [off]).ok := by
  obtain ⟨x, hx, h0, h1⟩ := h
  exact ⟨n, x, 1, 1, 1, hs, offset_one hx, rfl, rfl, rfl, by omega, by omega, by omega, fun _ _ => ⟨h0, by omega⟩⟩

theorem el2_ok {f : String} {l : ℕ} {size a b : I} {n x y : ℤ} (hs : V size n) (ha : V a x) (hb : V b y) (h0 : 0 ≤ x + y)
    (h : x + y < n) : (el f l size [a, b]).ok :=
  ⟨n, x + y, 1, 1, 1, hs, offset_two ha hb, rfl, rfl, rfl, by omega, by omega, by omega, fun _ _ => ⟨h0, by omega⟩⟩

theorem run1_ok {f : String} {l : ℕ} {size off cnt : I} {n b k : ℤ} (hs : V size n) (ho : V off b) (hc : V cnt k)
    (hk : 0 ≤ k) (hb : 0 ≤ b) (h : b + k ≤ n) : (run1 f l size off cnt).ok :=
  ⟨n, b, 1, k, 1, hs, offset_one ho, rfl, hc, rfl, by omega, hk, by omega, fun _ _ => ⟨hb, by omega⟩⟩

theorem run1_ok' {f : String} {l : ℕ} {size cnt : I} {n : ℤ} (hs : V size n) (hc : V cnt n) (hn : 0 ≤ n) :
    (run1 f l size 0 cnt).ok :=
  run1_ok hs V_zero hc hn (le_refl _) (by omega)

theorem block_lt {ro co r c q : ℤ} (hro : 0 ≤ ro) (hco : 0 ≤ co) (h1 : ro + r ≤ q) (h2 : co + c ≤ q) (hr : 0 < r)
    (hc : 0 < c) : 0 ≤ ro + q * co ∧ ro + q * co + (r - 1) + (c - 1) * q < q * q := by
  have := radix_lt (x := ro + r - 1) (y := co + c - 1) (n := q) (m := q) (by omega) (by omega) (by omega) (by omega)
  have h3 : 0 ≤ q * co := mul_nonneg (by omega) hco
  refine ⟨by omega, ?_⟩
  have e : ro + q * co + (r - 1) + (c - 1) * q = ro + r - 1 + q * (co + c - 1) := by ring
  rw [e]
  exact this.2

/-- a block of a quadratic matrix -/
theorem block_ok {f : String} {l : ℕ} {size off rows cols ld : I} {b ro co r c q : ℤ} (hs : V size (q * q)) (ho : V off b)
    (hr : V rows r) (hc : V cols c) (hd : V ld q) (hb : b = ro + q * co) (hro : 0 ≤ ro) (hco : 0 ≤ co) (hr0 : 0 ≤ r)
    (hc0 : 0 ≤ c) (h1 : ro + r ≤ q) (h2 : co + c ≤ q) (hq : 1 ≤ q) : (Event.access f l size [off] rows cols ld).ok := by
  refine ⟨q * q, b, r, c, q, hs, offset_one ho, hr, hc, hd, hr0, hc0, by omega, fun h3 h4 => ?_⟩
  rw [hb]
  exact block_lt hro hco h1 h2 h3 h4

/-- a block of an `m × k` matrix -/
theorem rect_ok {f : String} {l : ℕ} {size off rows cols ld : I} {s b ro co r c q k : ℤ} (hs : V size s) (hsz : s = q * k)
    (ho : V off b) (hr : V rows r) (hc : V cols c) (hd : V ld q) (hb : b = ro + q * co) (hro : 0 ≤ ro) (hco : 0 ≤ co)
    (hr0 : 0 ≤ r) (hc0 : 0 ≤ c) (h1 : ro + r ≤ q) (h2 : co + c ≤ k) (hq : 1 ≤ q) :
    (Event.access f l size [off] rows cols ld).ok := by
  refine ⟨s, b, r, c, q, hs, offset_one ho, hr, hc, hd, hr0, hc0, by omega, fun h3 h4 => ?_⟩
  have := radix_lt (x := ro + r - 1) (y := co + c - 1) (n := q) (m := k) (by omega) (by omega) (by omega) (by omega)
  have h3 : 0 ≤ q * co := mul_nonneg (by omega) hco
  refine ⟨by omega, ?_⟩
  have e : b + (r - 1) + (c - 1) * q = ro + r - 1 + q * (co + c - 1) := by rw [hb]; ring
  rw [e, hsz]
  exact this.2

theorem full_ok {f : String} {l : ℕ} {size N : I} {n : ℤ} (hs : V size (n * n)) (hN : V N n) (hn : 1 ≤ n) :
    (full f l size N).ok :=
  block_ok (ro := 0) (co := 0) hs V_zero hN hN hN (by ring) (le_refl _) (le_refl _) (by omega) (by omega) (by omega)
    (by omega) hn

/-! ## defined values have defined operands -/

theorem op_inv {f : ℤ → ℤ → I} {a b : I} {z : ℤ} (h : V (op f a b) z) : ∃ x y, V a x ∧ V b y ∧ V (f x y) z := by
  unfold V at h ⊢
  unfold op at h
  split at h
  · rename_i x y hx hy
    exact ⟨x, y, hx, hy, h⟩
  · cases h

theorem chk_inv {x z : ℤ} (h : V (chk x) z) : z = x ∧ x ≤ maxInt := by
  unfold V chk at h
  simp only at h
  split at h
  · rename_i hx
    exact ⟨(Option.some.inj h).symm, hx.2⟩
  · cases h

theorem mul_inv {a b : I} {z : ℤ} (h : V (a * b) z) : ∃ x y, V a x ∧ V b y ∧ z = x * y ∧ z ≤ maxInt := by
  obtain ⟨x, y, hx, hy, hz⟩ := op_inv (f := fun x y => chk (x * y)) h
  obtain ⟨h1, h2⟩ := chk_inv hz
  exact ⟨x, y, hx, hy, h1, by omega⟩

theorem add_inv {a b : I} {z : ℤ} (h : V (a + b) z) : ∃ x y, V a x ∧ V b y ∧ z = x + y ∧ z ≤ maxInt := by
  obtain ⟨x, y, hx, hy, hz⟩ := op_inv (f := fun x y => chk (x + y)) h
  obtain ⟨h1, h2⟩ := chk_inv hz
  exact ⟨x, y, hx, hy, h1, by omega⟩

theorem div_inv {a b : I} {z : ℤ} (h : V (a / b) z) : ∃ x y, V a x ∧ V b y ∧ y ≠ 0 ∧ z = Int.tdiv x y := by
  obtain ⟨x, y, hx, hy, hz⟩ := op_inv (f := fun x y => if y = 0 then ⟨none⟩ else chk (Int.tdiv x y)) h
  by_cases h0 : y = 0
  · simp only [h0, if_true] at hz
    cases hz
  · simp only [if_neg h0] at hz
    exact ⟨x, y, hx, hy, h0, (chk_inv hz).1⟩

end Verif.Index
