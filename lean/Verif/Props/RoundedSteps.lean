import Verif.Props.RoundedGreens
import Verif.Props.MonteCarlo

/-! # Property C114, second part: the steps of an iteration in rounded arithmetic -/

set_option autoImplicit false

namespace Verif.Rounded

open Filter Topology Matrix Verif.Lapack Verif.TimeFlow Verif.Greens Verif.Stratonovich Verif.MonteCarlo Verif.Ultra

variable {N : ℕ}

/-! ## Specification -/

/-- the tables differ by at most `u` from the exact ones -/
structure Tables.Within {σ M : Type} (tab : Tables N) (sys : Sys σ N M) (u : ℝ) : Prop where
  expK : Near u tab.expK sys.expK
  invExpK : Near u tab.invExpK sys.invExpK
  expVu : ∀ v (i : Fin N), |tab.hs.expVu v (sys.orb i) - sys.hs.expVu v (sys.orb i)| ≤ u
  expVd : ∀ v (i : Fin N), |tab.hs.expVd v (sys.orb i) - sys.hs.expVd v (sys.orb i)| ≤ u
  delta : ∀ v (i : Fin N), |tab.hs.delta v (sys.orb i) - sys.hs.delta v (sys.orb i)| ≤ u

theorem Tables.Within.mono {σ M : Type} {tab : Tables N} {sys : Sys σ N M} {u u' : ℝ} (h : tab.Within sys u) (hu : u ≤ u') :
    tab.Within sys u' :=
  ⟨Near.mono h.expK hu, Near.mono h.invExpK hu, fun v i => (h.expVu v i).trans hu, fun v i => (h.expVd v i).trans hu,
    fun v i => (h.delta v i).trans hu⟩

/-- product of the first `n + 1` matrices in rounded arithmetic -/
def pseq (ar : Arith N) (A : ℕ → Mat N) : ℕ → Mat N
  | 0 => A 0
  | n + 1 => ar.gemm (A (n + 1)) (pseq ar A n)

/-- the cached product of block `m` is the rounded product of the current matrices of its slices -/
def RFreshAt (ar : Arith N) (tsm : TSM N) (m : ℕ) : Prop :=
  tsm.Bprod m = pseq ar (fun i => tsm.B (m * tsm.prodBlen + i)) (tsm.prodBlen - 1)

/-- all blocks are fresh, except possibly the one slice `l` lies strictly inside of -/
def RFreshFrom (ar : Arith N) (tsm : TSM N) (l : ℕ) : Prop :=
  ∀ m < tsm.numBprod, ¬ (m = l / tsm.prodBlen ∧ l % tsm.prodBlen ≠ 0) → RFreshAt ar tsm m

/-! ## The cache -/

section cache

variable (ar : Arith N)

theorem pseq_congr {A A' : ℕ → Mat N} {k : ℕ} (h : ∀ l ≤ k, A l = A' l) : pseq ar A k = pseq ar A' k := by
  induction k with
  | zero => exact h 0 le_rfl
  | succ k ih =>
    unfold pseq
    rw [h (k + 1) le_rfl, ih fun l hl => h l (by omega)]

theorem rprodStep_t1 (A : ℕ → Mat N) (st : ProdState N) (i : ℕ) :
    (prodStep ar A st i).t1 = ar.gemm (A i) st.t1 ∧ (prodStep ar A st i).t1IsRet = !st.t1IsRet := by
  rcases st with ⟨r, w, _ | _⟩ <;> simp [prodStep, ProdState.t1, ProdState.setT2]

theorem rfoldl_prodStep (A : ℕ → Mat N) (st : ProdState N) (h0 : st.t1 = A 0) (k : ℕ) :
    (((List.range' 1 k).foldl (prodStep ar A) st).t1 = pseq ar A k) ∧
    (((List.range' 1 k).foldl (prodStep ar A) st).t1IsRet = (st.t1IsRet ^^ decide (k % 2 = 1))) := by
  induction k with
  | zero => simp [pseq, h0]
  | succ k ih =>
    rw [List.range'_1_concat, List.foldl_append, List.foldl_cons, List.foldl_nil]
    obtain ⟨h1, h2⟩ := rprodStep_t1 ar A ((List.range' 1 k).foldl (prodStep ar A) st) (1 + k)
    rw [h1, h2, ih.1, ih.2]
    refine ⟨by rw [add_comm 1 k]; rfl, ?_⟩
    rcases Nat.mod_two_eq_zero_or_one k with h | h
    · rw [show (k + 1) % 2 = 1 by omega, h]; cases st.t1IsRet <;> rfl
    · rw [show (k + 1) % 2 = 0 by omega, h]; cases st.t1IsRet <;> rfl

/-- the result buffer holds the rounded product, whatever it and the work space held -/
theorem rmatrixProductSequence_spec (num : ℕ) (hn : 0 < num) (A : ℕ → Mat N) (ret0 W0 : Mat N) :
    matrixProductSequence ar num A ret0 W0 = pseq ar A (num - 1) := by
  unfold matrixProductSequence
  simp only
  set st : ProdState N := { ret := ret0, W := W0, t1IsRet := num % 2 != 0 } with hst
  have h0 : (st.setT1 (A 0)).t1 = A 0 ∧ (st.setT1 (A 0)).t1IsRet = (num % 2 != 0) := by
    unfold ProdState.t1 ProdState.setT1
    rw [hst]
    by_cases h : (num % 2 != 0) = true <;> simp [h]
  obtain ⟨h1, h2⟩ := rfoldl_prodStep ar A (st.setT1 (A 0)) h0.1 (num - 1)
  have hret : ((List.range' 1 (num - 1)).foldl (prodStep ar A) (st.setT1 (A 0))).t1IsRet = true := by
    rw [h2, h0.2]
    rcases Nat.mod_two_eq_zero_or_one num with h | h
    · rw [h, show (num - 1) % 2 = 1 by omega]; rfl
    · rw [h, show (num - 1) % 2 = 0 by omega]; rfl
  rw [← h1, ProdState.t1, if_pos]
  simpa using hret

theorem rsetProd_fresh (tsm : TSM N) (m : ℕ) (hp : 0 < tsm.prodBlen) (W0 : Mat N) :
    RFreshAt ar (setProd ar tsm (m * tsm.prodBlen) W0) m ∧
    (∀ k ≠ m, (setProd ar tsm (m * tsm.prodBlen) W0).Bprod k = tsm.Bprod k) := by
  have hdiv : m * tsm.prodBlen / tsm.prodBlen = m := Nat.mul_div_cancel _ hp
  unfold RFreshAt setProd
  simp only [hdiv]
  refine ⟨?_, fun k hk => Function.update_of_ne hk _ _⟩
  rw [Function.update_self, rmatrixProductSequence_spec ar _ hp]

theorem rinitWith_spec (mk mkInv : ℕ → Mat N) (W0 : Mat N) (tsm : TSM N) (hd : Dims tsm) :
    (∀ l < tsm.L, (initWith ar mk mkInv W0 tsm).B l = mk l ∧ (initWith ar mk mkInv W0 tsm).invB l = mkInv l)
    ∧ (∀ m < (initWith ar mk mkInv W0 tsm).numBprod, RFreshAt ar (initWith ar mk mkInv W0 tsm) m) ∧
    Dims (initWith ar mk mkInv W0 tsm) ∧
    (initWith ar mk mkInv W0 tsm).L = tsm.L ∧ (initWith ar mk mkInv W0 tsm).prodBlen = tsm.prodBlen := by
  have h1 : ∀ k, let t := (List.range k).foldl (fun t l => TSM.setB t l (mk l) (mkInv l)) tsm
      (∀ l < k, t.B l = mk l ∧ t.invB l = mkInv l) ∧ t.L = tsm.L ∧ t.prodBlen = tsm.prodBlen ∧
      t.numBprod = tsm.numBprod := by
    intro k
    induction k with
    | zero => simp
    | succ k ih =>
      simp only [List.range_succ, List.foldl_append, List.foldl_cons, List.foldl_nil]
      obtain ⟨ih1, ih2⟩ := ih
      refine ⟨fun l hl => ?_, ih2⟩
      by_cases h : l = k
      · subst h; simp [TSM.setB]
      · simp only [TSM.setB, Function.update_of_ne h]
        exact ih1 l (by omega)
  obtain ⟨hB, hL, hp, hn⟩ := h1 tsm.L
  unfold initWith
  simp only
  set t1 := (List.range tsm.L).foldl (fun t l => TSM.setB t l (mk l) (mkInv l)) tsm with ht1
  have hp1 : 0 < t1.prodBlen := by rw [hp]; exact hd.len
  have h2 : ∀ k, let t := (List.range k).foldl (fun t l => setProd ar t (l * t.prodBlen) W0) t1
      (t.B = t1.B ∧ t.invB = t1.invB ∧ t.L = t1.L ∧ t.prodBlen = t1.prodBlen ∧
        t.numBprod = t1.numBprod) ∧ ∀ m < k, RFreshAt ar t m := by
    intro k
    induction k with
    | zero => simp
    | succ k ih =>
      simp only [List.range_succ, List.foldl_append, List.foldl_cons, List.foldl_nil]
      obtain ⟨ih1, ih2⟩ := ih
      set t := (List.range k).foldl (fun t l => setProd ar t (l * t.prodBlen) W0) t1
      refine ⟨ih1, fun m hm => ?_⟩
      have hpt : 0 < t.prodBlen := by rw [ih1.2.2.2.1]; exact hp1
      obtain ⟨hs1, hs2⟩ := rsetProd_fresh ar t k hpt W0
      by_cases h : m = k
      · subst h; exact hs1
      · unfold RFreshAt
        rw [hs2 m h]
        exact ih2 m (by omega)
  obtain ⟨⟨hB2, hI2, hL2, hp2, hn2⟩, hF⟩ := h2 t1.numBprod
  set t2 := (List.range t1.numBprod).foldl (fun t l => setProd ar t (l * t.prodBlen) W0) t1
  refine ⟨fun l hl => ?_, fun m hm => hF m (by rwa [hn2] at hm), ⟨?_, ?_, ?_⟩, ?_, ?_⟩
  · rw [hB2, hI2]; exact hB l hl
  · rw [hp2]; exact hp1
  · rw [hn2, hn]; exact hd.num
  · rw [hL2, hn2, hp2, hL, hn, hp]; exact hd.mul
  · rw [hL2, hL]
  · rw [hp2, hp]

/-- effect of an update of slice `l` -/
theorem rupdateWith_spec (mk mkInv : ℕ → Mat N) (W0 : Mat N) (l : ℕ) (tsm : TSM N) (hp : 0 < tsm.prodBlen) :
    let t := updateWith ar mk mkInv W0 l tsm
    (t.B = Function.update tsm.B l (mk l)) ∧ (t.invB = Function.update tsm.invB l (mkInv l)) ∧
    (t.L = tsm.L ∧ t.prodBlen = tsm.prodBlen ∧ t.numBprod = tsm.numBprod) ∧
    (∀ m, m ≠ l / tsm.prodBlen → RFreshAt ar tsm m → RFreshAt ar t m) ∧
    (l % tsm.prodBlen = tsm.prodBlen - 1 → RFreshAt ar t (l / tsm.prodBlen)) := by
  have hsl : l % tsm.prodBlen = tsm.prodBlen - 1 →
      l - (tsm.prodBlen - 1) = (l / tsm.prodBlen) * tsm.prodBlen := by
    intro h
    have := Nat.div_add_mod l tsm.prodBlen
    rw [h] at this
    rw [mul_comm]; omega
  have hblock : ∀ m, m ≠ l / tsm.prodBlen → ∀ i < tsm.prodBlen, m * tsm.prodBlen + i ≠ l := by
    intro m hm i hi h
    apply hm
    rw [← h, Nat.add_div_of_dvd_right (dvd_mul_left _ _), Nat.mul_div_cancel _ hp,
      Nat.div_eq_of_lt hi, add_zero]
  have hother : ∀ m, m ≠ l / tsm.prodBlen → RFreshAt ar tsm m →
      tsm.Bprod m = pseq ar (fun i => Function.update tsm.B l (mk l) (m * tsm.prodBlen + i))
        (tsm.prodBlen - 1) := by
    intro m hm hf
    rw [hf]
    exact pseq_congr ar fun i hi => by rw [Function.update_of_ne (hblock m hm i (by omega))]
  set t0 : TSM N := tsm.setB l (mk l) (mkInv l) with ht0
  by_cases h : l % tsm.prodBlen = tsm.prodBlen - 1
  · have e : updateWith ar mk mkInv W0 l tsm = setProd ar t0 (l / tsm.prodBlen * tsm.prodBlen) W0 := by
      rw [← hsl h]; exact if_pos h
    rw [e]
    obtain ⟨hs1, hs2⟩ := rsetProd_fresh ar t0 (l / tsm.prodBlen) hp W0
    refine ⟨rfl, rfl, ⟨rfl, rfl, rfl⟩, fun m hm hf => ?_, fun _ => hs1⟩
    unfold RFreshAt
    exact (hs2 m hm).trans (hother m hm hf)
  · have e : updateWith ar mk mkInv W0 l tsm = t0 := if_neg h
    rw [e]
    exact ⟨rfl, rfl, ⟨rfl, rfl, rfl⟩, hother, fun h' => absurd h' h⟩

/-- the caches after slice `l` -/
theorem RFreshFrom.update {tsm : TSM N} {l : ℕ} (h : RFreshFrom ar tsm l) (hp : 0 < tsm.prodBlen) (mk mkInv : ℕ → Mat N) (W0 : Mat N) :
    RFreshFrom ar (updateWith ar mk mkInv W0 l tsm) (l + 1) := by
  obtain ⟨-, -, ⟨-, u4, u5⟩, u6, u7⟩ := rupdateWith_spec ar mk mkInv W0 l tsm hp
  intro m hm hex
  rw [u5] at hm
  rw [u4] at hex
  by_cases hml : m = l / tsm.prodBlen
  · subst hml
    apply u7
    by_contra hlast
    apply hex
    have hlt := Nat.mod_lt l hp
    have hdm := Nat.div_add_mod l tsm.prodBlen
    generalize hr : l % tsm.prodBlen = r at *
    generalize hq : l / tsm.prodBlen = q at *
    have e : l + 1 = (r + 1) + tsm.prodBlen * q := by rw [← hdm]; ring
    have hr1 : r + 1 < tsm.prodBlen := by omega
    rw [e, Nat.add_mul_div_left _ _ hp, Nat.add_mul_mod_self_left,
      Nat.div_eq_of_lt hr1, Nat.mod_eq_of_lt hr1]
    exact ⟨by omega, by omega⟩
  · exact u6 m hml (h m hm (by rintro ⟨rfl, -⟩; exact hml rfl))

theorem RFreshFrom.all {tsm : TSM N} {l : ℕ} (h : RFreshFrom ar tsm l) (hl : tsm.prodBlen ∣ l) :
    ∀ m < tsm.numBprod, RFreshAt ar tsm m := fun m hm => h m hm (by rintro ⟨-, h'⟩; exact h' (Nat.mod_eq_zero_of_dvd hl))

end cache

/-! ## Limits -/

section limits

variable {ι : Type} {U : Ultrafilter ι} {ar : ι → Arith N} {k : ℕ} {u : ι → ℝ}

theorem pseq_lim (h : Along U ar k u) {A : ι → ℕ → Mat N} {A₀ : ℕ → Mat N} {n : ℕ} (hA : ∀ l ≤ n, MLim U (fun t => A t l) (A₀ l)) :
    MLim U (fun t => pseq (ar t) (A t) n) (prodSeq A₀ (n + 1)) := by
  induction n with
  | zero =>
    have := hA 0 le_rfl
    simpa [pseq, prodSeq] using this
  | succ n ih => exact h.gemm (hA (n + 1) le_rfl) (ih fun l hl => hA l (by omega))

theorem det_prodSeq_ne {A : ℕ → Mat N} {n : ℕ} (h : ∀ l < n, (A l).det ≠ 0) : (prodSeq A n).det ≠ 0 := by
  induction n with
  | zero => simp [prodSeq]
  | succ n ih =>
    rw [prodSeq, det_mul]
    exact mul_ne_zero (h n (by omega)) (ih fun l hl => h l (by omega))

/-- C114: with matrices which converge, the rounded Green's function at the beginning of a block converges -/
theorem construct_lim [NeZero N] (h : Along U ar k u) {tsm : ι → TSM N} {B : ℕ → Mat N} {L len sh : ℕ}
    (hd : ∀ t, TsmDims L len (tsm t)) (hf : ∀ t, ∀ m < (tsm t).numBprod, RFreshAt (ar t) (tsm t) m)
    (hB : ∀ l < L, MLim U (fun t => (tsm t).B l) (B l)) (hdet : ∀ l < L, (B l).det ≠ 0) (hsh : len ∣ sh)
    (hne : (1 + cyclicProd B L sh).det ≠ 0) :
    ∃ g : ι → GreensFn N, (∀ᶠ t in (U : Filter ι), greenConstruct (ar t) (tsm t) sh = some (g t)) ∧
      MLim U (fun t => (g t).mat) (1 + cyclicProd B L sh)⁻¹ ∧
      ∀ᶠ t in (U : Filter ι), SignOf (g t).sgndet (1 + cyclicProd B L sh).det := by
  obtain ⟨t₀⟩ : Nonempty ι := U.neBot.nonempty
  have hlen : 0 < len := by rw [← (hd t₀).hlen]; exact (hd t₀).dims.len
  obtain ⟨num, hnum0, hL⟩ : ∃ num, 0 < num ∧ L = num * len :=
    ⟨(tsm t₀).numBprod, (hd t₀).dims.num, by rw [← (hd t₀).hL, (hd t₀).dims.mul, (hd t₀).hlen]⟩
  have hnum : ∀ t, (tsm t).numBprod = num := by
    intro t
    have := (hd t).dims.mul
    rw [(hd t).hL, (hd t).hlen, hL] at this
    exact (Nat.eq_of_mul_eq_mul_right hlen this).symm
  have hidx : ∀ m < num, ∀ i < len, m * len + i < L := by
    intro m hm i hi
    rw [hL]
    calc m * len + i < m * len + len := by omega
      _ = (m + 1) * len := by ring
      _ ≤ num * len := Nat.mul_le_mul_right _ hm
  set P : ℕ → Mat N := fun m => prodSeq (fun i => B (m * len + i)) len with hP
  have hPl : ∀ m < num, MLim U (fun t => (tsm t).Bprod m) (P m) := by
    intro m hm
    have h1 := pseq_lim h (A := fun t i => (tsm t).B (m * len + i)) (A₀ := fun i => B (m * len + i)) (n := len - 1)
      fun i hi => hB _ (hidx m hm i (by omega))
    rw [Nat.sub_add_cancel hlen] at h1
    refine h1.congr' (Eventually.of_forall fun t => ?_)
    have := hf t m (by rw [hnum]; exact hm)
    unfold RFreshAt at this
    rw [this, (hd t).hlen]
  have hPd : ∀ m < num, (P m).det ≠ 0 := fun m hm => det_prodSeq_ne fun i hi => hdet _ (hidx m hm i hi)
  obtain ⟨Q, d, T, hfl, hval⟩ := timeFlowMap_lim h hnum0 (fun t => ⟨hnum t, (hd t).hlen⟩) hPl hPd sh
  have hcyc : prodSeq (fun l => P ((l + sh / len) % num)) num = cyclicProd B L sh := by
    have := cyclic_of_fresh (N := N) { B := B, invB := B, Bprod := P, L := L, prodBlen := len, numBprod := num } ⟨hlen, hnum0, hL⟩
      (fun m _ => rfl) (sh / len)
    rw [Nat.div_mul_cancel hsh] at this
    exact this
  rw [hcyc] at hval
  have := greenConstruct_lim h hfl (by rw [hval]; exact hne)
  rw [hval] at this
  exact this

/-- C114: the rounded `GreenTimeSliceWrap` -/
theorem wrap_lim (h : Along U ar k u) {B : ℕ → Mat N} {L l : ℕ} (hl : l < L) {Binv : Mat N} (hinv : B l * Binv = 1)
    {Bl invBl G : ι → Mat N} (hB : MLim U Bl (B l)) (hI : MLim U invBl Binv) (hG : MLim U G (1 + cyclicProd B L l)⁻¹) :
    MLim U (fun t => timeSliceWrap (ar t) (Bl t) (invBl t) (G t)) (1 + cyclicProd B L (l + 1))⁻¹ ∧
    (1 + cyclicProd B L (l + 1)).det = (1 + cyclicProd B L l).det := by
  have hc := cyclicProd_succ B L l
  rw [Nat.mod_eq_of_lt hl] at hc
  obtain ⟨h1, h2⟩ := wrap_conj _ _ _ _ hinv hc
  refine ⟨?_, h2⟩
  rw [← h1]
  exact h.gemm (h.gemm hB hG) hI

theorem one_lim' : Tendsto (fun _ : ι => (1 : ℝ)) U (𝓝 1) := tendsto_const_nhds

/-- the rounded acceptance factor -/
theorem ratio_lim (h : Along U ar k u) {G : ι → GreensFn N} {G₀ : Mat N} (hG : MLim U (fun t => (G t).mat) G₀) (i : Fin N)
    {delta : ι → ℝ} {δ₀ : ℝ} (hδ : Tendsto delta U (𝓝 δ₀)) :
    Tendsto (fun t => ratio (ar t) (G t) i (delta t)) U (𝓝 (1 + (1 - G₀ i i) * δ₀)) :=
  h.ops.add one_lim' (h.ops.mul (h.ops.sub one_lim' (hG i i)) hδ)

/-- C114: the rounded `GreenShermanMorrisonUpdate` -/
theorem shermanMorrison_lim (h : Along U ar k u) {G : ι → Mat N} {G₀ : Mat N} (hG : MLim U G G₀) (i : Fin N)
    {delta : ι → ℝ} {δ₀ : ℝ} (hδ : Tendsto delta U (𝓝 δ₀)) (hr : 1 + (1 - G₀ i i) * δ₀ ≠ 0) :
    MLim U (fun t => shermanMorrison (ar t) (delta t) i (G t)) (Greens.shermanMorrison δ₀ i G₀) := by
  have hc : ∀ j, Tendsto (fun t => if j = i then (ar t).sub (G t i j) 1.0 else G t i j) U
      (𝓝 (if j = i then G₀ i j - 1 else G₀ i j)) := by
    intro j
    split
    · exact h.ops.sub (hG i j) one_lim
    · exact hG i j
  have hci := hc i
  rw [if_pos rfl] at hci
  have hden : 1 - δ₀ * (G₀ i i - 1) ≠ 0 := by
    intro h0
    refine hr ?_
    linarith
  have hq := h.ops.div hδ (h.ops.sub one_lim (h.ops.mul hδ hci)) hden
  have hl := h.ger hq (x := fun t j => G t j i) (x₀ := fun j => G₀ j i) (fun j => hG j i)
    (y := fun t j => if j = i then (ar t).sub (G t i j) 1.0 else G t i j)
    (y₀ := fun j => if j = i then G₀ i j - 1 else G₀ i j) hc hG
  have e : G₀ + (δ₀ / (1 - δ₀ * (G₀ i i - 1))) • vecMulVec (fun j => G₀ j i) (fun j => if j = i then G₀ i j - 1 else G₀ i j)
      = Greens.shermanMorrison δ₀ i G₀ := by
    ext a b
    simp only [Greens.shermanMorrison, Matrix.add_apply, Matrix.smul_apply, vecMulVec_apply, smul_eq_mul, of_apply, if_true]
    norm_num
    ring_nf
  rw [e] at hl
  exact hl

/-- C114: an update of one site: factor, Green's function and sign -/
theorem update_lim (h : Along U ar k u) {B : ℕ → Mat N} {L l : ℕ} (hl : l < L) (i : Fin N) {δ₀ : ℝ} {delta : ι → ℝ}
    (hδ : Tendsto delta U (𝓝 δ₀)) {G : ι → GreensFn N} (hG : MLim U (fun t => (G t).mat) (1 + cyclicProd B L (l + 1))⁻¹)
    (hs : ∀ᶠ t in (U : Filter ι), SignOf (G t).sgndet (1 + cyclicProd B L (l + 1)).det)
    (hne : (1 + cyclicProd (Function.update B l (scaleRow i δ₀ (B l))) L (l + 1)).det ≠ 0) :
    Tendsto (fun t => ratio (ar t) (G t) i (delta t)) U
      (𝓝 ((1 + cyclicProd (Function.update B l (scaleRow i δ₀ (B l))) L (l + 1)).det / (1 + cyclicProd B L (l + 1)).det)) ∧
    MLim U (fun t => (applyUpdate (ar t) (G t) i (delta t) (ratio (ar t) (G t) i (delta t))).mat)
      (1 + cyclicProd (Function.update B l (scaleRow i δ₀ (B l))) L (l + 1))⁻¹ ∧
    ∀ᶠ t in (U : Filter ι), SignOf (applyUpdate (ar t) (G t) i (delta t) (ratio (ar t) (G t) i (delta t))).sgndet
      (1 + cyclicProd (Function.update B l (scaleRow i δ₀ (B l))) L (l + 1)).det := by
  obtain ⟨t₀, ht₀⟩ := hs.exists
  have hdne := ht₀.ne
  have hr := ratio_lim h hG i hδ
  have hdet := det_ratio (cyclicProd B L (l + 1)) hdne i δ₀
  rw [← cyclicProd_scaleRow B L l hl] at hdet
  have hrne : 1 + (1 - (1 + cyclicProd B L (l + 1))⁻¹ i i) * δ₀ ≠ 0 := by
    intro h0
    rw [h0, zero_mul] at hdet
    exact hne hdet
  refine ⟨?_, ?_, ?_⟩
  · rw [hdet, mul_div_assoc, div_self hdne, mul_one]
    exact hr
  · have := shermanMorrison_lim h hG i hδ hrne
    rw [shermanMorrison_spec _ hdne i δ₀ hrne, ← cyclicProd_scaleRow B L l hl] at this
    exact this
  · filter_upwards [hs, (hr.mul_const _).eventually (lt_mem_nhds (mul_self_pos.2 hrne))] with t a b
    rw [hdet]
    have hpos : ∀ x y : ℝ, 0 < x * y → (x < 0 → y < 0) ∧ (¬x < 0 → 0 < y) := by
      intro x y hxy
      constructor
      · intro hx
        by_contra hy
        exact absurd hxy (not_lt.2 (mul_nonpos_of_nonpos_of_nonneg hx.le (not_lt.1 hy)))
      · intro hx
        by_contra hy
        exact absurd hxy (not_lt.2 (mul_nonpos_of_nonneg_of_nonpos (not_lt.1 hx) (not_lt.1 hy)))
    have hp := hpos _ _ b
    rw [mul_comm]
    unfold applyUpdate
    by_cases hneg : ratio (ar t) (G t) i (delta t) < 0
    · simp only [if_pos hneg]
      exact a.neg (hp.1 hneg)
    · simp only [if_neg hneg]
      exact a.pos (hp.2 hneg)

/-- the matrices of a time slice -/
theorem slices_lim {σ M : Type} {sys : Sys σ N M} (h : Along U ar k u) {tab : ι → Tables N} {V : ι → Fin 2 → ℕ → ℝ}
    {V₀ : Fin 2 → ℕ → ℝ} (htab : ∀ᶠ t in (U : Filter ι), (tab t).Within sys (u t))
    (hV : ∀ v (i : Fin N), Tendsto (fun t => V t v (sys.orb i)) U (𝓝 (V₀ v (sys.orb i)))) (s : ℕ → Fin N → Fin 2) (l : ℕ) :
    MLim U (fun t => slices (ar t) sys (tab t) (V t) s l) (sys.fieldB V₀ s (fun _ _ => 1) l) ∧
    MLim U (fun t => invSlices (ar t) sys (tab t) (V t) s l) (invTimeStepMatrix sys.Ncell sys.invExpK V₀ (s l)) := by
  have hK : MLim U (fun t => (tab t).expK) sys.expK :=
    mlim_of_near (c := 1) h.null (MLim.const sys.expK) (htab.mono fun t ht => by rw [mul_one]; exact ht.expK)
  have hI : MLim U (fun t => (tab t).invExpK) sys.invExpK :=
    mlim_of_near (c := 1) h.null (MLim.const sys.invExpK) (htab.mono fun t ht => by rw [mul_one]; exact ht.invExpK)
  constructor
  · intro i j
    have := h.ops.mul (hV (s l i) i) (hK i j)
    simpa [slices, timeStep, Sys.fieldB, diagonal_mul, Sys.orb] using this
  · intro j i
    have := h.ops.mul (hV (1 - s l i) i) (hI j i)
    simpa [invSlices, invTimeStep, invTimeStepMatrix, Sys.orb] using this

end limits

end Verif.Rounded
