import Verif.Lemmas.Heap
import Mathlib.Tactic.Ring

set_option autoImplicit false

namespace Verif.Heap

open Verif.HashTable (Key Table)
open Verif.Params (SimParams Conv Token)

/-- membership among live resources -/
macro "in_live" : tactic => `(tactic| first
  | (simp; done)
  | (simp [*]; done)
  | (simp_all; done))

/-- release of a local block -/
macro "free_local" : tactic => `(tactic|
  (refine Spec.free (by in_live) ?_
   simp only [Multiset.erase_cons_head, erase_cons_of_mem, Multiset.mem_cons, true_or, or_true]))

variable {F : Prop} {A : Multiset Res} {lg : Option Res}

/-! ## Linear algebra -/

theorem matrixExp_quiet (hl : ∀ f ∈ lg, f ∈ A) {M ret : Res} (h1 : M ∈ A) (h2 : ret ∈ A) :
    Quiet F 0 A (matrixExp lg M ret) := by
  refine Spec.alloc fun w => Spec.alloc fun U => ?_
  refine Spec.uses (by in_live) (Spec.uses (by in_live) ?_)
  refine Spec.fails (fun hF => ?_) ?_
  · simp only [if_true]
    refine Spec.duprintf (fun f hf => by simp [hl f hf]) (Spec.pure ⟨{U, w}, ?_, fun h => absurd h hF⟩)
    simp [← Multiset.singleton_add]
    abel
  · simp only [Bool.false_eq_true, if_false]
    refine Spec.use (by in_live) (Spec.alloc fun E => ?_)
    refine Spec.uses (by in_live) (Spec.uses (by in_live) (Spec.uses (by in_live) ?_))
    free_local
    free_local
    free_local
    exact Spec.pure ⟨0, by simp, by simp⟩

theorem matrixProductSequence_same {num start : ℕ} {arr ret : Res} {xs : List Res} (hn : 0 < num)
    (ha : arr ∈ A) (hx : Has A xs) (hr : ret ∈ A) (hs : start + num ≤ xs.length) :
    Same F A (matrixProductSequence num arr xs start ret) := by
  refine Spec.alloc fun W => ?_
  refine Spec.elem (by in_live) (by omega) ?_
  have hx' : ∀ i (hi : i < xs.length), xs[i] ∈ W ::ₘ A := fun i hi =>
    Multiset.mem_cons_of_mem (hx _ (List.getElem_mem hi))
  have h0 : (if num % 2 = 0 then (W, ret) else (ret, W)).1 ∈ W ::ₘ A := by split <;> in_live
  have h0' : (if num % 2 = 0 then (W, ret) else (ret, W)).2 ∈ W ::ₘ A := by split <;> in_live
  have hu : ∀ q ∈ [xs[start], (if num % 2 = 0 then (W, ret) else (ret, W)).1], q ∈ W ::ₘ A := by
    simp only [List.mem_cons, List.not_mem_nil, or_false, forall_eq_or_imp, forall_eq]
    exact ⟨hx' _ _, h0⟩
  refine Spec.uses hu ?_
  refine Spec.bind (Spec.loopFrom (fun _ (T : Res × Res) B => B = W ::ₘ A ∧ T.1 ∈ B ∧ T.2 ∈ B) (num - 1)
    1 _ _ ⟨rfl, h0, h0'⟩ ?_) ?_
  · rintro i T _ h1 h2 ⟨rfl, t1, t2⟩
    refine Spec.elem (by in_live) (by omega) (Spec.uses ?_ (Spec.pure ⟨rfl, t2, t1⟩))
    simp only [List.mem_cons, List.not_mem_nil, or_false, forall_eq_or_imp, forall_eq]
    exact ⟨hx' _ _, t1, t2⟩
  · rintro T _ ⟨rfl, -, -⟩
    exact (Spec.free' (by simp)).conseq fun _ _ h => by rw [h, Multiset.erase_cons_head]

theorem blockCyclicQR_spec (hl : ∀ f ∈ lg, f ∈ A) {p : ℕ} {H tau : Res} (h1 : H ∈ A) (h2 : tau ∈ A) :
    Spec F A (blockCyclicQR lg p H tau) (fun st B => B = A ∧ (F → st = 0)) := by
  refine Spec.bind (Spec.loopFrom (fun _ (st : ℤ) B => B = A ∧ (F → st = 0)) (p - 2) 0 0 A
    ⟨rfl, fun _ => rfl⟩ ?_) ?_
  · rintro i st _ - - ⟨rfl, hst⟩
    split
    · exact Spec.pure ⟨rfl, hst⟩
    · refine Spec.uses (by in_live) (Spec.fails (fun hF => ?_) ?_)
      · exact Spec.duprintf hl (Spec.pure ⟨rfl, fun h => absurd h hF⟩)
      · refine Spec.fails (fun hF => Spec.pure ⟨rfl, fun h => absurd h hF⟩) ?_
        exact Spec.fails (fun hF => Spec.pure ⟨rfl, fun h => absurd h hF⟩) (Spec.pure ⟨rfl, fun _ => rfl⟩)
  · rintro st _ ⟨rfl, hst⟩
    split
    · exact Spec.pure ⟨rfl, hst⟩
    · refine Spec.uses (by in_live) (Spec.fails (fun hF => ?_) (Spec.pure ⟨rfl, fun _ => rfl⟩))
      exact Spec.duprintf hl (Spec.pure ⟨rfl, fun h => absurd h hF⟩)

theorem blockCyclicTriangularInverse_spec (hl : ∀ f ∈ lg, f ∈ A) {p : ℕ} {R : Res} (h1 : R ∈ A) :
    Spec F A (blockCyclicTriangularInverse lg p R) (fun st B => B = A ∧ (F → st = 0)) := by
  refine Spec.use h1 (Spec.fails (fun hF => ?_) ?_)
  · exact Spec.duprintf hl (Spec.pure ⟨rfl, fun h => absurd h hF⟩)
  · refine Spec.loopFrom (fun _ (st : ℤ) B => B = A ∧ (F → st = 0)) (p - 3) 0 0 A
      ⟨rfl, fun _ => rfl⟩ ?_
    rintro i st _ - - ⟨rfl, hst⟩
    split
    · exact Spec.pure ⟨rfl, hst⟩
    · refine Spec.use h1 (Spec.fails (fun hF => ?_) (Spec.pure ⟨rfl, fun _ => rfl⟩))
      exact Spec.duprintf hl (Spec.pure ⟨rfl, fun h => absurd h hF⟩)

theorem blockCyclicInverseRotation_spec {p : ℕ} {M tau : Res} (h1 : M ∈ A) (h2 : tau ∈ A) :
    Spec F A (blockCyclicInverseRotation p M tau) (fun st B => B = A ∧ st = 0) := by
  refine Spec.alloc fun Q => Spec.uses (by in_live) (Spec.uses (by in_live) ?_)
  refine Same.bind (Same.loop fun i _ => Spec.uses (by in_live) (Spec.uses' (by in_live))) fun _ => ?_
  free_local
  exact Spec.pure ⟨rfl, rfl⟩

theorem blockCyclicInverse_quiet (hl : ∀ f ∈ lg, f ∈ A) {p : ℕ} {H : Res} (h1 : H ∈ A) :
    Quiet F 0 A (blockCyclicInverse lg p H) := by
  refine Spec.alloc fun tau => ?_
  have hl' : ∀ f ∈ lg, f ∈ tau ::ₘ A := fun f hf => by simp [hl f hf]
  have lose : ∀ st : ℤ, (F → st = 0) → st ≠ 0 → Spec F (tau ::ₘ A) (pure st : Mem ℤ)
      (fun _ B => ∃ K, B = 0 + (A + K) ∧ (F → K.card = 0)) := fun st h h' =>
    Spec.pure ⟨{tau}, by simp [← Multiset.singleton_add]; abel, fun hF => absurd (h hF) h'⟩
  refine Spec.bind (blockCyclicQR_spec hl' (by in_live) (by in_live)) ?_
  rintro st _ ⟨rfl, hst⟩
  split
  · exact lose st hst ‹_›
  refine Spec.bind (blockCyclicTriangularInverse_spec hl' (by in_live)) ?_
  rintro st _ ⟨rfl, hst⟩
  split
  · exact lose st hst ‹_›
  refine Spec.bind (blockCyclicInverseRotation_spec (by in_live) (by in_live)) ?_
  rintro st _ ⟨rfl, rfl⟩
  simp only [ne_eq, not_true_eq_false, if_false]
  free_local
  exact Spec.pure ⟨0, by simp, by simp⟩

/-! ## Time step matrices -/

/-- all blocks of the structure -/
def Tsm.list (t : Tsm) : List Res := t.Bs :: t.invBs :: t.Bprods :: (t.B ++ t.invB ++ t.Bprod)

/-- all blocks of the structure -/
def Tsm.own (t : Tsm) : Multiset Res := t.list

/-- sizes of a structure that has been allocated -/
structure Tsm.Wf (t : Tsm) (L b : ℕ) : Prop where
  eqL : t.L = L
  eqb : t.prodBlen = b
  eqn : t.numBprod = L / b
  lenB : t.B.length = L
  lenInvB : t.invB.length = L
  lenBprod : t.Bprod.length = L / b

theorem Tsm.own_eq (t : Tsm) : t.own =
    t.Bprods ::ₘ t.invBs ::ₘ t.Bs ::ₘ ((t.B : Multiset Res) + (t.invB : Multiset Res) + (t.Bprod : Multiset Res)) := by
  rw [Tsm.own, Tsm.list, ← Multiset.cons_coe, ← Multiset.cons_coe, ← Multiset.cons_coe,
    ← Multiset.coe_add, ← Multiset.coe_add]
  simp only [← Multiset.singleton_add]
  abel

theorem Tsm.Bs_mem {t : Tsm} (h : Has A t.list) : t.Bs ∈ A := h _ (by simp [Tsm.list])
theorem Tsm.invBs_mem {t : Tsm} (h : Has A t.list) : t.invBs ∈ A := h _ (by simp [Tsm.list])
theorem Tsm.Bprods_mem {t : Tsm} (h : Has A t.list) : t.Bprods ∈ A := h _ (by simp [Tsm.list])
theorem Tsm.B_has {t : Tsm} (h : Has A t.list) : Has A t.B :=
  h.mono fun p hp => by simp [Tsm.list, hp]
theorem Tsm.invB_has {t : Tsm} (h : Has A t.list) : Has A t.invB :=
  h.mono fun p hp => by simp [Tsm.list, hp]
theorem Tsm.Bprod_has {t : Tsm} (h : Has A t.list) : Has A t.Bprod :=
  h.mono fun p hp => by simp [Tsm.list, hp]
theorem Tsm.own_has (t : Tsm) : Has t.own t.list := fun _ hp => by simpa [Tsm.own] using hp

theorem allocTsm_spec {L b : ℕ} :
    Spec F A (allocTsm L b) (fun t B => t.Wf L b ∧ B = t.own + A) := by
  refine Spec.alloc fun Bs => Spec.alloc fun invBs => Spec.alloc fun Bprods => ?_
  refine Spec.bind (Spec.loopFrom (fun i (m : List Res × List Res) B =>
    m.1.length = i ∧ m.2.length = i ∧
      B = (m.1 : Multiset Res) + (m.2 : Multiset Res) + (Bprods ::ₘ invBs ::ₘ Bs ::ₘ A)) L 0 _ _
    ⟨rfl, rfl, by simp⟩ ?_) ?_
  · rintro i ⟨m1, m2⟩ _ - - ⟨h1, h2, rfl⟩
    refine Spec.use (by simp) (Spec.alloc fun q => Spec.use (by simp) (Spec.alloc fun r => ?_))
    refine Spec.pure ⟨by simpa using h1, by simpa using h2, ?_⟩
    simp only [← Multiset.coe_add, ← Multiset.singleton_add, Multiset.coe_singleton]
    abel
  rintro ⟨m1, m2⟩ _ ⟨h1, h2, rfl⟩
  simp only [Nat.zero_add] at h1 h2
  refine Spec.bind (Spec.loopFrom (fun i (m : List Res) B => m.length = i ∧
      B = (m : Multiset Res) + ((m1 : Multiset Res) + (m2 : Multiset Res) +
        (Bprods ::ₘ invBs ::ₘ Bs ::ₘ A))) (L / b) 0 _ _ ⟨rfl, by simp⟩ ?_) ?_
  · rintro i m _ - - ⟨h3, rfl⟩
    refine Spec.use (by simp) (Spec.alloc fun q => Spec.pure ⟨by simpa using h3, ?_⟩)
    simp only [← Multiset.coe_add, ← Multiset.singleton_add, Multiset.coe_singleton]
    abel
  rintro q _ ⟨h3, rfl⟩
  refine Spec.pure ⟨⟨rfl, rfl, rfl, h1, h2, by simpa using h3⟩, ?_⟩
  rw [Tsm.own_eq]
  simp only [← Multiset.singleton_add]
  abel

theorem coe_drop {xs : List Res} {i : ℕ} (hi : i < xs.length) :
    ((xs.drop i : List Res) : Multiset Res) = xs[i] ::ₘ ((xs.drop (i + 1) : List Res) : Multiset Res) := by
  rw [List.drop_eq_getElem_cons hi, Multiset.cons_coe]

theorem mem_coe_drop {xs : List Res} {i : ℕ} (hi : i < xs.length) :
    xs[i] ∈ ((xs.drop i : List Res) : Multiset Res) := by
  rw [coe_drop hi]
  exact Multiset.mem_cons_self _ _

theorem deleteTsm_spec {t : Tsm} {L b : ℕ} (ht : t.Wf L b) :
    Spec F (t.own + A) (deleteTsm t) (fun _ B => B = A) := by
  rw [Tsm.own_eq, ← Multiset.singleton_add, ← Multiset.singleton_add, ← Multiset.singleton_add]
  refine Spec.bind (Spec.loop (fun i B => B = ((t.Bprod.drop i : List Res) : Multiset Res) +
    ({t.Bprods} + ({t.invBs} + ({t.Bs} + ((t.B : Multiset Res) + (t.invB : Multiset Res) + A)))))
    ?_ ?_) ?_
  · simp only [List.drop_zero]
    abel
  · rintro i _ hi rfl
    have hi' : i < t.Bprod.length := by rw [ht.lenBprod, ← ht.eqn]; exact hi
    refine Spec.elem (by simp) hi' ?_
    refine (Spec.free' (by simp only [Multiset.mem_add, mem_coe_drop hi', true_or])).conseq ?_
    rintro - _ rfl
    rw [coe_drop hi', Multiset.cons_add, Multiset.erase_cons_head]
  rintro - _ rfl
  rw [List.drop_of_length_le (by rw [ht.lenBprod, ht.eqn])]
  refine Spec.bind (Spec.loop (fun i B => B = ((t.invB.drop i : List Res) : Multiset Res) +
    (((t.B.drop i : List Res) : Multiset Res) + ({t.Bprods} + ({t.invBs} + ({t.Bs} + A)))))
    ?_ ?_) ?_
  · simp only [List.drop_zero, Multiset.coe_nil]
    abel
  · rintro i _ hi rfl
    have hi1 : i < t.invB.length := by rw [ht.lenInvB, ← ht.eqL]; exact hi
    have hi2 : i < t.B.length := by rw [ht.lenB, ← ht.eqL]; exact hi
    refine Spec.elem (by simp) hi1 (Spec.free (by simp only [Multiset.mem_add, mem_coe_drop hi1, true_or]) ?_)
    rw [coe_drop hi1, Multiset.cons_add, Multiset.erase_cons_head]
    refine Spec.elem (by simp) hi2 ?_
    refine (Spec.free' (by simp only [Multiset.mem_add, mem_coe_drop hi2, true_or, or_true])).conseq ?_
    rintro - _ rfl
    rw [coe_drop hi2, Multiset.cons_add, Multiset.add_cons, Multiset.erase_cons_head]
  rintro - _ rfl
  rw [List.drop_of_length_le (by rw [ht.lenInvB, ht.eqL]), List.drop_of_length_le (by rw [ht.lenB, ht.eqL])]
  refine Spec.of_eq ?_ Spec.frees'
  simp only [← Multiset.cons_coe, ← Multiset.singleton_add, Multiset.coe_nil]
  abel

theorem copyTsm_same {s d : Tsm} {L b : ℕ} (hs : s.Wf L b) (hd : d.Wf L b) (h1 : Has A s.list)
    (h2 : Has A d.list) : Same F A (copyTsm s d) := by
  refine Same.bind (Same.loop fun l hl => ?_) fun _ => Same.loop fun l hl => ?_
  · rw [hs.eqL] at hl
    refine Spec.elem (Tsm.Bs_mem h1) (by rw [hs.lenB]; exact hl) ?_
    refine Spec.elem (Tsm.Bs_mem h2) (by rw [hd.lenB]; exact hl) ?_
    refine Spec.uses ?_ ?_
    · simp only [List.mem_cons, List.not_mem_nil, or_false, forall_eq_or_imp, forall_eq]
      exact ⟨Tsm.B_has h2 _ (List.getElem_mem _), Tsm.B_has h1 _ (List.getElem_mem _)⟩
    refine Spec.elem (Tsm.invBs_mem h1) (by rw [hs.lenInvB]; exact hl) ?_
    refine Spec.elem (Tsm.invBs_mem h2) (by rw [hd.lenInvB]; exact hl) ?_
    refine Spec.uses' ?_
    simp only [List.mem_cons, List.not_mem_nil, or_false, forall_eq_or_imp, forall_eq]
    exact ⟨Tsm.invB_has h2 _ (List.getElem_mem _), Tsm.invB_has h1 _ (List.getElem_mem _)⟩
  · rw [hs.eqn] at hl
    refine Spec.elem (Tsm.Bprods_mem h1) (by rw [hs.lenBprod]; exact hl) ?_
    refine Spec.elem (Tsm.Bprods_mem h2) (by rw [hd.lenBprod]; exact hl) ?_
    refine Spec.uses' ?_
    simp only [List.mem_cons, List.not_mem_nil, or_false, forall_eq_or_imp, forall_eq]
    exact ⟨Tsm.Bprod_has h2 _ (List.getElem_mem _), Tsm.Bprod_has h1 _ (List.getElem_mem _)⟩

/-- access to an element and to everything in a list -/
theorem uses_cons_same {p : Res} {ps : List Res} (hp : p ∈ A) (h : Has A ps) : ∀ q ∈ p :: ps, q ∈ A := by
  intro q hq
  rcases List.mem_cons.1 hq with h' | h'
  · exact h' ▸ hp
  · exact h q h'

theorem initTsm_same {c : Src} {t : Tsm} {L b : ℕ} (hb : 0 < b) (ht : t.Wf L b) (hc : Has A c.list)
    (h : Has A t.list) : Same F A (initTsm c t) := by
  refine Same.bind (Same.loop fun l hl => ?_) fun _ => Same.loop fun l hl => ?_
  · rw [ht.eqL] at hl
    refine Spec.elem (Tsm.Bs_mem h) (by rw [ht.lenB]; exact hl) ?_
    refine Spec.uses (uses_cons_same (Tsm.B_has h _ (List.getElem_mem _)) hc) ?_
    refine Spec.elem (Tsm.invBs_mem h) (by rw [ht.lenInvB]; exact hl) ?_
    exact Spec.uses' (uses_cons_same (Tsm.invB_has h _ (List.getElem_mem _)) hc)
  · rw [ht.eqn] at hl
    refine Spec.elem (Tsm.Bprods_mem h) (by rw [ht.lenBprod]; exact hl) ?_
    refine matrixProductSequence_same (by rw [ht.eqb]; exact hb) (Tsm.Bs_mem h) (Tsm.B_has h)
      (Tsm.Bprod_has h _ (List.getElem_mem _)) ?_
    rw [ht.lenB, ht.eqb]
    calc l * b + b = (l + 1) * b := by ring
      _ ≤ L / b * b := Nat.mul_le_mul_right _ hl
      _ ≤ L := Nat.div_mul_le_self L b

theorem updateTsm_same {c : Src} {t : Tsm} {L b l : ℕ} (hb : 0 < b) (hd : b ∣ L) (ht : t.Wf L b)
    (hc : Has A c.list) (h : Has A t.list) (hl : l < L) : Same F A (updateTsm c l t) := by
  refine Spec.elem (Tsm.Bs_mem h) (by rw [ht.lenB]; exact hl) ?_
  refine Spec.uses (uses_cons_same (Tsm.B_has h _ (List.getElem_mem _)) hc) ?_
  refine Spec.elem (Tsm.invBs_mem h) (by rw [ht.lenInvB]; exact hl) ?_
  refine Spec.uses (uses_cons_same (Tsm.invB_has h _ (List.getElem_mem _)) hc) ?_
  refine Same.ite (fun hm => ?_) fun _ => Spec.pure rfl
  rw [ht.eqb] at hm ⊢
  obtain ⟨n, rfl⟩ := hd
  have e : l - (b - 1) = l / b * b := by
    have := Nat.div_add_mod l b
    rw [hm] at this
    rw [Nat.mul_comm] at this
    omega
  have e' : l / b < n := Nat.div_lt_of_lt_mul hl
  rw [e]
  simp only [Nat.mul_div_cancel _ hb]
  have hq : l / b < t.Bprod.length := by rw [ht.lenBprod, Nat.mul_div_cancel_left _ hb]; exact e'
  refine Spec.elem (Tsm.Bprods_mem h) hq ?_
  refine matrixProductSequence_same hb (Tsm.Bs_mem h) (Tsm.B_has h)
    (Tsm.Bprod_has h _ (List.getElem_mem _)) ?_
  rw [ht.lenB]
  calc l / b * b + b = b * (l / b + 1) := by ring
    _ ≤ b * n := Nat.mul_le_mul_left _ e'

theorem timeFlowMap_same {t : Tsm} {L b shift : ℕ} {Q tau d T : Res} (hn : 0 < L / b) (ht : t.Wf L b)
    (h : Has A t.list) (h1 : Q ∈ A) (h2 : tau ∈ A) (h3 : d ∈ A) (h4 : T ∈ A) :
    Same F A (timeFlowMap t shift Q tau d T) := by
  refine Spec.alloc fun W => Spec.alloc fun norms => Spec.alloc fun jpvt => Spec.alloc fun v => ?_
  have h' := (((h.cons W).cons norms).cons jpvt).cons v
  have hm : ∀ i, i % t.numBprod < t.Bprod.length := fun i => by
    rw [ht.lenBprod, ht.eqn]; exact Nat.mod_lt _ hn
  refine Spec.elem (Tsm.Bprods_mem h') (hm _) ?_
  have hs : ∀ i (hi : i < t.Bprod.length), t.Bprod[i] ∈ v ::ₘ jpvt ::ₘ norms ::ₘ W ::ₘ A :=
    fun i hi => Tsm.Bprod_has h' _ (List.getElem_mem _)
  refine Spec.uses ?_ (Spec.uses (by in_live) ?_)
  · simp only [List.mem_cons, List.not_mem_nil, or_false, forall_eq_or_imp, forall_eq]
    exact ⟨by in_live, hs _ _⟩
  refine Spec.bind (Spec.loopFrom (fun _ _ B => B = v ::ₘ jpvt ::ₘ norms ::ₘ W ::ₘ A) _ _ _ _ rfl ?_) ?_
  · rintro l - _ - - rfl
    refine Spec.elem (Tsm.Bprods_mem h') (hm _) (Spec.uses ?_ (Spec.uses' (by in_live)))
    simp only [List.mem_cons, List.not_mem_nil, or_false, forall_eq_or_imp, forall_eq]
    exact ⟨by in_live, hs _ _⟩
  rintro - _ rfl
  free_local
  free_local
  free_local
  exact (Spec.free' (by simp)).conseq fun _ _ h => by rw [h, Multiset.erase_cons_head]

/-! ## Green's functions -/

theorem copyGreen_same {a b : Res} (h1 : a ∈ A) (h2 : b ∈ A) : Same F A (copyGreen a b) :=
  Spec.uses' (by in_live)

theorem greenConstruct_same {t : Tsm} {L b shift : ℕ} {G : Res} (hn : 0 < L / b) (ht : t.Wf L b)
    (h : Has A t.list) (hG : G ∈ A) : Same F A (greenConstruct t shift G) := by
  refine Spec.alloc fun Q => Spec.alloc fun tau => Spec.alloc fun d => Spec.alloc fun T => ?_
  refine Same.bind (timeFlowMap_same hn ht ((((h.cons Q).cons tau).cons d).cons T) (by simp) (by simp)
    (by simp) (by simp)) fun _ => ?_
  refine Spec.uses (by in_live) (Spec.uses (by in_live) (Spec.uses (by in_live) (Spec.uses (by in_live)
    (Spec.alloc fun ipiv => Spec.uses (by in_live) ?_))))
  free_local
  free_local
  free_local
  free_local
  exact (Spec.free' (by simp)).conseq fun _ _ h => by rw [h, Multiset.erase_cons_head]

theorem greenUpdate_same {G : Res} (hG : G ∈ A) : Same F A (greenUpdate G) := by
  refine Spec.alloc fun c => Spec.uses (by in_live) (Spec.alloc fun d => ?_)
  refine Spec.uses (by in_live) (Spec.uses (by in_live) ?_)
  free_local
  exact (Spec.free' (by simp)).conseq fun _ _ h => by rw [h, Multiset.erase_cons_head]

theorem greenWrap_same {B invB G : Res} (h1 : B ∈ A) (h2 : invB ∈ A) (hG : G ∈ A) :
    Same F A (greenWrap B invB G) := by
  refine Spec.alloc fun T => Spec.uses (by in_live) (Spec.uses (by in_live) ?_)
  exact (Spec.free' (by simp)).conseq fun _ _ h => by rw [h, Multiset.erase_cons_head]

theorem wrapAt_same {t : Tsm} {L b l : ℕ} {G : Res} (ht : t.Wf L b) (h : Has A t.list) (hG : G ∈ A)
    (hl : l < L) : Same F A (wrapAt t l G) := by
  refine Spec.elem (Tsm.Bs_mem h) (by rw [ht.lenB]; exact hl) ?_
  refine Spec.elem (Tsm.invBs_mem h) (by rw [ht.lenInvB]; exact hl) ?_
  exact greenWrap_same (Tsm.B_has h _ (List.getElem_mem _)) (Tsm.invB_has h _ (List.getElem_mem _)) hG

theorem uneqGreen_quiet (hl : ∀ f ∈ lg, f ∈ A) {t : Tsm} {L b : ℕ} {H Gtau0 G0tau Geqlt : Res}
    (ht : t.Wf L b) (h : Has A t.list) (h1 : H ∈ A) (h2 : Gtau0 ∈ A) (h3 : G0tau ∈ A) (h4 : Geqlt ∈ A) :
    Quiet F 0 A (uneqGreen lg L t H Gtau0 G0tau Geqlt) := by
  refine Spec.use h1 ?_
  refine Same.bind (Same.loop fun i hi => ?_) fun _ => ?_
  · rw [ht.eqn] at hi
    refine Spec.elem (Tsm.Bprods_mem h) (by rw [ht.lenBprod]; exact hi) (Spec.uses' ?_)
    simp only [List.mem_cons, List.not_mem_nil, or_false, forall_eq_or_imp, forall_eq]
    exact ⟨Tsm.Bprod_has h _ (List.getElem_mem _), h1⟩
  refine Quiet.bind (blockCyclicInverse_quiet hl h1) fun st K hK => ?_
  have g := h.add K
  have g1 : H ∈ A + K := by simp [h1]
  have g2 : Gtau0 ∈ A + K := by simp [h2]
  have g3 : G0tau ∈ A + K := by simp [h3]
  have g4 : Geqlt ∈ A + K := by simp [h4]
  clear h h1 h2 h3 h4
  have key : Same F (A + K) (do
      loop L fun i => do
        if i % t.prodBlen = 0 then uses [H, Gtau0]
        else do
          let b ← elem t.Bs t.B (i - 1)
          uses [b, Gtau0]
      loop L fun i => do
        if i % t.prodBlen = 0 then uses [H, G0tau]
        else if i = 1 then do
          let T ← alloc
          uses [H, T]
          let b ← elem t.invBs t.invB (i - 1)
          uses [T, b, G0tau]
          free T
        else do
          let b ← elem t.invBs t.invB (i - 1)
          uses [b, G0tau]
      loop L fun i => do
        if i % t.prodBlen = 0 then uses [H, Geqlt]
        else do
          use Geqlt
          let b ← elem t.Bs t.B (i - 1)
          let i ← elem t.invBs t.invB (i - 1)
          greenWrap b i Geqlt) := by
    refine Same.bind (Same.loop fun i hi => Same.ite (fun _ => Spec.uses' ?_) fun _ => ?_) fun _ =>
      Same.bind (Same.loop fun i hi => Same.ite (fun _ => Spec.uses' ?_) fun _ =>
        Same.ite (fun _ => ?_) fun _ => ?_) fun _ =>
      Same.loop fun i hi => Same.ite (fun _ => Spec.uses' ?_) fun _ => ?_
    · simp only [List.mem_cons, List.not_mem_nil, or_false, forall_eq_or_imp, forall_eq]
      exact ⟨g1, g2⟩
    · refine Spec.elem (Tsm.Bs_mem g) (by rw [ht.lenB]; omega) (Spec.uses' ?_)
      simp only [List.mem_cons, List.not_mem_nil, or_false, forall_eq_or_imp, forall_eq]
      exact ⟨Tsm.B_has g _ (List.getElem_mem _), g2⟩
    · simp only [List.mem_cons, List.not_mem_nil, or_false, forall_eq_or_imp, forall_eq]
      exact ⟨g1, g3⟩
    · refine Spec.alloc fun T => Spec.uses ?_ ?_
      · simp only [List.mem_cons, List.not_mem_nil, or_false, forall_eq_or_imp, forall_eq]
        exact ⟨Multiset.mem_cons_of_mem g1, Multiset.mem_cons_self _ _⟩
      · refine Spec.elem (Tsm.invBs_mem (g.cons T)) (by rw [ht.lenInvB]; omega) (Spec.uses ?_ ?_)
        · simp only [List.mem_cons, List.not_mem_nil, or_false, forall_eq_or_imp, forall_eq]
          exact ⟨Multiset.mem_cons_self _ _, Tsm.invB_has (g.cons T) _ (List.getElem_mem _),
            Multiset.mem_cons_of_mem g3⟩
        · exact (Spec.free' (by simp)).conseq fun _ _ h => by rw [h, Multiset.erase_cons_head]
    · refine Spec.elem (Tsm.invBs_mem g) (by rw [ht.lenInvB]; omega) (Spec.uses' ?_)
      simp only [List.mem_cons, List.not_mem_nil, or_false, forall_eq_or_imp, forall_eq]
      exact ⟨Tsm.invB_has g _ (List.getElem_mem _), g3⟩
    · simp only [List.mem_cons, List.not_mem_nil, or_false, forall_eq_or_imp, forall_eq]
      exact ⟨g1, g4⟩
    · refine Spec.use g4 (Spec.elem (Tsm.Bs_mem g) (by rw [ht.lenB]; omega) ?_)
      refine Spec.elem (Tsm.invBs_mem g) (by rw [ht.lenInvB]; omega) ?_
      exact greenWrap_same (Tsm.B_has g _ (List.getElem_mem _)) (Tsm.invB_has g _ (List.getElem_mem _)) g4
  exact key.conseq fun _ _ hB => ⟨K, by rw [hB, zero_add], hK⟩

/-! ## Kinetic exponential and Hubbard-Stratonovich parameters -/

def Kin.list (k : Kin) : List Res := [k.expK, k.invExpK]
def HS.list (h : HS) : List Res := [h.expVu0, h.expVu1, h.expVd0, h.expVd1, h.delta0, h.delta1]
def ParamPtrs.list (p : ParamPtrs) : List Res := [p.aa, p.ab, p.ac, p.ad, p.bc, p.U, p.eps, p.omega, p.g]

theorem kineticExponential_keeps (hl : ∀ f ∈ lg, f ∈ A) {pp : ParamPtrs} (h : Has A pp.list) :
    Keeps F 0 (fun k => (k.list : Multiset Res)) A (kineticExponential lg pp) := by
  refine Spec.alloc fun T => Spec.uses ?_ (Spec.alloc fun e => Spec.alloc fun i => ?_)
  · intro q hq
    have : q = T ∨ q ∈ pp.list := by
      simp only [List.mem_cons, List.not_mem_nil, or_false, ParamPtrs.list] at hq ⊢
      tauto
    rcases this with rfl | h'
    · simp
    · exact Multiset.mem_cons_of_mem (h q h')
  refine Quiet.bind (matrixExp_quiet (log_cons (log_cons (log_cons hl _) _) _) (by simp) (by simp))
    fun _ K hK => Spec.use (by simp) ?_
  refine Quiet.bind (matrixExp_quiet (log_add (log_cons (log_cons (log_cons hl _) _) _) _)
    (by simp) (by simp)) fun _ K' hK' => ?_
  refine Spec.free (by simp) (Spec.pure ⟨K + K', ?_, fun hF => ?_⟩)
  · rw [show i ::ₘ e ::ₘ T ::ₘ A + K + K' = T ::ₘ ((([e, i] : List Res) : Multiset Res) + (A + (K + K'))) by
      simp only [← Multiset.cons_coe, ← Multiset.singleton_add, Multiset.coe_nil]; abel,
      Multiset.erase_cons_head]
    rfl
  · rw [Multiset.card_add, hK hF, hK' hF]

theorem deleteKinetic_spec {k : Kin} :
    Spec F ((k.list : Multiset Res) + A) (deleteKinetic k) (fun _ B => B = A) := by
  refine Spec.of_eq ?_ Spec.frees'
  simp only [Kin.list, ← Multiset.cons_coe, ← Multiset.singleton_add, Multiset.coe_nil]
  abel

theorem fillHS_spec {U : Res} (hU : U ∈ A) :
    Spec F A (fillHS U) (fun h B => B = (h.list : Multiset Res) + A) := by
  refine Spec.alloc fun a => Spec.alloc fun b => Spec.alloc fun c => Spec.alloc fun d =>
    Spec.alloc fun e => Spec.alloc fun f => Spec.uses (by in_live) (Spec.pure ?_)
  simp only [HS.list, ← Multiset.cons_coe, ← Multiset.singleton_add, Multiset.coe_nil]
  abel

theorem deleteHS_spec {h : HS} :
    Spec F ((h.list : Multiset Res) + A) (deleteHS h) (fun _ B => B = A) := by
  refine Spec.of_eq ?_ Spec.frees'
  simp only [HS.list, ← Multiset.cons_coe, ← Multiset.singleton_add, Multiset.coe_nil]
  abel

theorem allocateParams_spec :
    Spec F A allocateParams (fun h B => B = (h.list : Multiset Res) + A) := by
  refine Spec.alloc fun a => Spec.alloc fun b => Spec.alloc fun c => Spec.alloc fun d =>
    Spec.alloc fun e => Spec.alloc fun f => Spec.alloc fun g => Spec.alloc fun h => Spec.alloc fun i =>
    Spec.pure ?_
  simp only [ParamPtrs.list, ← Multiset.cons_coe, ← Multiset.singleton_add, Multiset.coe_nil]
  abel

theorem deleteParams_spec {p : ParamPtrs} :
    Spec F ((p.list : Multiset Res) + A) (deleteParams p) (fun _ B => B = A) := by
  refine Spec.of_eq ?_ Spec.frees'
  simp only [ParamPtrs.list, ← Multiset.cons_coe, ← Multiset.singleton_add, Multiset.coe_nil]
  abel

/-! ## Measurement data -/

def EqD.list (m : EqD) : List Res := m.data ++ m.maps
def UneqD.list (m : UneqD) : List Res := [m.Hu, m.Hd] ++ m.data ++ m.maps

theorem allocEq_spec : Spec F A allocEq (fun m B => B = (m.list : Multiset Res) + A) := by
  iterate 15 refine Spec.alloc fun _ => ?_
  refine Spec.use (by simp) ?_
  iterate 4 refine Spec.alloc fun _ => ?_
  refine Spec.uses (by in_live) (Spec.pure ?_)
  simp only [EqD.list, EqD.data, EqD.maps, List.cons_append, List.nil_append, ← Multiset.cons_coe,
    ← Multiset.singleton_add, Multiset.coe_nil]
  abel

theorem deleteEq_spec {m : EqD} :
    Spec F ((m.list : Multiset Res) + A) (deleteEq m) (fun _ B => B = A) := by
  refine Spec.of_eq ?_ Spec.frees'
  simp only [EqD.list, EqD.data, EqD.maps, List.cons_append, List.nil_append, ← Multiset.cons_coe,
    ← Multiset.singleton_add, Multiset.coe_nil]
  abel

theorem allocUneq_keeps :
    Spec F A allocUneq (fun m B => (∃ K, B = (m.elim 0 fun m => (m.list : Multiset Res)) + (A + K) ∧
      (F → K.card = 0)) ∧ (F → m.isSome)) := by
  refine Spec.fails (fun hF => Spec.pure ⟨⟨0, by simp, fun h => absurd h hF⟩, fun h => absurd h hF⟩) ?_
  refine Spec.alloc fun a => Spec.fails (fun hF => Spec.pure ⟨⟨{a}, ?_, fun h => absurd h hF⟩,
    fun h => absurd h hF⟩) ?_
  · simp only [Option.elim_none, ← Multiset.singleton_add]
    abel
  iterate 18 refine Spec.alloc fun _ => ?_
  refine Spec.use (by simp) ?_
  iterate 4 refine Spec.alloc fun _ => ?_
  refine Spec.uses (by in_live) (Spec.pure ⟨⟨0, ?_, fun _ => rfl⟩, fun _ => rfl⟩)
  simp only [Option.elim_some, UneqD.list, UneqD.data, UneqD.maps, List.cons_append, List.nil_append,
    ← Multiset.cons_coe, ← Multiset.singleton_add, Multiset.coe_nil]
  abel

theorem deleteUneq_spec {m : UneqD} :
    Spec F ((m.list : Multiset Res) + A) (deleteUneq m) (fun _ B => B = A) := by
  refine Spec.of_eq ?_ Spec.frees'
  simp only [UneqD.list, UneqD.data, UneqD.maps, List.cons_append, List.nil_append, ← Multiset.cons_coe,
    ← Multiset.singleton_add, Multiset.coe_nil]
  abel

theorem allocPh_spec : Spec F A allocPh (fun m B => B = (m.data : Multiset Res) + A) := by
  iterate 10 refine Spec.alloc fun _ => ?_
  refine Spec.pure ?_
  simp only [PhD.data, ← Multiset.cons_coe, ← Multiset.singleton_add, Multiset.coe_nil]
  abel

theorem deletePh_spec {m : PhD} :
    Spec F ((m.data : Multiset Res) + A) (deletePh m) (fun _ B => B = A) := by
  refine Spec.of_eq ?_ Spec.frees'
  simp only [PhD.data, ← Multiset.cons_coe, ← Multiset.singleton_add, Multiset.coe_nil]
  abel

theorem accumulateEq_same {Gu Gd : Res} {m : EqD} (h1 : Gu ∈ A) (h2 : Gd ∈ A) (h : Has A m.list) :
    Same F A (accumulateEq Gu Gd m) := by
  refine Spec.uses' fun q hq => ?_
  simp only [List.append_assoc, List.mem_append, List.mem_cons, List.not_mem_nil, or_false] at hq
  rcases hq with (rfl | rfl) | h'
  · exact h1
  · exact h2
  · exact h q (by simpa [EqD.list] using h')

theorem accumulateUneq_quiet (hl : ∀ f ∈ lg, f ∈ A) {tu td : Tsm} {L b : ℕ} {m : UneqD}
    (hu : tu.Wf L b) (hd : td.Wf L b) (gu : Has A tu.list) (gd : Has A td.list) (h : Has A m.list) :
    Quiet F 0 A (accumulateUneq lg L tu td m) := by
  refine Spec.alloc fun a1 => Spec.alloc fun a2 => Spec.alloc fun a3 => Spec.alloc fun a4 =>
    Spec.alloc fun a5 => Spec.alloc fun a6 => ?_
  have up : ∀ ps, Has A ps → Has (a6 ::ₘ a5 ::ₘ a4 ::ₘ a3 ::ₘ a2 ::ₘ a1 ::ₘ A) ps := fun ps h =>
    (((((h.cons _).cons _).cons _).cons _).cons _).cons _
  have hl' : ∀ f ∈ lg, f ∈ a6 ::ₘ a5 ::ₘ a4 ::ₘ a3 ::ₘ a2 ::ₘ a1 ::ₘ A := by
    iterate 6 refine log_cons ?_ _
    exact hl
  have hm := up _ h
  have m1 : m.Hu ∈ m.list := by simp [UneqD.list]
  have m2 : m.Hd ∈ m.list := by simp [UneqD.list]
  refine Quiet.bind (uneqGreen_quiet hl' hu (up _ gu) (hm _ m1) (by simp) (by simp) (by simp))
    fun _ K hK => ?_
  refine Quiet.bind (uneqGreen_quiet (log_add hl' _) hd ((up _ gd).add _) (hm.add _ _ m2) (by simp)
    (by simp) (by simp)) fun _ K' hK' => ?_
  refine Spec.uses ?_ ?_
  · intro q hq
    simp only [List.append_assoc, List.mem_append] at hq
    rcases hq with hq | hq
    · simp only [List.mem_cons, List.not_mem_nil, or_false] at hq
      rcases hq with rfl | rfl | rfl | rfl | rfl | rfl <;> simp
    · exact (hm.add _).add _ q (by simp only [UneqD.list, List.append_assoc, List.mem_append]; exact Or.inr hq)
  simp only [Multiset.cons_add]
  iterate 5 refine Spec.free (by simp) ?_; rw [Multiset.erase_cons_head]
  refine (Spec.free' (by simp)).conseq ?_
  rintro - _ rfl
  rw [Multiset.erase_cons_head]
  exact ⟨K + K', by rw [zero_add, add_assoc], fun hF => by rw [Multiset.card_add, hK hF, hK' hF]⟩

theorem accumulatePh_quiet {Gu Gd X omega : Res} {m : PhD} (h1 : Gu ∈ A) (h2 : Gd ∈ A) (h3 : X ∈ A)
    (h4 : omega ∈ A) (h : Has A m.data) : Quiet F 1 A (accumulatePh Gu Gd X omega m) := by
  have h5 : m.nX ∈ A := h _ (by simp [PhD.data])
  refine Spec.alloc fun c => Spec.uses ?_ ((Spec.uses' (by in_live)).conseq ?_)
  · intro q hq
    rcases List.mem_append.1 hq with hq | hq
    · simp only [List.mem_cons, List.not_mem_nil, or_false] at hq
      rcases hq with rfl | rfl | rfl <;> simp [*]
    · exact Multiset.mem_cons_of_mem (h q hq)
  · rintro - _ rfl
    refine ⟨{c}, ?_, fun _ => rfl⟩
    simp only [← Multiset.singleton_add]
    abel

/-! ## Files -/

theorem readData_quiet (hl : ∀ f ∈ lg, f ∈ A) {d : Option Res} (hd : ∀ q ∈ d, q ∈ A) :
    Quiet F 0 A (readData lg d) := by
  refine Spec.fails (fun hF => ?_) ?_
  · exact Spec.duprintf hl (Spec.pure ⟨0, by simp, fun h => absurd h hF⟩)
  refine Spec.openFd fun fd => Spec.use (by simp) (Spec.fails (fun hF => ?_) ?_)
  · refine Spec.duprintf (log_cons hl _) (Spec.pure ⟨{fd}, ?_, fun h => absurd h hF⟩)
    simp only [← Multiset.singleton_add]
    abel
  refine Spec.uses (fun q hq => Multiset.mem_cons_of_mem (hd q (by simpa using hq)))
    (Spec.fails (fun hF => ?_) ?_)
  · refine Spec.duprintf (log_cons hl _) (Spec.pure ⟨{fd}, ?_, fun h => absurd h hF⟩)
    simp only [← Multiset.singleton_add]
    abel
  · refine Spec.free (by simp) ?_
    rw [Multiset.erase_cons_head]
    exact Spec.pure ⟨0, by simp, by simp⟩

theorem writeData_quiet (hl : ∀ f ∈ lg, f ∈ A) {d : Option Res} (hd : ∀ q ∈ d, q ∈ A) :
    Spec F A (writeData lg d) (fun st B => (∃ K, B = A + K ∧ (F → K.card = 0)) ∧ (F → st = 0)) := by
  refine Spec.fails (fun hF => ?_) ?_
  · exact Spec.duprintf hl (Spec.pure ⟨⟨0, by simp, fun h => absurd h hF⟩, fun h => absurd h hF⟩)
  refine Spec.openFd fun fd => Spec.use (by simp)
    (Spec.uses (fun q hq => Multiset.mem_cons_of_mem (hd q (by simpa using hq)))
      (Spec.fails (fun hF => ?_) ?_))
  · refine Spec.duprintf (log_cons hl _) (Spec.pure ⟨⟨{fd}, ?_, fun h => absurd h hF⟩, fun h => absurd h hF⟩)
    simp only [← Multiset.singleton_add]
    abel
  · refine Spec.free (by simp) ?_
    rw [Multiset.erase_cons_head]
    exact Spec.pure ⟨⟨0, by simp, by simp⟩, fun _ => rfl⟩

theorem readAll_quiet (hl : ∀ f ∈ lg, f ∈ A) {ds : List (Option Res)} (hd : ∀ d ∈ ds, ∀ q ∈ d, q ∈ A) :
    Quiet F 0 A (readAll lg ds) := by
  induction ds generalizing A with
  | nil => exact Quiet.pure
  | cons d ds ih =>
    exact Quiet.seq (readData_quiet hl (hd d (by simp))) fun _ K => ih (log_add hl K)
      fun d' hd' q hq => Multiset.mem_add.2 (Or.inl (hd d' (by simp [hd']) q hq))

theorem writeAll_quiet (hl : ∀ f ∈ lg, f ∈ A) {ds : List (Option Res)} (hd : ∀ d ∈ ds, ∀ q ∈ d, q ∈ A) :
    Quiet F 0 A (writeAll lg ds) := by
  induction ds generalizing A with
  | nil => exact Quiet.pure
  | cons d ds ih =>
    refine Quiet.seq ((writeData_quiet hl (hd d (by simp))).conseq ?_) fun _ K => ih (log_add hl K)
      fun d' hd' q hq => Multiset.mem_add.2 (Or.inl (hd d' (by simp [hd']) q hq))
    rintro - _ ⟨⟨K, rfl, hK⟩, -⟩
    exact ⟨K, by simp, hK⟩

theorem loadCheckpoint_quiet (hl : ∀ f ∈ lg, f ∈ A) {s : Res} (hs : s ∈ A) :
    Quiet F 0 A (loadCheckpoint lg s) := by
  refine Quiet.seq (c := 0) (c' := 0) (readData_quiet hl (by simp)) fun st K => ?_
  split
  · exact Quiet.pure
  refine Quiet.seq (c := 0) (c' := 0) (readData_quiet (log_add hl _) (by simp)) fun st K' => ?_
  split
  · exact Quiet.pure
  refine Quiet.seq (c := 0) (c' := 0) (readData_quiet (log_add (log_add hl _) _) (by simp [hs]))
    fun st K'' => ?_
  split <;> exact Quiet.pure

theorem saveCheckpoint_spec (hl : ∀ f ∈ lg, f ∈ A) {s : Res} (hs : s ∈ A) :
    Spec F A (saveCheckpoint lg s)
      (fun st B => (∃ K, B = A + K ∧ (F → K.card = 0)) ∧ (F → st = 0)) := by
  refine Spec.bind (writeData_quiet hl (by simp)) ?_
  rintro st _ ⟨⟨K, rfl, hK⟩, hst⟩
  split
  · exact Spec.pure ⟨⟨K, rfl, hK⟩, hst⟩
  refine Spec.bind (writeData_quiet (log_add hl _) (by simp)) ?_
  rintro st _ ⟨⟨K', rfl, hK'⟩, hst⟩
  have e : F → (K + K').card = 0 := fun hF => by rw [Multiset.card_add, hK hF, hK' hF]
  rw [add_assoc]
  split
  · exact Spec.pure ⟨⟨K + K', rfl, e⟩, hst⟩
  refine Spec.bind (writeData_quiet (log_add hl _) (by simp [hs])) ?_
  rintro st _ ⟨⟨K'', rfl, hK''⟩, hst⟩
  have e' : F → (K + K' + K'').card = 0 := fun hF => by rw [Multiset.card_add, e hF, hK'' hF]
  rw [add_assoc]
  split
  · exact Spec.pure ⟨⟨K + K' + K'', rfl, e'⟩, hst⟩
  · exact Spec.pure ⟨⟨K + K' + K'', rfl, e'⟩, fun _ => rfl⟩

/-! ## Monte Carlo iterations -/

def Phon.list (f : Phon) : List Res := [f.X, f.expX, f.g, f.omega]

/-- all blocks of a simulation -/
def Sim.list (c : Sim) : List Res :=
  c.kin.list ++ c.hs.list ++ [c.s, c.Gu, c.Gd] ++ c.tu.list ++ c.td.list

/-- sizes of a simulation -/
structure Sim.Wf (c : Sim) (L b : ℕ) : Prop where
  hL : 0 < L
  hb : 0 < b
  dvd : b ∣ L
  tu : c.tu.Wf L b
  td : c.td.Wf L b

theorem Sim.Wf.pos {c : Sim} {L b : ℕ} (h : c.Wf L b) : 0 < L / b :=
  Nat.div_pos (Nat.le_of_dvd h.hL h.dvd) h.hb

theorem Sim.tu_has {c : Sim} (h : Has A c.list) : Has A c.tu.list :=
  h.mono fun p hp => by simp [Sim.list, hp]
theorem Sim.td_has {c : Sim} (h : Has A c.list) : Has A c.td.list :=
  h.mono fun p hp => by simp [Sim.list, hp]
theorem Sim.Gu_mem {c : Sim} (h : Has A c.list) : c.Gu ∈ A := h _ (by simp [Sim.list])
theorem Sim.Gd_mem {c : Sim} (h : Has A c.list) : c.Gd ∈ A := h _ (by simp [Sim.list])
theorem Sim.s_mem {c : Sim} (h : Has A c.list) : c.s ∈ A := h _ (by simp [Sim.list])

theorem Sim.srcU_has {c : Sim} {e : Option Res} (h : Has A c.list) (he : ∀ q ∈ e, q ∈ A) :
    Has A (c.srcU e).list := by
  intro q hq
  simp only [Src.list, Sim.srcU, List.mem_append, Option.mem_toList] at hq
  rcases hq with hq | hq
  · refine h q ?_
    simp only [Sim.list, Kin.list, HS.list, List.mem_append, List.mem_cons, List.not_mem_nil,
      or_false] at hq ⊢
    tauto
  · exact he q hq

theorem Sim.srcD_has {c : Sim} {e : Option Res} (h : Has A c.list) (he : ∀ q ∈ e, q ∈ A) :
    Has A (c.srcD e).list := by
  intro q hq
  simp only [Src.list, Sim.srcD, List.mem_append, Option.mem_toList] at hq
  rcases hq with hq | hq
  · refine h q ?_
    simp only [Sim.list, Kin.list, HS.list, List.mem_append, List.mem_cons, List.not_mem_nil,
      or_false] at hq ⊢
    tauto
  · exact he q hq

theorem siteUpdates_same {c : Sim} {N : ℕ} {order : Res} (h : Has A c.list) (ho : order ∈ A) :
    Same F A (siteUpdates c N order) := by
  have h1 := Sim.Gu_mem h
  have h2 := Sim.Gd_mem h
  have h3 := Sim.s_mem h
  have h4 : c.hs.delta0 ∈ A := h _ (by simp [Sim.list, HS.list])
  have h5 : c.hs.delta1 ∈ A := h _ (by simp [Sim.list, HS.list])
  refine Spec.use ho (Same.loop fun _ _ => Spec.uses (by in_live) (Spec.ask fun d => ?_))
  refine Same.ite (fun _ => ?_) fun _ => Spec.pure rfl
  exact Same.bind (greenUpdate_same h1) fun _ => Same.bind (greenUpdate_same h2) fun _ =>
    Spec.uses' (by in_live)

/-- the copies of the Green's functions -/
def oldOwn (old : Option (Res × Res)) : Multiset Res :=
  old.elim 0 fun g => g.2 ::ₘ {g.1}

theorem allocOld_spec {dbg : Bool} : Spec F A (allocOld dbg) (fun o B => B = oldOwn o + A) := by
  cases dbg with
  | false => exact Spec.pure (by simp [oldOwn])
  | true =>
    refine Spec.alloc fun u => Spec.alloc fun d => Spec.pure ?_
    simp [oldOwn]

theorem deleteOld_spec {old : Option (Res × Res)} :
    Spec F (oldOwn old + A) (deleteOld old) (fun _ B => B = A) := by
  cases old with
  | none => exact Spec.pure (by simp [oldOwn])
  | some g =>
    refine Spec.free (by simp [oldOwn]) ((Spec.free' (by simp [oldOwn])).conseq ?_)
    rintro - _ rfl
    simp [oldOwn]

theorem recompute_same (hl : ∀ f ∈ lg, f ∈ A) {c : Sim} {L b shift : ℕ} (hc : c.Wf L b)
    (h : Has A c.list) {old : Option (Res × Res)} (ho : ∀ q ∈ oldOwn old, q ∈ A) :
    Same F A (recompute lg c old shift) := by
  have h1 := Sim.Gu_mem h
  have h2 := Sim.Gd_mem h
  cases old with
  | none =>
    refine Same.bind (greenConstruct_same hc.pos hc.tu (Sim.tu_has h) h1) fun _ => ?_
    exact Same.bind (greenConstruct_same hc.pos hc.td (Sim.td_has h) h2) fun _ => Spec.pure rfl
  | some g =>
    have g1 : g.1 ∈ A := ho _ (by simp [oldOwn])
    have g2 : g.2 ∈ A := ho _ (by simp [oldOwn])
    refine Same.bind (copyGreen_same h1 g1) fun _ => Same.bind (copyGreen_same h2 g2) fun _ => ?_
    refine Same.bind (greenConstruct_same hc.pos hc.tu (Sim.tu_has h) h1) fun _ => ?_
    refine Same.bind (greenConstruct_same hc.pos hc.td (Sim.td_has h) h2) fun _ => ?_
    refine Spec.uses (by in_live) (Spec.uses (by in_live) (Spec.ask fun e => ?_))
    exact Same.ite (fun _ => Spec.duprintf' hl) fun _ => Spec.pure rfl

/-- without phonons an iteration leaves the heap as it was -/
theorem iteration_same (hl : ∀ f ∈ lg, f ∈ A) {dbg : Bool} {c : Sim} {L b N nwraps : ℕ} {neqlt : ℤ}
    {m : EqD} (hc : c.Wf L b) (h : Has A c.list) (hm : Has A m.list) :
    Same F A (iteration lg dbg c N nwraps neqlt m) := by
  refine Spec.bind allocOld_spec ?_
  rintro old _ rfl
  refine Spec.alloc fun order => ?_
  have h' : Has (order ::ₘ (oldOwn old + A)) c.list := (h.add_left _).cons _
  have hm' : Has (order ::ₘ (oldOwn old + A)) m.list := (hm.add_left _).cons _
  have hl' : ∀ f ∈ lg, f ∈ order ::ₘ (oldOwn old + A) := log_cons (log_add_left hl _) _
  refine Same.bind (Same.loop fun l hlt => ?_) fun _ => ?_
  · rw [hc.tu.eqL] at hlt
    refine Spec.signalPoint hl' ?_
    refine Same.bind (wrapAt_same hc.tu (Sim.tu_has h') (Sim.Gu_mem h') hlt) fun _ => ?_
    refine Same.bind (wrapAt_same hc.td (Sim.td_has h') (Sim.Gd_mem h') hlt) fun _ => ?_
    refine Same.bind (siteUpdates_same h' (by simp)) fun _ => ?_
    refine Same.bind (updateTsm_same hc.hb hc.dvd hc.tu (Sim.srcU_has h' (by simp)) (Sim.tu_has h') hlt)
      fun _ => ?_
    refine Same.bind (updateTsm_same hc.hb hc.dvd hc.td (Sim.srcD_has h' (by simp)) (Sim.td_has h') hlt)
      fun _ => ?_
    have hold : ∀ q ∈ oldOwn old, q ∈ order ::ₘ (oldOwn old + A) := fun q hq => by simp [hq]
    refine Same.branch (fun _ => recompute_same hl' hc h' hold) fun _ => ?_
    exact Same.ite (fun _ => accumulateEq_same (Sim.Gu_mem h') (Sim.Gd_mem h') hm') fun _ => Spec.pure rfl
  · refine Spec.free (by simp) ?_
    rw [Multiset.erase_cons_head]
    exact deleteOld_spec

theorem globalUpdates_same {c : Sim} {f : Phon} {L b : ℕ} {n : ℤ} (hc : c.Wf L b) (h : Has A c.list)
    (hf : Has A f.list) : Same F A (globalUpdates c f n) := by
  refine Same.ite (fun _ => Spec.pure rfl) fun _ => ?_
  refine Spec.alloc fun Xi => Spec.alloc fun eXi => Spec.alloc fun Gu => Spec.alloc fun Gd => ?_
  refine Spec.bind allocTsm_spec ?_
  rintro tu _ ⟨wu, rfl⟩
  refine Spec.bind allocTsm_spec ?_
  rintro td _ ⟨wd, rfl⟩
  rw [hc.tu.eqL, hc.tu.eqb] at wu
  rw [hc.tu.eqL, hc.td.eqb] at wd
  have up : ∀ ps, Has A ps → Has (td.own + (tu.own + Gd ::ₘ Gu ::ₘ eXi ::ₘ Xi ::ₘ A)) ps := fun ps h =>
    (((((h.cons _).cons _).cons _).cons _).add_left _).add_left _
  have h' := up _ h
  have hf' := up _ hf
  have gu : Has (td.own + (tu.own + Gd ::ₘ Gu ::ₘ eXi ::ₘ Xi ::ₘ A)) tu.list :=
    ((Tsm.own_has tu).add _).add_left _
  have gd : Has (td.own + (tu.own + Gd ::ₘ Gu ::ₘ eXi ::ₘ Xi ::ₘ A)) td.list := (Tsm.own_has td).add _
  have a1 : Xi ∈ td.own + (tu.own + Gd ::ₘ Gu ::ₘ eXi ::ₘ Xi ::ₘ A) := by simp
  have a2 : eXi ∈ td.own + (tu.own + Gd ::ₘ Gu ::ₘ eXi ::ₘ Xi ::ₘ A) := by simp
  have a3 : Gu ∈ td.own + (tu.own + Gd ::ₘ Gu ::ₘ eXi ::ₘ Xi ::ₘ A) := by simp
  have a4 : Gd ∈ td.own + (tu.own + Gd ::ₘ Gu ::ₘ eXi ::ₘ Xi ::ₘ A) := by simp
  refine Same.bind (A := td.own + (tu.own + Gd ::ₘ Gu ::ₘ eXi ::ₘ Xi ::ₘ A)) (Same.loop fun _ _ => ?_)
    fun _ => ?_
  · generalize td.own + (tu.own + Gd ::ₘ Gu ::ₘ eXi ::ₘ Xi ::ₘ A) = C at h' hf' gu gd a1 a2 a3 a4
    have f1 : f.X ∈ C := hf' _ (by simp [Phon.list])
    have f2 : f.expX ∈ C := hf' _ (by simp [Phon.list])
    have f3 : f.g ∈ C := hf' _ (by simp [Phon.list])
    have f4 : f.omega ∈ C := hf' _ (by simp [Phon.list])
    refine Spec.use f3 (Spec.ask fun sk => Same.ite (fun _ => Spec.pure rfl) fun _ => ?_)
    refine Spec.uses (by in_live) (Spec.uses (by in_live) ?_)
    refine Same.bind (initTsm_same hc.hb wu (Sim.srcU_has h' (by simpa using f2)) gu) fun _ => ?_
    refine Same.bind (initTsm_same hc.hb wd (Sim.srcD_has h' (by simpa using f2)) gd) fun _ => ?_
    refine Same.bind (greenConstruct_same hc.pos wu gu a3) fun _ => ?_
    refine Same.bind (greenConstruct_same hc.pos wd gd a4) fun _ => Spec.ask fun d => ?_
    refine Same.ite (fun _ => ?_) fun _ => Spec.uses' (by in_live)
    refine Same.bind (copyGreen_same a3 (Sim.Gu_mem h')) fun _ => ?_
    refine Same.bind (copyGreen_same a4 (Sim.Gd_mem h')) fun _ => ?_
    exact Same.bind (copyTsm_same wu hc.tu gu (Sim.tu_has h')) fun _ =>
      copyTsm_same wd hc.td gd (Sim.td_has h')
  refine Spec.bind (deleteTsm_spec wd) ?_
  rintro - _ rfl
  refine Spec.bind (deleteTsm_spec wu) ?_
  rintro - _ rfl
  refine Spec.free (by simp) ?_
  rw [Multiset.erase_cons_head]
  refine Spec.free (by simp) ?_
  rw [Multiset.erase_cons_head]
  refine Spec.free (by simp) ?_
  rw [Multiset.erase_cons_head]
  exact (Spec.free' (by simp)).conseq fun _ _ h => by rw [h, Multiset.erase_cons_head]

theorem phononLocal_same {c : Sim} {f : Phon} {n : ℤ} {order : Res} (h : Has A c.list)
    (hf : Has A f.list) (ho : order ∈ A) : Same F A (phononLocal c f n order) := by
  have h1 := Sim.Gu_mem h
  have h2 := Sim.Gd_mem h
  have f1 : f.X ∈ A := hf _ (by simp [Phon.list])
  have f2 : f.expX ∈ A := hf _ (by simp [Phon.list])
  have f3 : f.g ∈ A := hf _ (by simp [Phon.list])
  have f4 : f.omega ∈ A := hf _ (by simp [Phon.list])
  refine Spec.use ho (Same.loop fun _ _ => Spec.uses (by in_live) (Spec.ask fun sk => ?_))
  refine Same.ite (fun _ => Spec.pure rfl) fun _ => Spec.uses (by in_live) (Spec.ask fun d => ?_)
  refine Same.ite (fun _ => ?_) fun _ => Spec.pure rfl
  exact Same.bind (greenUpdate_same h1) fun _ => Same.bind (greenUpdate_same h2) fun _ =>
    Spec.uses' (by in_live)

/-- measurements in one iteration -/
def slicesMeasured (L : ℕ) (neqlt : ℤ) : ℕ := if neqlt > 0 then L / neqlt.toNat else 0

theorem sum_slices (neqlt : ℤ) (L : ℕ) :
    ((List.range L).map fun l : ℕ => if neqlt > 0 ∧ ((l : ℤ) + 1) % neqlt = 0 then 1 else 0).sum =
      slicesMeasured L neqlt := by
  by_cases h : neqlt > 0
  · obtain ⟨n, rfl⟩ : ∃ n : ℕ, neqlt = n := ⟨neqlt.toNat, by omega⟩
    have hn : 0 < n := by omega
    simp only [slicesMeasured, h, true_and, if_true, Int.toNat_natCast]
    induction L with
    | zero => simp
    | succ L ih =>
      rw [List.range_succ, List.map_append, List.sum_append, ih, Nat.succ_div]
      simp only [List.map_cons, List.map_nil, List.sum_cons, List.sum_nil, add_zero]
      congr 1
      have : (((L : ℤ) + 1) % n = 0) ↔ n ∣ L + 1 := by
        rw [← Int.natCast_dvd_natCast, Int.dvd_iff_emod_eq_zero, Nat.cast_add, Nat.cast_one]
      simp only [this]
  · simp [slicesMeasured, h]

/-- with phonons an iteration loses one block in each measurement -/
theorem phononIteration_quiet (hl : ∀ f ∈ lg, f ∈ A) {dbg noHS : Bool} {c : Sim} {f : Phon}
    {L b N nwraps : ℕ} {nLocal nBlock neqlt : ℤ} {m : EqD} {mp : PhD} (hc : c.Wf L b)
    (h : Has A c.list) (hf : Has A f.list) (hm : Has A m.list) (hp : Has A mp.data) :
    Quiet F (slicesMeasured L neqlt) A
      (phononIteration lg dbg noHS c f N nwraps nLocal nBlock neqlt m mp) := by
  refine Spec.bind allocOld_spec ?_
  rintro old _ rfl
  refine Spec.alloc fun order => ?_
  rw [← sum_slices]
  have up : ∀ K ps, Has A ps → Has (order ::ₘ (oldOwn old + A) + K) ps := fun K ps h =>
    ((h.add_left _).cons _).add _
  have hl' : ∀ K, ∀ f ∈ lg, f ∈ order ::ₘ (oldOwn old + A) + K := fun K =>
    log_add (log_cons (log_add_left hl _) _) _
  rw [hc.tu.eqL]
  refine Quiet.bind (Quiet.loop (c := fun l : ℕ => if neqlt > 0 ∧ ((l : ℤ) + 1) % neqlt = 0 then 1 else 0)
    fun l hlt K => ?_) fun _ K hK => ?_
  · have h' := up K _ h
    have hf' := up K _ hf
    have hm' := up K _ hm
    have hp' := up K _ hp
    have hl'' := hl' K
    have ho : order ∈ order ::ₘ (oldOwn old + A) + K := by simp
    have hold : ∀ q ∈ oldOwn old, q ∈ order ::ₘ (oldOwn old + A) + K := fun q hq => by simp [hq]
    generalize order ::ₘ (oldOwn old + A) + K = C at h' hf' hm' hp' hl'' ho hold
    have f1 : f.X ∈ C := hf' _ (by simp [Phon.list])
    have f2 : f.expX ∈ C := hf' _ (by simp [Phon.list])
    have f4 : f.omega ∈ C := hf' _ (by simp [Phon.list])
    refine Spec.signalPoint hl'' ?_
    refine Same.bind (wrapAt_same hc.tu (Sim.tu_has h') (Sim.Gu_mem h') hlt) fun _ => ?_
    refine Same.bind (wrapAt_same hc.td (Sim.td_has h') (Sim.Gd_mem h') hlt) fun _ => ?_
    refine Same.branch' (fun _ => siteUpdates_same h' ho) fun _ => ?_
    refine Same.bind (phononLocal_same h' hf' ho) fun _ => ?_
    refine Same.bind (updateTsm_same hc.hb hc.dvd hc.tu (Sim.srcU_has h' (by simpa using f2))
      (Sim.tu_has h') hlt) fun _ => ?_
    refine Same.bind (updateTsm_same hc.hb hc.dvd hc.td (Sim.srcD_has h' (by simpa using f2))
      (Sim.td_has h') hlt) fun _ => ?_
    refine Same.branch (fun _ => recompute_same hl'' hc h' hold) fun _ => ?_
    split
    · exact Same.bind (accumulateEq_same (Sim.Gu_mem h') (Sim.Gd_mem h') hm') fun _ =>
        accumulatePh_quiet (Sim.Gu_mem h') (Sim.Gd_mem h') f1 f4 hp'
    · exact Quiet.pure
  · refine Same.bind (globalUpdates_same hc (up K _ h) (up K _ hf)) fun _ => ?_
    refine Same.bind (globalUpdates_same hc (up K _ h) (up K _ hf)) fun _ => ?_
    refine Spec.free (by simp) ?_
    rw [Multiset.cons_add, Multiset.erase_cons_head, add_assoc]
    refine deleteOld_spec.conseq ?_
    rintro - _ rfl
    exact ⟨K, by simp, hK⟩

variable {𝔽 : Type}

/-- measurements between iterations `it` and `it'` in a run with phonons -/
def phononMeasurements (p : SimParams 𝔽) (it it' : ℤ) : ℕ :=
  if p.usePhonons then (max it' p.nequil - max it p.nequil).toNat * slicesMeasured p.L.toNat p.neqlt else 0

theorem phononMeasurements_self (p : SimParams 𝔽) (it : ℤ) : phononMeasurements p it it = 0 := by
  simp [phononMeasurements]

theorem phononMeasurements_step (p : SimParams 𝔽) {it it' : ℤ} (h : it + 1 ≤ it') (hp : p.usePhonons = true) :
    slicesMeasured p.L.toNat (if it ≥ p.nequil then p.neqlt else 0) + phononMeasurements p (it + 1) it' =
      phononMeasurements p it it' := by
  simp only [phononMeasurements, hp, if_true]
  by_cases hi : it ≥ p.nequil
  · rw [if_pos hi, max_eq_left (by omega), max_eq_left (by omega), max_eq_left (by omega),
      show (it' - it).toNat = (it' - (it + 1)).toNat + 1 by omega]
    ring
  · rw [if_neg hi, max_eq_right (show it + 1 ≤ p.nequil by omega), max_eq_right (show it ≤ p.nequil by omega)]
    simp [slicesMeasured]

/-- blocks of the measurement data -/
def uneqOwn (u : Option UneqD) : Multiset Res := u.elim 0 fun m => (m.list : Multiset Res)
def phOwn (u : Option PhD) : Multiset Res := u.elim 0 fun m => (m.data : Multiset Res)
def fieldOwn (f : Option Phon) : Multiset Res := f.elim 0 fun f => f.expX ::ₘ {f.X}

/-- the data that the parameters ask for have been allocated -/
structure Ready (p : SimParams 𝔽) (m : Data) : Prop where
  uneq : m.uneq.isSome = decide (p.nuneqlt > 0)
  ph : m.ph.isSome = p.usePhonons

theorem withUneq_spec {p : SimParams 𝔽} {m : Data} {k : UneqD → Mem Unit} {Q : Unit → Multiset Res → Prop}
    (hr : Ready p m) (h0 : m.uneq = none → Q () A) (h1 : ∀ mu, m.uneq = some mu → Spec F A (k mu) Q) :
    Spec F A (withUneq p m k) Q := by
  have h := hr.uneq
  unfold withUneq
  split
  · rw [decide_eq_true ‹_›, Option.isSome_iff_exists] at h
    obtain ⟨mu, hmu⟩ := h
    exact Spec.deref hmu (h1 mu hmu)
  · rw [decide_eq_false ‹_›, Option.isSome_eq_false_iff, Option.isNone_iff_eq_none] at h
    exact Spec.pure (h0 h)

theorem withPh_spec {p : SimParams 𝔽} {m : Data} {k : PhD → Mem Unit} {Q : Unit → Multiset Res → Prop}
    (hr : Ready p m) (h0 : m.ph = none → Q () A) (h1 : ∀ mp, m.ph = some mp → Spec F A (k mp) Q) :
    Spec F A (withPh p m k) Q := by
  have h := hr.ph
  unfold withPh
  split
  · rename_i hp
    rw [hp, Option.isSome_iff_exists] at h
    obtain ⟨mp, hmp⟩ := h
    exact Spec.deref hmp (h1 mp hmp)
  · rename_i hp
    rw [Bool.not_eq_true] at hp
    rw [hp, Option.isSome_eq_false_iff, Option.isNone_iff_eq_none] at h
    exact Spec.pure (h0 h)

/-- the loop over the iterations is defined; if nothing fails it loses one block in each measurement
with phonons -/
theorem iterations_spec {dbg noHS : Bool} {p : SimParams 𝔽} {c : Sim} {b : ℕ} {f : Option Phon}
    {m : Data} (hc : c.Wf p.L.toNat b) (hr : Ready p m) (hf : f.isSome = p.usePhonons) (fuel : ℕ) :
    ∀ (A : Multiset Res) (it : ℤ), (∀ f ∈ lg, f ∈ A) → Has A c.list → (∀ f' ∈ f, Has A f'.list) →
      Has A m.eq.list → (∀ q ∈ uneqOwn m.uneq, q ∈ A) → (∀ q ∈ phOwn m.ph, q ∈ A) →
      Spec F A (iterations lg dbg noHS p c f m fuel it) (fun it' B => (it ≤ it' ∧ it' ≤ it + fuel) ∧
        ∃ K, B = A + K ∧ (F → K.card = phononMeasurements p it it')) := by
  induction fuel with
  | zero =>
    intro A it _ _ _ _ _ _
    exact Spec.pure ⟨⟨le_rfl, by simp⟩, 0, by simp, fun _ => by simp [phononMeasurements_self]⟩
  | succ fuel ih =>
    intro A it hl h hfl hm hu hp
    refine Spec.signalPoint hl (Spec.ask fun stop => ?_)
    split
    · exact Spec.duprintf hl (Spec.pure ⟨⟨le_rfl, by omega⟩, 0, by simp,
        fun _ => by simp [phononMeasurements_self]⟩)
    have next : ∀ K : Multiset Res, (F → K.card = if p.usePhonons then
          slicesMeasured p.L.toNat (if it ≥ p.nequil then p.neqlt else 0) else 0) →
        Spec F (A + K) (if it ≥ p.nequil ∧ p.nuneqlt > 0 ∧ it.tmod p.nuneqlt = 0 then do
            let mu ← deref m.uneq
            accumulateUneq lg p.L.toNat c.tu c.td mu
            iterations lg dbg noHS p c f m fuel (it + 1)
          else iterations lg dbg noHS p c f m fuel (it + 1))
          (fun it' B => (it ≤ it' ∧ it' ≤ it + (fuel + 1 : ℕ)) ∧
            ∃ K, B = A + K ∧ (F → K.card = phononMeasurements p it it')) := by
      intro K hK
      have rest : ∀ K' : Multiset Res, (F → K'.card = 0) →
          Spec F (A + K + K') (iterations lg dbg noHS p c f m fuel (it + 1))
          (fun it' B => (it ≤ it' ∧ it' ≤ it + (fuel + 1 : ℕ)) ∧
            ∃ K, B = A + K ∧ (F → K.card = phononMeasurements p it it')) := by
        intro K' hK'
        refine (ih (A + K + K') (it + 1) (log_add (log_add hl _) _) ((h.add _).add _)
          (fun f' hf' => ((hfl f' hf').add _).add _) ((hm.add _).add _) (fun q hq => ?_)
          (fun q hq => ?_)).conseq ?_
        · simp [hu q hq]
        · simp [hp q hq]
        · rintro it' _ ⟨hit, K'', rfl, hK''⟩
          refine ⟨by push_cast; omega, K + K' + K'', by simp only [add_assoc], fun hF => ?_⟩
          rw [Multiset.card_add, Multiset.card_add, hK hF, hK' hF, hK'' hF]
          by_cases hph : p.usePhonons = true
          · rw [if_pos hph, add_zero]
            exact phononMeasurements_step p hit.1 hph
          · simp [phononMeasurements, hph]
      split
      · rename_i hc1
        have hi := hr.uneq
        rw [decide_eq_true hc1.2.1, Option.isSome_iff_exists] at hi
        obtain ⟨mu, hmu⟩ := hi
        refine Spec.deref hmu ?_
        have hmu' : Has A mu.list := fun q hq => hu q (by rw [hmu]; exact hq)
        exact Quiet.bind (accumulateUneq_quiet (log_add hl _) hc.tu hc.td ((Sim.tu_has h).add _)
          ((Sim.td_has h).add _) (hmu'.add _)) fun _ K' hK' => rest K' hK'
      · simpa using rest 0 (by simp)
    by_cases hph : p.usePhonons = true
    · simp only [hph, if_true] at next ⊢
      rw [hph, Option.isSome_iff_exists] at hf
      obtain ⟨f', hf'⟩ := hf
      have hmp := hr.ph
      rw [hph, Option.isSome_iff_exists] at hmp
      obtain ⟨mp, hmp⟩ := hmp
      refine Spec.deref hf' (Spec.deref hmp ?_)
      have hmp' : Has A mp.data := fun q hq => hp q (by rw [hmp]; exact hq)
      exact Quiet.bind (phononIteration_quiet hl hc h (hfl f' hf') hm hmp') fun _ K hK => next K hK
    · simp only [hph] at next ⊢
      refine Same.bind (iteration_same hl hc h hm) fun _ => ?_
      simpa using next 0 (by simp)

/-- what validation guarantees about the number of slices -/
structure Slices (p : SimParams 𝔽) : Prop where
  hL : 0 < p.L.toNat
  hb : 0 < p.prodBlen.toNat
  dvd : p.prodBlen.toNat ∣ p.L.toNat

theorem simulate_spec (hl : ∀ f ∈ lg, f ∈ A) {dbg : Bool} {p : SimParams 𝔽} {pp : ParamPtrs} {m : Data}
    {s : Res} {f : Option Phon} {it : ℤ} (hs : Slices p) (hr : Ready p m) (hf : f.isSome = p.usePhonons)
    (hpp : Has A pp.list) (hsA : s ∈ A) (hfl : ∀ f' ∈ f, Has A f'.list) (hm : Has A m.eq.list)
    (hu : ∀ q ∈ uneqOwn m.uneq, q ∈ A) (hp : ∀ q ∈ phOwn m.ph, q ∈ A) :
    Spec F A (simulate lg dbg p pp m s f it) (fun it' B =>
      (it ≤ it' ∧ it' ≤ max it (p.nequil + p.nsampl)) ∧
      ∃ K, B = A + K ∧ (F → K.card = phononMeasurements p it it')) := by
  refine Keeps.bind (kineticExponential_keeps hl hpp) fun kin K0 hK0 => ?_
  have hU : pp.U ∈ (kin.list : Multiset Res) + (A + K0) := by
    have := hpp pp.U (by simp [ParamPtrs.list])
    simp [this]
  refine Spec.use hU (Spec.ask fun noHS => ?_)
  refine Spec.bind (fillHS_spec hU) ?_
  rintro hs' _ rfl
  refine Spec.bind allocTsm_spec ?_
  rintro tu _ ⟨wu, rfl⟩
  refine Spec.bind allocTsm_spec ?_
  rintro td _ ⟨wd, rfl⟩
  have hn : 0 < p.L.toNat / p.prodBlen.toNat := Nat.div_pos (Nat.le_of_dvd hs.hL hs.dvd) hs.hb
  have upA : ∀ ps, Has A ps →
      Has (td.own + (tu.own + ((hs'.list : Multiset Res) + ((kin.list : Multiset Res) + (A + K0))))) ps :=
    fun ps h => ((((h.add _).add_left _).add_left _).add_left _).add_left _
  have gu : Has (td.own + (tu.own + ((hs'.list : Multiset Res) + ((kin.list : Multiset Res) + (A + K0)))))
      tu.list := ((Tsm.own_has tu).add _).add_left _
  have gd : Has (td.own + (tu.own + ((hs'.list : Multiset Res) + ((kin.list : Multiset Res) + (A + K0)))))
      td.list := (Tsm.own_has td).add _
  have hks : Has (td.own + (tu.own + ((hs'.list : Multiset Res) + ((kin.list : Multiset Res) + (A + K0)))))
      (kin.list ++ hs'.list ++ [s]) := by
    intro q hq
    simp only [List.mem_append, List.mem_singleton] at hq
    simp only [Multiset.mem_add, Multiset.mem_coe]
    rcases hq with (hq | hq) | rfl
    · exact Or.inr (Or.inr (Or.inr (Or.inl hq)))
    · exact Or.inr (Or.inr (Or.inl hq))
    · exact Or.inr (Or.inr (Or.inr (Or.inr (Or.inl hsA))))
  have hinit : Same F
      (td.own + (tu.own + ((hs'.list : Multiset Res) + ((kin.list : Multiset Res) + (A + K0)))))
      (initMatrices p kin hs' s f tu td) := by
    have hfl' : ∀ f' ∈ f, Has (td.own + (tu.own + ((hs'.list : Multiset Res) +
        ((kin.list : Multiset Res) + (A + K0))))) f'.list := fun f' hf' => upA _ (hfl f' hf')
    generalize td.own + (tu.own + ((hs'.list : Multiset Res) + ((kin.list : Multiset Res) + (A + K0)))) = C
      at gu gd hks hfl'
    have src : ∀ (e0 e1 : Res) (x : Option Res), e0 ∈ hs'.list → e1 ∈ hs'.list → (∀ q ∈ x, q ∈ C) →
        Has C (Src.list ⟨kin, e0, e1, s, x⟩) := by
      intro e0 e1 x h0 h1 hx q hq
      simp only [Src.list, List.mem_append, List.mem_cons, List.not_mem_nil, or_false,
        Option.mem_toList] at hq
      rcases hq with (rfl | rfl | rfl | rfl | rfl) | hq
      · exact hks _ (by simp [Kin.list])
      · exact hks _ (by simp [Kin.list])
      · exact hks _ (by simp [h0])
      · exact hks _ (by simp [h1])
      · exact hks _ (by simp)
      · exact hx q hq
    unfold initMatrices
    split
    · rename_i hph
      rw [hph, Option.isSome_iff_exists] at hf
      obtain ⟨f', hf'⟩ := hf
      have hx : ∀ q ∈ some f'.expX, q ∈ C := fun q hq => by
        rw [← Option.some_injective _ hq]
        exact hfl' f' hf' _ (by simp [Phon.list])
      refine Spec.deref hf' (Same.bind (initTsm_same hs.hb wu (src _ _ _ ?_ ?_ hx) gu) fun _ =>
        initTsm_same hs.hb wd (src _ _ _ ?_ ?_ hx) gd) <;> simp [HS.list]
    · refine Same.bind (initTsm_same hs.hb wu (src _ _ _ ?_ ?_ (by simp)) gu) fun _ =>
        initTsm_same hs.hb wd (src _ _ _ ?_ ?_ (by simp)) gd <;> simp [HS.list]
  refine Same.bind hinit fun _ => Spec.alloc fun Gu => Spec.alloc fun Gd => ?_
  refine Same.bind (greenConstruct_same hn wu ((gu.cons _).cons _) (by simp)) fun _ => ?_
  refine Same.bind (greenConstruct_same hn wd ((gd.cons _).cons _) (by simp)) fun _ => ?_
  have hl' : ∀ f ∈ lg, f ∈ Gd ::ₘ Gu ::ₘ (td.own + (tu.own + ((hs'.list : Multiset Res) +
      ((kin.list : Multiset Res) + (A + K0))))) :=
    log_cons (log_cons (log_add_left (log_add_left (log_add_left (log_add_left (log_add hl _) _) _) _) _) _) _
  refine Spec.signalPoint hl' (Spec.duprintf hl' ?_)
  refine Spec.bind (iterations_spec (c := ⟨kin, hs', s, tu, td, Gu, Gd⟩) ⟨hs.hL, hs.hb, hs.dvd, wu, wd⟩
    hr hf _ _ it hl' ?_ (fun f' hf' => ((upA _ (hfl f' hf')).cons _).cons _) (((upA _ hm).cons _).cons _)
    (fun q hq => by simp [hu q hq]) (fun q hq => by simp [hp q hq])) ?_
  · intro q hq
    simp only [Sim.list, List.mem_append, List.mem_cons, List.not_mem_nil, or_false] at hq
    simp only [Multiset.mem_cons, Multiset.mem_add, Multiset.mem_coe, Tsm.own]
    rcases hq with (((hq | hq) | (rfl | rfl | rfl)) | hq) | hq <;> simp [*]
  rintro it' _ ⟨hit, K, rfl, hK⟩
  simp only [Multiset.cons_add]
  refine Spec.free (by simp) ?_
  rw [Multiset.erase_cons_head]
  refine Spec.free (by simp) ?_
  rw [Multiset.erase_cons_head]
  simp only [add_assoc]
  refine Spec.bind (deleteTsm_spec wd) ?_
  rintro - _ rfl
  refine Spec.bind (deleteTsm_spec wu) ?_
  rintro - _ rfl
  refine Spec.bind deleteHS_spec ?_
  rintro - _ rfl
  refine Spec.bind deleteKinetic_spec ?_
  rintro - _ rfl
  refine Spec.pure ⟨?_, K0 + K, rfl, fun hF => by rw [Multiset.card_add, hK0 hF, hK hF, zero_add]⟩
  omega

/-! ## `main` -/

theorem eqFiles_live {m : EqD} (h : Has A m.list) : ∀ d ∈ m.files, ∀ q ∈ d, q ∈ A := by
  intro d hd q hq
  rcases List.mem_append.1 hd with hd | hd
  · simp only [List.mem_cons, List.not_mem_nil, or_false, or_self] at hd
    simp [hd] at hq
  · obtain ⟨r, hr, rfl⟩ := List.mem_map.1 hd
    rw [← Option.some_injective _ hq]
    exact h r (by simp [EqD.list, hr])

theorem uneqFiles_live {m : UneqD} (h : Has A m.list) : ∀ d ∈ m.files, ∀ q ∈ d, q ∈ A := by
  intro d hd q hq
  rcases List.mem_append.1 hd with hd | hd
  · simp only [List.mem_cons, List.not_mem_nil, or_false, or_self] at hd
    simp [hd] at hq
  · obtain ⟨r, hr, rfl⟩ := List.mem_map.1 hd
    rw [← Option.some_injective _ hq]
    exact h r (by simp [UneqD.list, hr])

theorem phFiles_live {m : PhD} (h : Has A m.data) : ∀ d ∈ m.files, ∀ q ∈ d, q ∈ A := by
  intro d hd q hq
  rcases List.mem_append.1 hd with hd | hd
  · rcases List.mem_append.1 hd with hd | hd
    · simp only [List.mem_cons, List.not_mem_nil, or_false, or_self] at hd
      simp [hd] at hq
    · obtain ⟨r, hr, rfl⟩ := List.mem_map.1 hd
      rw [← Option.some_injective _ hq]
      refine h r ?_
      simp only [PhD.data, List.mem_cons, List.not_mem_nil, or_false] at hr ⊢
      tauto
  · simp only [List.mem_cons, List.not_mem_nil, or_false, or_self] at hd
    simp [hd] at hq

theorem readData_spec (hl : ∀ f ∈ lg, f ∈ A) {d : Option Res} (hd : ∀ q ∈ d, q ∈ A) :
    Spec F A (readData lg d) (fun st B => (∃ K, B = A + K ∧ (F → K.card = 0)) ∧ (F → st = 0)) := by
  refine Spec.fails (fun hF => ?_) ?_
  · exact Spec.duprintf hl (Spec.pure ⟨⟨0, by simp, fun h => absurd h hF⟩, fun h => absurd h hF⟩)
  refine Spec.openFd fun fd => Spec.use (by simp) (Spec.fails (fun hF => ?_) ?_)
  · refine Spec.duprintf (log_cons hl _) (Spec.pure ⟨⟨{fd}, ?_, fun h => absurd h hF⟩, fun h => absurd h hF⟩)
    simp only [← Multiset.singleton_add]
    abel
  refine Spec.uses (fun q hq => Multiset.mem_cons_of_mem (hd q (by simpa using hq)))
    (Spec.fails (fun hF => ?_) ?_)
  · refine Spec.duprintf (log_cons hl _) (Spec.pure ⟨⟨{fd}, ?_, fun h => absurd h hF⟩, fun h => absurd h hF⟩)
    simp only [← Multiset.singleton_add]
    abel
  · refine Spec.free (by simp) ?_
    rw [Multiset.erase_cons_head]
    exact Spec.pure ⟨⟨0, by simp, by simp⟩, fun _ => rfl⟩

theorem loadCheckpoint_spec (hl : ∀ f ∈ lg, f ∈ A) {s : Res} (hs : s ∈ A) :
    Spec F A (loadCheckpoint lg s)
      (fun st B => (∃ K, B = A + K ∧ (F → K.card = 0)) ∧ (F → st = 0)) := by
  refine Spec.bind (readData_spec hl (by simp)) ?_
  rintro st _ ⟨⟨K, rfl, hK⟩, hst⟩
  split
  · exact Spec.pure ⟨⟨K, rfl, hK⟩, hst⟩
  refine Spec.bind (readData_spec (log_add hl _) (by simp)) ?_
  rintro st _ ⟨⟨K', rfl, hK'⟩, hst⟩
  have e : F → (K + K').card = 0 := fun hF => by rw [Multiset.card_add, hK hF, hK' hF]
  rw [add_assoc]
  split
  · exact Spec.pure ⟨⟨K + K', rfl, e⟩, hst⟩
  refine Spec.bind (readData_spec (log_add hl _) (by simp [hs])) ?_
  rintro st _ ⟨⟨K'', rfl, hK''⟩, hst⟩
  have e' : F → (K + K' + K'').card = 0 := fun hF => by rw [Multiset.card_add, e hF, hK'' hF]
  rw [add_assoc]
  split
  · exact Spec.pure ⟨⟨K + K' + K'', rfl, e'⟩, hst⟩
  · exact Spec.pure ⟨⟨K + K' + K'', rfl, e'⟩, fun _ => rfl⟩

theorem startup_spec (hl : ∀ f ∈ lg, f ∈ A) {p : SimParams 𝔽} {m : Data} {s : Res} (hr : Ready p m)
    (hs : s ∈ A) (hm : Has A m.eq.list) (hu : ∀ q ∈ uneqOwn m.uneq, q ∈ A) :
    Spec F A (startup lg p m s) (fun st B => (∃ K, B = A + K ∧ (F → K.card = 0)) ∧
      (F → st.1 = 0 ∨ st.1 = -6) ∧ (st.1 = 0 ∨ st.1 < 0)) := by
  refine Spec.ask fun found => ?_
  split
  · exact Spec.use hs (Spec.duprintf hl (Spec.pure ⟨⟨0, by simp, by simp⟩, by simp, by simp⟩))
  refine Spec.bind (loadCheckpoint_spec hl hs) ?_
  rintro st _ ⟨⟨K, rfl, hK⟩, hst⟩
  split
  · refine Spec.duprintf (log_add hl _) (Spec.pure ⟨⟨K, rfl, hK⟩, fun hF => ?_, by simp⟩)
    have := hst hF
    omega
  refine Spec.duprintf (log_add hl _) (Spec.ask fun it => ?_)
  split
  · exact Spec.duprintf (log_add hl _) (Spec.pure ⟨⟨K, rfl, hK⟩, by simp, by simp⟩)
  refine Quiet.bind (readAll_quiet (log_add hl _) (eqFiles_live (hm.add _))) fun _ K' hK' => ?_
  refine Quiet.bind (c := 0) (withUneq_spec hr (fun _ => ⟨0, by simp, by simp⟩) fun mu hmu =>
    readAll_quiet (log_add (log_add hl _) _) (uneqFiles_live ?_)) fun _ K'' hK'' => ?_
  · intro q hq
    have := hu q (by rw [hmu]; exact hq)
    simp [this]
  · refine Spec.duprintf (log_add (log_add (log_add hl _) _) _) (Spec.pure ⟨⟨K + K' + K'', ?_, ?_⟩, ?_⟩)
    · simp only [add_assoc]
    · intro hF
      rw [Multiset.card_add, Multiset.card_add, hK hF, hK' hF, hK'' hF]
    · simp

theorem phononField_spec {p : SimParams 𝔽} {pp : ParamPtrs} (h : Has A pp.list) :
    Spec F A (phononField p pp) (fun f B => B = fieldOwn f + A ∧ f.isSome = p.usePhonons ∧
      ∀ f' ∈ f, Has B f'.list) := by
  have hg : pp.g ∈ A := h _ (by simp [ParamPtrs.list])
  have ho : pp.omega ∈ A := h _ (by simp [ParamPtrs.list])
  unfold phononField
  split
  · rename_i hp
    refine Spec.alloc fun X => Spec.alloc fun e => Spec.uses (by in_live) (Spec.pure ⟨?_, by simp [hp], ?_⟩)
    · simp [fieldOwn]
    · rintro f' hf' q hq
      rw [← Option.some_injective _ hf'] at hq
      simp only [Phon.list, List.mem_cons, List.not_mem_nil, or_false] at hq
      rcases hq with rfl | rfl | rfl | rfl <;> simp [*]
  · rename_i hp
    exact Spec.pure ⟨by simp [fieldOwn], by simpa using hp, by simp⟩

theorem summarize_same (hl : ∀ f ∈ lg, f ∈ A) {p : SimParams 𝔽} {m : Data} {it : ℤ} (hr : Ready p m)
    (hm : Has A m.eq.list) (hu : ∀ q ∈ uneqOwn m.uneq, q ∈ A) (hp : ∀ q ∈ phOwn m.ph, q ∈ A) :
    Same F A (summarize lg p m it) := by
  refine Spec.duprintf hl (Same.ite (fun _ => ?_) fun _ => Spec.pure rfl)
  refine Spec.uses (fun q hq => hm q (by simp [EqD.list, hq])) ?_
  refine Same.bind (withUneq_spec hr (fun _ => rfl) fun mu hmu => Spec.uses' fun q hq => ?_) fun _ => ?_
  · exact hu q (by rw [hmu]; show q ∈ (mu.list : Multiset Res); simp [UneqD.list, hq])
  refine Spec.duprintf hl (withPh_spec hr (fun _ => rfl) fun mp hmp => Spec.uses (fun q hq => ?_)
    (Spec.duprintf' hl))
  exact hp q (by rw [hmp]; exact hq)

/-- the heap at the end of a run -/
def held (lg s : Res) (m : Data) (f : Option Phon) (pp : ParamPtrs) (R : Multiset Res) : Multiset Res :=
  lg ::ₘ (fieldOwn f + (phOwn m.ph + (s ::ₘ (uneqOwn m.uneq + ((m.eq.list : Multiset Res) +
    ((pp.list : Multiset Res) + R))))))

theorem held_add {lg s : Res} {m : Data} {f : Option Phon} {pp : ParamPtrs} {R K : Multiset Res} :
    held lg s m f pp R + K = held lg s m f pp (R + K) := by
  simp only [held, ← Multiset.singleton_add]
  abel

/-- the end of `main` releases everything, if no signal arrives after the log file has been closed -/
theorem cleanup_spec {l s : Res} {p : SimParams 𝔽} {pp : ParamPtrs} {m : Data} {f : Option Phon}
    {R : Multiset Res} (hr : Ready p m) (hf : f.isSome = p.usePhonons) :
    Spec F (held l s m f pp R) (cleanup l false p pp m s f) (fun _ B => ∃ K, B = R + K ∧ (F → K.card = 0)) := by
  have hl : ∀ R, ∀ g ∈ some l, g ∈ held l s m f pp R := fun R g hg => by
    rw [← Option.some_injective _ hg]
    simp [held]
  have heq : ∀ R, Has (held l s m f pp R) m.eq.list := fun R q hq => by simp [held, hq]
  refine Quiet.bind (writeAll_quiet (hl _) (eqFiles_live (heq _))) fun _ K hK => ?_
  rw [held_add]
  refine Quiet.bind (c := 0) (withUneq_spec hr (fun _ => ⟨0, by simp, by simp⟩) fun mu hmu =>
    writeAll_quiet (hl _) (uneqFiles_live ?_)) fun _ K' hK' => ?_
  · intro q hq
    simp [held, hmu, uneqOwn, hq]
  rw [held_add]
  refine Quiet.bind (c := 0) (withPh_spec hr (fun _ => ⟨0, by simp, by simp⟩) fun mp hmp =>
    writeAll_quiet (hl _) (phFiles_live ?_)) fun _ K'' hK'' => ?_
  · intro q hq
    simp [held, hmp, phOwn, hq]
  rw [held_add]
  refine Spec.duprintf (hl _) (Spec.free (hl _ _ rfl) ?_)
  rw [held, Multiset.erase_cons_head]
  simp only [Bool.false_eq_true, if_false]
  have e : F → (K + K' + K'').card = 0 := fun hF => by
    rw [Multiset.card_add, Multiset.card_add, hK hF, hK' hF, hK'' hF]
  rw [show R + K + K' + K'' = R + (K + K' + K'') by simp only [add_assoc]]
  generalize K + K' + K'' = T at e
  refine Spec.bind (Q := fun _ B => B = s ::ₘ (uneqOwn m.uneq + ((m.eq.list : Multiset Res) +
    ((pp.list : Multiset Res) + (R + T))))) (withPh_spec hr (fun hmp => ?_) fun mp hmp => ?_) ?_
  · have h1 := hr.ph
    rw [hmp, Option.isSome_none, ← hf] at h1
    rw [hmp, Option.isSome_eq_false_iff.1 h1.symm |> Option.isNone_iff_eq_none.1]
    simp [fieldOwn, phOwn]
  · have h1 := hr.ph
    rw [hmp, Option.isSome_some, ← hf, eq_comm, Option.isSome_iff_exists] at h1
    obtain ⟨f', rfl⟩ := h1
    refine Spec.deref rfl ?_
    have hre : fieldOwn (some f') + (phOwn m.ph + s ::ₘ (uneqOwn m.uneq + ((m.eq.list : Multiset Res) +
        ((pp.list : Multiset Res) + (R + T))))) = f'.expX ::ₘ f'.X ::ₘ (phOwn m.ph + s ::ₘ (uneqOwn m.uneq +
        ((m.eq.list : Multiset Res) + ((pp.list : Multiset Res) + (R + T))))) := by
      simp only [fieldOwn, Option.elim_some, ← Multiset.singleton_add]
      abel
    rw [hre]
    refine Spec.free (by simp) ?_
    rw [Multiset.erase_cons_head]
    refine Spec.free (by simp) ?_
    rw [Multiset.erase_cons_head, hmp]
    exact deletePh_spec
  rintro - _ rfl
  refine Spec.free (by simp) ?_
  rw [Multiset.erase_cons_head]
  refine Spec.bind (Q := fun _ B => B = (m.eq.list : Multiset Res) + ((pp.list : Multiset Res) + (R + T)))
    (withUneq_spec hr (fun hmu => ?_) fun mu hmu => ?_) ?_
  · simp [hmu, uneqOwn]
  · rw [hmu]
    exact deleteUneq_spec
  rintro - _ rfl
  refine Spec.bind deleteEq_spec ?_
  rintro - _ rfl
  exact deleteParams_spec.conseq fun _ _ hB => ⟨T, hB, e⟩

/-- result of a run from the allocation of the field on -/
def Good (F : Prop) (p : SimParams 𝔽) (R : Multiset Res) (o : Out) (B : Multiset Res) : Prop :=
  (F → o.code = -6 ∨ o.code = 0 ∨ o.code = 1) ∧
  (0 ≤ o.code → o.first ≤ o.last ∧ o.last ≤ max o.first (p.nequil + p.nsampl) ∧
    ∃ K, B = R + K ∧ (F → K.card = phononMeasurements p o.first o.last))

theorem run_spec {l : Res} {dbg : Bool} {p : SimParams 𝔽} {pp : ParamPtrs} {m : Data} {R : Multiset Res}
    (hs : Slices p) (hr : Ready p m) :
    Spec F (phOwn m.ph + (uneqOwn m.uneq + ((m.eq.list : Multiset Res) + (l ::ₘ
      ((pp.list : Multiset Res) + R))))) (run l dbg false p pp m) (Good F p R) := by
  refine Spec.alloc fun s => ?_
  set A : Multiset Res := s ::ₘ (phOwn m.ph + (uneqOwn m.uneq + ((m.eq.list : Multiset Res) + (l ::ₘ
      ((pp.list : Multiset Res) + R))))) with hA
  have hl : ∀ g ∈ some l, g ∈ A := fun g hg => by
    rw [← Option.some_injective _ hg]
    simp [hA]
  have hsA : s ∈ A := by simp [hA]
  have hm : Has A m.eq.list := fun q hq => by simp [hA, hq]
  have hpp : Has A pp.list := fun q hq => by simp [hA, hq]
  have hu : ∀ q ∈ uneqOwn m.uneq, q ∈ A := fun q hq => by simp [hA, hq]
  have hp : ∀ q ∈ phOwn m.ph, q ∈ A := fun q hq => by simp [hA, hq]
  refine Spec.bind (startup_spec hl hr hsA hm hu) ?_
  rintro ⟨st, it⟩ _ ⟨⟨K, rfl, hK⟩, hst, hst'⟩
  dsimp only at hst hst' ⊢
  split
  · refine Spec.pure ⟨fun hF => ?_, fun h => ?_⟩
    · rcases hst hF with h | h
      · omega
      · exact Or.inl h
    · dsimp only at h
      omega
  refine Spec.bind (phononField_spec (hpp.add _)) ?_
  rintro f _ ⟨rfl, hf, hfl⟩
  have hl' : ∀ g ∈ some l, g ∈ fieldOwn f + (A + K) := log_add_left (log_add hl _) _
  have hu' : ∀ q ∈ uneqOwn m.uneq, q ∈ fieldOwn f + (A + K) := fun q hq => by simp [hu q hq]
  have hp' : ∀ q ∈ phOwn m.ph, q ∈ fieldOwn f + (A + K) := fun q hq => by simp [hp q hq]
  refine Spec.bind (simulate_spec (it := it) hl' hs hr hf ((hpp.add _).add_left _) (by simp [hsA]) hfl
    ((hm.add _).add_left _) hu' hp') ?_
  rintro it' _ ⟨hit, K', rfl, hK'⟩
  have hl'' := log_add hl' K'
  refine Spec.signalPoint hl'' ?_
  refine Same.bind (summarize_same hl'' hr (((hm.add _).add_left _).add _)
    (fun q hq => Multiset.mem_add.2 (Or.inl (hu' q hq))) (fun q hq => Multiset.mem_add.2 (Or.inl (hp' q hq))))
    fun _ => Spec.duprintf hl'' ?_
  refine Spec.bind (saveCheckpoint_spec hl'' (by simp [hsA])) ?_
  rintro sv _ ⟨⟨K'', rfl, hK''⟩, hsv⟩
  split
  · refine Spec.duprintf (log_add hl'' _) (Spec.pure ⟨fun hF => ?_, fun h => ?_⟩)
    · have := hsv hF
      omega
    · dsimp only at h
      omega
  refine Spec.duprintf (log_add hl'' _) ?_
  refine Spec.bind (Spec.of_eq ?_ (cleanup_spec (l := l) (pp := pp) (s := s) (R := R + (K + K' + K'')) hr hf)) ?_
  · rw [hA]
    simp only [held, ← Multiset.singleton_add]
    abel
  rintro - _ ⟨T, rfl, hT⟩
  refine Spec.ask fun stopped => Spec.pure ⟨fun _ => ?_, fun _ => ⟨hit.1, hit.2, K + K' + K'' + T, ?_, ?_⟩⟩
  · dsimp only
    split <;> simp
  · rw [add_assoc]
  · intro hF
    rw [Multiset.card_add, Multiset.card_add, Multiset.card_add, hK hF, hK' hF, hK'' hF, hT hF]
    simp

theorem setup_spec {l : Res} {dbg : Bool} {p : SimParams 𝔽} {pp : ParamPtrs} {R : Multiset Res}
    (hs : Slices p) (hn : p.usePhonons = true → p.neqlt ≠ 0) :
    Spec F (l ::ₘ ((pp.list : Multiset Res) + R)) (setup l dbg false p pp) (Good F p R) := by
  refine Spec.bind allocEq_spec ?_
  rintro eq _ rfl
  refine Spec.bind (Q := fun un B => (∃ K, B = uneqOwn un.2 + ((eq.list : Multiset Res) + (l ::ₘ
    ((pp.list : Multiset Res) + R)) + K) ∧ (F → K.card = 0)) ∧ (un.1 = false → ¬F) ∧
    (un.1 = true → un.2.isSome = decide (p.nuneqlt > 0))) ?_ ?_
  · unfold allocUneqIf
    split
    · refine Spec.bind allocUneq_keeps ?_
      rintro r B ⟨⟨K, rfl, hK⟩, h⟩
      refine Spec.pure ⟨⟨K, rfl, hK⟩, fun h' hF => ?_, fun h' => ?_⟩
      · rw [h hF] at h'
        simp at h'
      · rw [decide_eq_true ‹_›]
        exact h'
    · exact Spec.pure ⟨⟨0, by simp [uneqOwn], by simp⟩, by simp, fun _ => by rw [decide_eq_false ‹_›]; rfl⟩
  rintro ⟨ok, un⟩ _ ⟨⟨K, rfl, hK⟩, h1, h2⟩
  dsimp only at h1 h2 ⊢
  split
  · rename_i hok
    refine Spec.duprintf (fun g hg => ?_) (Spec.pure ⟨fun hF => absurd hF (h1 hok), fun h => ?_⟩)
    · rw [← Option.some_injective _ hg]
      simp
    · dsimp only at h
      omega
  rename_i hok
  have h2' := h2 (by simpa using hok)
  refine Spec.bind (Q := fun ph B => B = phOwn ph + (uneqOwn un + ((eq.list : Multiset Res) + (l ::ₘ
    ((pp.list : Multiset Res) + R)) + K)) ∧ ph.isSome = p.usePhonons) ?_ ?_
  · unfold allocPhIf
    split
    · rename_i hp
      rw [if_neg (hn hp)]
      refine Spec.bind allocPh_spec ?_
      rintro r _ rfl
      exact Spec.pure ⟨rfl, by rw [hp]; rfl⟩
    · rename_i hp
      exact Spec.pure ⟨by simp [phOwn], by simpa using hp⟩
  rintro ph _ ⟨rfl, h3⟩
  refine (Spec.of_eq ?_ (run_spec (R := R + K) (m := ⟨eq, un, ph⟩) hs ⟨h2', h3⟩)).conseq ?_
  · simp only [← Multiset.singleton_add]
    abel
  · rintro o B ⟨g1, g2⟩
    refine ⟨g1, fun h => ?_⟩
    obtain ⟨a, b, K', rfl, hK'⟩ := g2 h
    exact ⟨a, b, K + K', by rw [add_assoc], fun hF => by rw [Multiset.card_add, hK hF, hK' hF, zero_add]⟩

end Verif.Heap
