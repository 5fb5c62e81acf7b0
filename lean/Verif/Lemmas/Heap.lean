import Verif.Model.Heap
import Mathlib.Data.Multiset.AddSub
import Mathlib.Data.Multiset.Bind
import Mathlib.Tactic.Abel
import Mathlib.Algebra.Order.Group.Multiset

/-!
# Specifications for the model of memory

`Spec F A m Q`: started in a state whose live resources are `A`, the computation `m` is defined, and
`Q` holds for its result and the live resources afterwards.  With `F` no library function fails.
-/

set_option autoImplicit false

namespace Verif.Heap

/-- live resources are distinct, and new serial numbers are not in use -/
def World.Fresh (w : World) : Prop := w.live.Nodup ∧ ∀ r ∈ w.live, r.id < w.next

/-- no library function fails -/
def World.NoFail (w : World) : Prop := ∀ n, w.lib n = false

/-- see the head of the file -/
def Spec {α : Type} (F : Prop) (A : Multiset Res) (m : Mem α) (Q : α → Multiset Res → Prop) : Prop :=
  ∀ w : World, w.Fresh → w.live = A → (F → w.NoFail) →
    ∃ a w', m w = some (a, w') ∧ w'.Fresh ∧ Q a w'.live ∧ (F → w'.NoFail)

variable {α β : Type} {F : Prop} {A B : Multiset Res} {Q : α → Multiset Res → Prop}

theorem Spec.pure {a : α} (h : Q a A) : Spec F A (pure a : Mem α) Q :=
  fun w hw hA hF => ⟨a, w, rfl, hw, hA ▸ h, hF⟩

theorem Spec.bind {R : β → Multiset Res → Prop} {m : Mem α} {k : α → Mem β} (hm : Spec F A m Q)
    (hk : ∀ a B, Q a B → Spec F B (k a) R) : Spec F A (m >>= k) R := by
  intro w hw hA hF
  obtain ⟨a, w', h1, h2, h3, h4⟩ := hm w hw hA hF
  obtain ⟨b, w'', g1, g2, g3, g4⟩ := hk a w'.live h3 w' h2 rfl h4
  exact ⟨b, w'', by show (m w).bind _ = _; rw [h1]; exact g1, g2, g3, g4⟩

theorem Spec.conseq {Q' : α → Multiset Res → Prop} {m : Mem α} (hm : Spec F A m Q)
    (h : ∀ a B, Q a B → Q' a B) : Spec F A m Q' := by
  intro w hw hA hF
  obtain ⟨a, w', h1, h2, h3, h4⟩ := hm w hw hA hF
  exact ⟨a, w', h1, h2, h _ _ h3, h4⟩

theorem Spec.of_eq {m : Mem α} (h : A = B) (hm : Spec F B m Q) : Spec F A m Q := h ▸ hm

theorem not_mem_of_fresh {w : World} (hw : w.Fresh) {r : Res} (hr : w.next ≤ r.id) : r ∉ w.live :=
  fun h => absurd (hw.2 r h) (not_lt.2 hr)

theorem World.Fresh.cons {w : World} (hw : w.Fresh) {r : Res} (hr : r.id = w.next) :
    World.Fresh { w with live := r ::ₘ w.live, next := w.next + 1 } := by
  refine ⟨Multiset.nodup_cons.2 ⟨not_mem_of_fresh hw hr.ge, hw.1⟩, ?_⟩
  intro q hq
  rcases Multiset.mem_cons.1 hq with h | h
  · subst h
    show q.id < w.next + 1
    omega
  · exact Nat.lt_succ_of_lt (hw.2 q h)

theorem Spec.alloc {k : Res → Mem α} (h : ∀ p, Spec F (p ::ₘ A) (k p) Q) :
    Spec F A (alloc >>= k) Q := by
  refine Spec.bind (Q := fun p B => B = p ::ₘ A) ?_ (fun p B hB => hB ▸ h p)
  intro w hw hA hF
  exact ⟨_, _, rfl, hw.cons rfl, by rw [← hA], hF⟩

theorem Spec.alloc' : Spec F A Heap.alloc (fun p B => B = p ::ₘ A) := by
  intro w hw hA hF
  exact ⟨_, _, rfl, hw.cons rfl, by rw [← hA], hF⟩

theorem Spec.openFd {k : Res → Mem α} (h : ∀ p, Spec F (p ::ₘ A) (k p) Q) :
    Spec F A (openFd >>= k) Q := by
  refine Spec.bind (Q := fun p B => B = p ::ₘ A) ?_ (fun p B hB => hB ▸ h p)
  intro w hw hA hF
  exact ⟨_, _, rfl, hw.cons rfl, by rw [← hA], hF⟩

theorem Spec.openFd' : Spec F A Heap.openFd (fun p B => B = p ::ₘ A) := by
  intro w hw hA hF
  exact ⟨_, _, rfl, hw.cons rfl, by rw [← hA], hF⟩

theorem Spec.free' {p : Res} (hp : p ∈ A) : Spec F A (free p) (fun _ B => B = A.erase p) := by
  intro w hw hA hF
  refine ⟨(), { w with live := w.live.erase p }, by rw [Heap.free, if_pos (hA ▸ hp)], ⟨?_, ?_⟩, ?_, hF⟩
  · exact hw.1.erase p
  · exact fun q hq => hw.2 q (Multiset.mem_of_mem_erase hq)
  · rw [← hA]

theorem Spec.free {p : Res} {k : Unit → Mem α} (hp : p ∈ A) (h : Spec F (A.erase p) (k ()) Q) :
    Spec F A (free p >>= k) Q :=
  (Spec.free' hp).bind fun _ _ hB => hB ▸ h

theorem Spec.use' {p : Res} (hp : p ∈ A) : Spec F A (use p) (fun _ B => B = A) := by
  intro w hw hA hF
  exact ⟨(), w, by rw [Heap.use, if_pos (hA ▸ hp)], hw, hA, hF⟩

theorem Spec.use {p : Res} {k : Unit → Mem α} (hp : p ∈ A) (h : Spec F A (k ()) Q) :
    Spec F A (use p >>= k) Q :=
  (Spec.use' hp).bind fun _ _ hB => hB ▸ h

theorem Spec.uses' {ps : List Res} (hp : ∀ p ∈ ps, p ∈ A) : Spec F A (uses ps) (fun _ B => B = A) := by
  induction ps with
  | nil => exact Spec.pure rfl
  | cons p ps ih =>
    exact Spec.use (hp p (by simp)) (ih fun q hq => hp q (by simp [hq]))

theorem Spec.uses {ps : List Res} {k : Unit → Mem α} (hp : ∀ p ∈ ps, p ∈ A) (h : Spec F A (k ()) Q) :
    Spec F A (uses ps >>= k) Q :=
  (Spec.uses' hp).bind fun _ _ hB => hB ▸ h

theorem Spec.frees' {ps : List Res} : Spec F ((ps : Multiset Res) + A) (frees ps) (fun _ B => B = A) := by
  induction ps with
  | nil => exact Spec.pure (by simp)
  | cons p ps ih =>
    refine Spec.free (by simp) ?_
    rw [← Multiset.cons_coe, Multiset.cons_add, Multiset.erase_cons_head]
    exact ih

theorem Spec.ask' : Spec F A ask (fun _ B => B = A) := by
  intro w hw hA hF
  exact ⟨_, _, rfl, hw, hA, hF⟩

theorem Spec.ask {k : ℤ → Mem α} (h : ∀ d, Spec F A (k d) Q) : Spec F A (ask >>= k) Q :=
  Spec.ask'.bind fun d _ hB => hB ▸ h d

theorem Spec.fails {k : Bool → Mem α} (h1 : ¬F → Spec F A (k true) Q) (h0 : Spec F A (k false) Q) :
    Spec F A (fails >>= k) Q := by
  refine Spec.bind (Q := fun b B => B = A ∧ (b = true → ¬F)) ?_ ?_
  · intro w hw hA hF
    refine ⟨w.lib 0, _, rfl, hw, ⟨hA, fun h hf => ?_⟩, fun hf n => hF hf (n + 1)⟩
    rw [hF hf 0] at h
    exact absurd h (by decide)
  · rintro b B ⟨rfl, hb⟩
    cases b with
    | true => exact h1 (hb rfl)
    | false => exact h0

theorem Spec.fails' : Spec F A Heap.fails (fun _ B => B = A) := by
  intro w hw hA hF
  exact ⟨_, _, rfl, hw, hA, fun h n => hF h (n + 1)⟩

theorem Spec.loopFrom {σ : Type} {body : ℕ → σ → Mem σ} (I : ℕ → σ → Multiset Res → Prop) (n : ℕ) :
    ∀ (a : ℕ) (s : σ) (A : Multiset Res), I a s A →
    (∀ i s A, a ≤ i → i < a + n → I i s A → Spec F A (body i s) (I (i + 1))) →
    Spec F A (loopFrom a n s body) (I (a + n)) := by
  induction n with
  | zero => exact fun a s A h0 _ => Spec.pure h0
  | succ n ih =>
    intro a s A h0 hb
    refine Spec.bind (hb a s A le_rfl (by omega) h0) fun s' B hB => ?_
    have := ih (a + 1) s' B hB fun i s A h1 h2 => hb i s A (by omega) (by omega)
    rwa [show a + 1 + n = a + (n + 1) by omega] at this

theorem Spec.loop {body : ℕ → Mem Unit} (I : ℕ → Multiset Res → Prop) {n : ℕ} (h0 : I 0 A)
    (hb : ∀ i A, i < n → I i A → Spec F A (body i) (fun _ => I (i + 1))) :
    Spec F A (loop n body) (fun _ => I n) := by
  have := Spec.loopFrom (F := F) (body := fun i _ => body i) (fun i _ => I i) n 0 () A h0
    fun i _ A _ h2 => hb i A (by omega)
  rwa [Nat.zero_add] at this

theorem Spec.elem' {arr : Res} {xs : List Res} {i : ℕ} (ha : arr ∈ A) (hi : i < xs.length) :
    Spec F A (elem arr xs i) (fun p B => p = xs[i] ∧ B = A) := by
  refine Spec.use ha ?_
  rw [List.getElem?_eq_getElem hi]
  exact Spec.pure ⟨rfl, rfl⟩

theorem Spec.elem {arr : Res} {xs : List Res} {i : ℕ} {k : Res → Mem α} (ha : arr ∈ A)
    (hi : i < xs.length) (h : Spec F A (k xs[i]) Q) : Spec F A (elem arr xs i >>= k) Q :=
  (Spec.elem' ha hi).bind fun _ _ hB => hB.1 ▸ hB.2 ▸ h

theorem Spec.duprintf' {lg : Option Res} (hl : ∀ f ∈ lg, f ∈ A) :
    Spec F A (duprintf lg) (fun _ B => B = A) := by
  cases lg with
  | none => exact Spec.pure rfl
  | some f => exact Spec.use' (hl f rfl)

theorem Spec.duprintf {lg : Option Res} {k : Unit → Mem α} (hl : ∀ f ∈ lg, f ∈ A)
    (h : Spec F A (k ()) Q) : Spec F A (duprintf lg >>= k) Q :=
  (Spec.duprintf' hl).bind fun _ _ hB => hB ▸ h

theorem Spec.signalPoint' {lg : Option Res} (hl : ∀ f ∈ lg, f ∈ A) :
    Spec F A (signalPoint lg) (fun _ B => B = A) := by
  refine Spec.ask fun d => ?_
  split
  · exact Spec.duprintf' hl
  · exact Spec.pure rfl

theorem Spec.signalPoint {lg : Option Res} {k : Unit → Mem α} (hl : ∀ f ∈ lg, f ∈ A)
    (h : Spec F A (k ()) Q) : Spec F A (signalPoint lg >>= k) Q :=
  (Spec.signalPoint' hl).bind fun _ _ hB => hB ▸ h

theorem Spec.deref {x : Option β} {k : β → Mem α} {b : β} (hx : x = some b) (h : Spec F A (k b) Q) :
    Spec F A (deref x >>= k) Q := by
  subst hx
  exact Spec.bind (Q := fun a B => a = b ∧ B = A) (Spec.pure ⟨rfl, rfl⟩) fun _ _ hB => hB.1 ▸ hB.2 ▸ h

/-- undefined in every state with these live resources -/
def Undef (F : Prop) (A : Multiset Res) (m : Mem α) : Prop :=
  ∀ w : World, w.Fresh → w.live = A → (F → w.NoFail) → m w = none

theorem Undef.bind {m : Mem β} {k : β → Mem α} (h : Undef F A m) : Undef F A (m >>= k) := by
  intro w hw hA hF
  show (m w).bind _ = none
  rw [h w hw hA hF]
  rfl

theorem Spec.bind_undef {R : β → Multiset Res → Prop} {m : Mem β} {k : β → Mem α} (hm : Spec F A m R)
    (hk : ∀ a B, R a B → Undef F B (k a)) : Undef F A (m >>= k) := by
  intro w hw hA hF
  obtain ⟨a, w', h1, h2, h3, h4⟩ := hm w hw hA hF
  show (m w).bind _ = none
  rw [h1]
  exact hk a w'.live h3 w' h2 rfl h4

theorem Undef.of_eq {m : Mem α} (h : A = B) (hm : Undef F B m) : Undef F A m := h ▸ hm

theorem Undef.ub : Undef F A (Heap.ub : Mem α) := fun _ _ _ _ => rfl

theorem Undef.use {p : Res} {k : Unit → Mem α} (hp : p ∉ A) : Undef F A (Heap.use p >>= k) := by
  refine Undef.bind fun w _ hA _ => ?_
  rw [Heap.use, if_neg (hA ▸ hp)]

theorem Undef.free {p : Res} {k : Unit → Mem α} (hp : p ∉ A) : Undef F A (Heap.free p >>= k) := by
  refine Undef.bind fun w _ hA _ => ?_
  rw [Heap.free, if_neg (hA ▸ hp)]

/-- the live resources are the same before and after -/
abbrev Same (F : Prop) (A : Multiset Res) (m : Mem α) : Prop := Spec F A m fun _ B => B = A

theorem Same.bind {m : Mem β} {k : β → Mem α} (hm : Same F A m) (hk : ∀ b, Spec F A (k b) Q) :
    Spec F A (m >>= k) Q :=
  Spec.bind hm fun b _ hB => hB ▸ hk b

theorem Same.loop {body : ℕ → Mem Unit} {n : ℕ} (hb : ∀ i < n, Same F A (body i)) :
    Same F A (loop n body) :=
  Spec.loop (fun _ B => B = A) rfl fun i _ hi hB => hB ▸ hb i hi

theorem Same.ite {c : Prop} [Decidable c] {m m' : Mem α} (h : c → Same F A m) (h' : ¬c → Same F A m') :
    Same F A (if c then m else m') := by
  split
  · exact h ‹_›
  · exact h' ‹_›

/-- a conditional statement with what follows -/
theorem Same.branch {c : Prop} [Decidable c] {m : Mem Unit} {k : Unit → Mem α} (h : c → Same F A m)
    (hk : ∀ b, Spec F A (k b) Q) : Spec F A (if c then m >>= k else k ()) Q := by
  split
  · exact Same.bind (h ‹_›) hk
  · exact hk ()

theorem Same.branch' {c : Prop} [Decidable c] {m : Mem Unit} {k : Unit → Mem α} (h : ¬c → Same F A m)
    (hk : ∀ b, Spec F A (k b) Q) : Spec F A (if c then k () else m >>= k) Q := by
  split
  · exact hk ()
  · exact Same.bind (h ‹_›) hk

/-- all of the list are live -/
def Has (A : Multiset Res) (ps : List Res) : Prop := ∀ p ∈ ps, p ∈ A

theorem Has.cons {ps : List Res} (h : Has A ps) (q : Res) : Has (q ::ₘ A) ps :=
  fun p hp => Multiset.mem_cons_of_mem (h p hp)

theorem Has.add {ps : List Res} (h : Has A ps) (K : Multiset Res) : Has (A + K) ps :=
  fun p hp => Multiset.mem_add.2 (Or.inl (h p hp))

theorem Has.add_left {ps : List Res} (h : Has A ps) (K : Multiset Res) : Has (K + A) ps :=
  fun p hp => Multiset.mem_add.2 (Or.inr (h p hp))

theorem Has.mono {ps qs : List Res} (h : Has A ps) (hs : ∀ p ∈ qs, p ∈ ps) : Has A qs :=
  fun p hp => h p (hs p hp)

/-- a function that returns blocks `own a`, keeps what was live, and loses blocks `K`; if nothing fails
it loses `c` blocks -/
def Keeps (F : Prop) (c : ℕ) (own : α → Multiset Res) (A : Multiset Res) (m : Mem α) : Prop :=
  Spec F A m fun a B => ∃ K, B = own a + (A + K) ∧ (F → K.card = c)

/-- a function that returns no blocks -/
abbrev Quiet (F : Prop) (c : ℕ) (A : Multiset Res) (m : Mem α) : Prop := Keeps F c (fun _ => 0) A m

theorem Keeps.bind {c : ℕ} {own : β → Multiset Res} {m : Mem β} {k : β → Mem α}
    (hm : Keeps F c own A m)
    (hk : ∀ b K, (F → K.card = c) → Spec F (own b + (A + K)) (k b) Q) : Spec F A (m >>= k) Q :=
  Spec.bind hm fun b _ ⟨K, hB, hK⟩ => hB ▸ hk b K hK

theorem Quiet.bind {c : ℕ} {m : Mem β} {k : β → Mem α} (hm : Quiet F c A m)
    (hk : ∀ b K, (F → K.card = c) → Spec F (A + K) (k b) Q) : Spec F A (m >>= k) Q :=
  Keeps.bind hm fun b K hK => by rw [zero_add]; exact hk b K hK

/-- nothing at all changes -/
theorem Quiet.of_same {m : Mem α} (h : Spec F A m fun _ B => B = A) : Quiet F 0 A m :=
  h.conseq fun _ _ hB => ⟨0, by simp [hB], by simp⟩

/-- one after the other -/
theorem Quiet.seq {c c' : ℕ} {m : Mem β} {k : β → Mem α} (hm : Quiet F c A m)
    (hk : ∀ b K, Quiet F c' (A + K) (k b)) : Quiet F (c + c') A (m >>= k) := by
  refine Quiet.bind hm fun b K hK => (hk b K).conseq ?_
  rintro - _ ⟨K', rfl, hK'⟩
  refine ⟨K + K', by rw [add_assoc], fun hF => ?_⟩
  rw [Multiset.card_add, hK hF, hK' hF]

theorem Quiet.pure {a : α} : Quiet F 0 A (Pure.pure a : Mem α) := Quiet.of_same (Spec.pure rfl)

/-- membership of the log file in a larger heap -/
theorem log_cons {lg : Option Res} (hl : ∀ f ∈ lg, f ∈ A) (q : Res) : ∀ f ∈ lg, f ∈ q ::ₘ A :=
  fun f hf => Multiset.mem_cons_of_mem (hl f hf)

theorem log_add {lg : Option Res} (hl : ∀ f ∈ lg, f ∈ A) (K : Multiset Res) : ∀ f ∈ lg, f ∈ A + K :=
  fun f hf => Multiset.mem_add.2 (Or.inl (hl f hf))

theorem log_add_left {lg : Option Res} (hl : ∀ f ∈ lg, f ∈ A) (K : Multiset Res) : ∀ f ∈ lg, f ∈ K + A :=
  fun f hf => Multiset.mem_add.2 (Or.inr (hl f hf))

theorem Quiet.loop {c : ℕ → ℕ} {body : ℕ → Mem Unit} {n : ℕ}
    (hb : ∀ i < n, ∀ K, Quiet F (c i) (A + K) (body i)) :
    Quiet F ((List.range n).map c).sum A (loop n body) := by
  refine (Spec.loop (fun i B => ∃ K, B = A + K ∧ (F → K.card = ((List.range i).map c).sum))
    ⟨0, by simp, by simp⟩ ?_).conseq ?_
  · rintro i _ hi ⟨K, rfl, hK⟩
    refine (hb i hi K).conseq ?_
    rintro - _ ⟨K', rfl, hK'⟩
    refine ⟨K + K', by rw [zero_add, add_assoc], fun hF => ?_⟩
    rw [Multiset.card_add, hK hF, hK' hF, List.range_succ, List.map_append, List.sum_append]
    simp
  · rintro - _ ⟨K, rfl, hK⟩
    exact ⟨K, by simp, hK⟩

/-- release of a block that is known to be there -/
theorem erase_cons_of_mem {p q : Res} (h : p ∈ A) : (q ::ₘ A).erase p = q ::ₘ A.erase p :=
  Multiset.erase_cons_tail_of_mem h

end Verif.Heap
