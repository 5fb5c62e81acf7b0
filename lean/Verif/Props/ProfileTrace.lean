import Verif.Model.ProfileTrace
import Verif.Props.Profiler
import Mathlib.Algebra.BigOperators.Ring.Finset
import Mathlib.Tactic.Ring
import Mathlib.Tactic.FinCases

/-! # Property C129: the profiling report of the program is correct -/

set_option autoImplicit false

namespace Verif.Profiler

open Verif.HashTable

/-! ## Specification -/

/-- intervals one after the other -/
def Alternate : List (Call × BitVec 64) → Prop
  | [] => True
  | (.enter, _) :: (.leave, _) :: r => Alternate r
  | _ => False

/-- how often a block is entered -/
def entered (b : Blk) (evs : List Event) : ℕ :=
  (evs.filter fun e => Decidable.decide (e.call = .enter ∧ e.name = b.key)).length

/-- the clock does not go back; all calls are between the start and the end of the program -/
structure Clock (evs : List Event) (t0 t1 : BitVec 64) : Prop where
  sorted : (evs.map fun e => e.tick.toNat).Pairwise (· ≤ ·)
  bounds : ∀ e ∈ evs, t0.toNat ≤ e.tick.toNat ∧ e.tick.toNat ≤ t1.toNat

/-! ## Sequences of intervals -/

theorem Alternate.append : ∀ {l l' : List (Call × BitVec 64)}, Alternate l → Alternate l' → Alternate (l ++ l')
  | [], _, _, h' => h'
  | (.enter, _) :: (.leave, _) :: r, _, h, h' => Alternate.append (l := r) h h'
  | [(.enter, _)], _, h, _ => h.elim
  | (.enter, _) :: (.enter, _) :: _, _, h, _ => h.elim
  | (.leave, _) :: _, _, h, _ => h.elim

theorem Alternate.paired : ∀ {l : List (Call × BitVec 64)}, Alternate l → Paired l 0 ∧ Flat l false
  | [], _ => ⟨rfl, trivial⟩
  | (.enter, _) :: (.leave, _) :: r, h => by
    have := Alternate.paired (l := r) h
    exact ⟨this.1, rfl, this.2⟩
  | [(.enter, _)], h => h.elim
  | (.enter, _) :: (.enter, _) :: _, h => h.elim
  | (.leave, _) :: _, h => h.elim

theorem Alternate.count : ∀ {l : List (Call × BitVec 64)}, Alternate l →
    (outermost l 0 0).length = (l.filter fun c => Decidable.decide (c.1 = .enter)).length
  | [], _ => rfl
  | (.enter, t) :: (.leave, _) :: r, h => by
    have := Alternate.count (l := r) h
    simp only [outermost, List.length_cons, outermost_zero r t 0, this]
    simp
  | [(.enter, _)], h => h.elim
  | (.enter, _) :: (.enter, _) :: _, h => h.elim
  | (.leave, _) :: _, h => h.elim

theorem Alternate.sum : ∀ {l : List (Call × BitVec 64)} {lo hi : ℕ}, Alternate l →
    (l.map fun c => c.2.toNat).Pairwise (· ≤ ·) → (∀ c ∈ l, lo ≤ c.2.toNat ∧ c.2.toNat ≤ hi) →
    (∀ x ∈ outermost l 0 0, x.1.toNat ≤ x.2.toNat) ∧
      ((outermost l 0 0).map fun x => x.2.toNat - x.1.toNat).sum ≤ hi - lo
  | [], _, _, _, _, _ => ⟨fun x hx => absurd hx (by simp [outermost]), by simp [outermost]⟩
  | (.enter, t) :: (.leave, u) :: r, lo, hi, h, hs, hb => by
    simp only [List.map_cons, List.pairwise_cons] at hs
    have h1 := hs.1 u.toNat (by simp)
    have hb1 := hb (.enter, t) (by simp)
    have hb2 := hb (.leave, u) (by simp)
    obtain ⟨h2, h3⟩ := Alternate.sum (l := r) (lo := u.toNat) (hi := hi) h hs.2.2 fun c hc =>
      ⟨hs.2.1 _ (List.mem_map_of_mem hc), (hb c (by simp [hc])).2⟩
    simp only [outermost, outermost_zero r t 0, List.map_cons, List.sum_cons, List.mem_cons]
    refine ⟨?_, ?_⟩
    · rintro x (rfl | hx)
      · exact h1
      · exact h2 x hx
    · simp only at hb1 hb2
      omega
  | [(.enter, _)], _, _, h, _, _ => h.elim
  | (.enter, _) :: (.enter, _) :: _, _, _, h, _, _ => h.elim
  | (.leave, _) :: _, _, _, h, _, _ => h.elim

/-! ## Names -/

/-- all blocks -/
def Blk.all : List Blk :=
  [.tfm, .firstQR, .qr, .computeC, .dormqr, .pivot, .dgeqrf, .computeDT, .iter, .wraps, .siteUpdate, .hsUpdate, .xUpdate, .brecomp,
    .grecomp, .eqMeas, .accPhonon, .phBlock, .phFlip, .uneqMeas]

/-- different blocks have different names -/
theorem key_inj (b b' : Blk) (h : b.key = b'.key) : b = b' := by
  have hf : ∀ b : Blk, Blk.all.find? (fun c => Decidable.decide (c.key = b.key)) = some b := by
    intro b
    cases b <;> decide +kernel
  have h1 := hf b
  rw [h, hf b'] at h1
  exact (Option.some.inj h1).symm

theorem key_noDash (b : Blk) : (45 : UInt8) ∉ b.key := by cases b <;> decide +kernel

theorem key_length (b : Blk) : b.key.length ≤ 26 := by cases b <;> decide +kernel

/-- the names of all blocks in all threads fit into the buffer -/
theorem keyOf_blk (b : Blk) {th : ℕ} (h : th < 2 ^ 31) : keyOf th b.key ≠ none := by
  unfold keyOf
  have h1 := key_length b
  have h2 : (decimal th).length ≤ 10 := by
    unfold decimal
    rw [List.length_reverse, List.length_map]
    exact (Nat.digits_length_le_iff (by norm_num) th).2 (lt_of_lt_of_le h (by norm_num))
  split
  · rw [if_pos (by simp only [List.length_append, List.length_cons]; omega)]
    simp
  · simp

/-! ## Code -/

/-- a block is in the code -/
def Sec.Uses (b : Blk) : Sec → Prop
  | .skip => False
  | .block b' s => b = b' ∨ s.Uses b
  | .seq s t => s.Uses b ∨ t.Uses b

def Code.Uses (b : Blk) : Code → Prop
  | .skip => False
  | .block b' c => b = b' ∨ c.Uses b
  | .seq c d => c.Uses b ∨ d.Uses b
  | .par s t => s.Uses b ∨ t.Uses b

/-- no block is inside of a block of the same name -/
def Sec.Fine : Sec → Prop
  | .skip => True
  | .block b s => ¬ s.Uses b ∧ s.Fine
  | .seq s t => s.Fine ∧ t.Fine

def Code.Fine : Code → Prop
  | .skip => True
  | .block b c => ¬ c.Uses b ∧ c.Fine
  | .seq c d => c.Fine ∧ d.Fine
  | .par s t => s.Fine ∧ t.Fine

/-- how often a block is entered -/
def Sec.count (b : Blk) : Sec → ℕ
  | .skip => 0
  | .block b' s => (if b' = b then 1 else 0) + s.count b
  | .seq s t => s.count b + t.count b

def Code.count (b : Blk) : Code → ℕ
  | .skip => 0
  | .block b' c => (if b' = b then 1 else 0) + c.count b
  | .seq c d => c.count b + d.count b
  | .par s t => s.count b + t.count b

theorem callsBy_append (th : ℕ) (n : Key) (x y : List Event) : callsBy th n (x ++ y) = callsBy th n x ++ callsBy th n y := by
  simp [callsBy]

theorem entered_append (b : Blk) (x y : List Event) : entered b (x ++ y) = entered b x + entered b y := by
  simp [entered]

theorem callsBy_nil {th : ℕ} {n : Key} {x : List Event} (h : ∀ e ∈ x, e.thread = th → e.name ≠ n) : callsBy th n x = [] := by
  simp only [callsBy, List.map_eq_nil_iff, List.filter_eq_nil_iff, decide_eq_true_eq]
  exact fun e he hh => h e he hh.1 hh.2

theorem Merge.filter {x y z : List Event} (h : Merge x y z) (p : Event → Bool) (hy : ∀ e ∈ y, p e = false) :
    z.filter p = x.filter p := by
  induction h with
  | nil => rfl
  | left e h ih => rw [List.filter_cons, List.filter_cons, ih hy]
  | right e h ih =>
    rw [List.filter_cons, if_neg (by simp [hy e (by simp)]), ih fun e' he' => hy e' (by simp [he'])]

theorem Merge.symm {x y z : List Event} (h : Merge x y z) : Merge y x z := by
  induction h with
  | nil => exact .nil
  | left e h ih => exact .right e ih
  | right e h ih => exact .left e ih

theorem Merge.mem {x y z : List Event} (h : Merge x y z) {e : Event} (he : e ∈ z) : e ∈ x ∨ e ∈ y := by
  induction h with
  | nil => exact absurd he (by simp)
  | left e' h ih =>
    rcases List.mem_cons.1 he with rfl | he
    · simp
    · rcases ih he with h | h <;> simp [h]
  | right e' h ih =>
    rcases List.mem_cons.1 he with rfl | he
    · simp
    · rcases ih he with h | h <;> simp [h]

theorem Merge.entered {x y z : List Event} (h : Merge x y z) (b : Blk) :
    Profiler.entered b z = Profiler.entered b x + Profiler.entered b y := by
  unfold Profiler.entered
  induction h with
  | nil => rfl
  | left e h ih =>
    simp only [List.filter_cons]
    split
    · simp only [List.length_cons, ih]
      omega
    · exact ih
  | right e h ih =>
    simp only [List.filter_cons]
    split
    · simp only [List.length_cons, ih]
      omega
    · exact ih

/-- what is known about the calls: whose they are, which names they have, that they alternate, and how many there are -/
structure Good (Q : ℕ → Prop) (U : Blk → Prop) (cnt : Blk → ℕ) (evs : List Event) : Prop where
  thread : ∀ e ∈ evs, Q e.thread
  name : ∀ e ∈ evs, ∃ b, U b ∧ e.name = b.key
  alt : ∀ (th : ℕ) (b : Blk), Alternate (callsBy th b.key evs)
  count : ∀ b : Blk, entered b evs = cnt b

theorem Good.nil (Q : ℕ → Prop) (U : Blk → Prop) : Good Q U (fun _ => 0) [] :=
  ⟨by simp, by simp, fun _ _ => trivial, fun _ => rfl⟩

theorem Good.append {Q : ℕ → Prop} {U U' : Blk → Prop} {k k' : Blk → ℕ} {x y : List Event} (h : Good Q U k x) (h' : Good Q U' k' y) :
    Good Q (fun b => U b ∨ U' b) (fun b => k b + k' b) (x ++ y) := by
  refine ⟨fun e he => ?_, fun e he => ?_, fun th b => ?_, fun b => ?_⟩
  · rcases List.mem_append.1 he with he | he
    · exact h.thread e he
    · exact h'.thread e he
  · rcases List.mem_append.1 he with he | he
    · obtain ⟨b, h1, h2⟩ := h.name e he
      exact ⟨b, Or.inl h1, h2⟩
    · obtain ⟨b, h1, h2⟩ := h'.name e he
      exact ⟨b, Or.inr h1, h2⟩
  · rw [callsBy_append]
    exact (h.alt th b).append (h'.alt th b)
  · rw [entered_append, h.count, h'.count]

theorem Good.block {Q : ℕ → Prop} {U : Blk → Prop} {k : Blk → ℕ} {x : List Event} (h : Good Q U k x) {th : ℕ} (hth : Q th) {b : Blk}
    (hb : ¬ U b) (t t' : BitVec 64) :
    Good Q (fun b' => b' = b ∨ U b') (fun b' => (if b = b' then 1 else 0) + k b')
      (⟨th, .enter, b.key, t⟩ :: (x ++ [⟨th, .leave, b.key, t'⟩])) := by
  have hno : ∀ th', callsBy th' b.key x = [] := fun th' => callsBy_nil fun e he _ hn => by
    obtain ⟨b', h1, h2⟩ := h.name e he
    exact hb (key_inj _ _ (h2.symm.trans hn) ▸ h1)
  refine ⟨fun e he => ?_, fun e he => ?_, fun th' b' => ?_, fun b' => ?_⟩
  · simp only [List.mem_cons, List.mem_append, List.not_mem_nil, or_false] at he
    rcases he with rfl | he | rfl
    · exact hth
    · exact h.thread e he
    · exact hth
  · simp only [List.mem_cons, List.mem_append, List.not_mem_nil, or_false] at he
    rcases he with rfl | he | rfl
    · exact ⟨b, Or.inl rfl, rfl⟩
    · obtain ⟨b', h1, h2⟩ := h.name e he
      exact ⟨b', Or.inr h1, h2⟩
    · exact ⟨b, Or.inl rfl, rfl⟩
  · by_cases hc : th = th' ∧ b = b'
    · obtain ⟨rfl, rfl⟩ := hc
      have e1 : callsBy th b.key (⟨th, .enter, b.key, t⟩ :: (x ++ [⟨th, .leave, b.key, t'⟩]))
          = (.enter, t) :: (callsBy th b.key x ++ [(.leave, t')]) := by
        simp [callsBy]
      rw [e1, hno]
      trivial
    · have hc' : ¬ (th = th' ∧ b.key = b'.key) := fun hh => hc ⟨hh.1, key_inj _ _ hh.2⟩
      have e1 : callsBy th' b'.key (⟨th, .enter, b.key, t⟩ :: (x ++ [⟨th, .leave, b.key, t'⟩])) = callsBy th' b'.key x := by
        simp [callsBy, hc']
      rw [e1]
      exact h.alt th' b'
  · have e1 : entered b' (⟨th, .enter, b.key, t⟩ :: (x ++ [⟨th, .leave, b.key, t'⟩]))
        = (if b = b' then 1 else 0) + entered b' x := by
      by_cases hc : b = b'
      · subst hc
        simp [entered, Nat.add_comm]
      · have hc' : b.key ≠ b'.key := fun hh => hc (key_inj _ _ hh)
        simp [entered, hc, hc']
    rw [e1, h.count]

theorem Good.weaken {Q Q' : ℕ → Prop} {U : Blk → Prop} {k : Blk → ℕ} {x : List Event} (h : Good Q U k x) (hQ : ∀ th, Q th → Q' th) :
    Good Q' U k x :=
  ⟨fun e he => hQ _ (h.thread e he), h.name, h.alt, h.count⟩

theorem Good.merge {th th' : ℕ} {Q : ℕ → Prop} (h1 : Q th) (h2 : Q th') (hne : th ≠ th') {U U' : Blk → Prop} {k k' : Blk → ℕ}
    {x y z : List Event} (h : Good (· = th) U k x) (h' : Good (· = th') U' k' y) (hm : Merge x y z) :
    Good Q (fun b => U b ∨ U' b) (fun b => k b + k' b) z := by
  refine ⟨fun e he => ?_, fun e he => ?_, fun th'' b => ?_, fun b => ?_⟩
  · rcases hm.mem he with he | he
    · rw [h.thread e he]; exact h1
    · rw [h'.thread e he]; exact h2
  · rcases hm.mem he with he | he
    · obtain ⟨b, h1, h2⟩ := h.name e he
      exact ⟨b, Or.inl h1, h2⟩
    · obtain ⟨b, h1, h2⟩ := h'.name e he
      exact ⟨b, Or.inr h1, h2⟩
  · by_cases hc : th'' = th'
    · subst hc
      have : callsBy th'' b.key z = callsBy th'' b.key y := by
        unfold callsBy
        rw [hm.symm.filter]
        intro e he
        rw [decide_eq_false_iff_not, h.thread e he]
        exact fun hh => hne hh.1
      rw [this]
      exact h'.alt _ b
    · have : callsBy th'' b.key z = callsBy th'' b.key x := by
        unfold callsBy
        rw [hm.filter]
        intro e he
        rw [decide_eq_false_iff_not, h'.thread e he]
        exact fun hh => hc hh.1.symm
      rw [this]
      exact h.alt _ b
  · rw [hm.entered, h.count, h'.count]

theorem Sec.good {th : ℕ} {s : Sec} {evs : List Event} (h : s.Calls th evs) (hf : s.Fine) :
    Good (· = th) (fun b => s.Uses b) (fun b => s.count b) evs := by
  induction h with
  | skip => exact Good.nil _ _
  | block t t' h ih => exact (ih hf.2).block rfl hf.1 t t'
  | seq h h' ih ih' => exact (ih hf.1).append (ih' hf.2)

/-- all calls which the program can make -/
theorem Code.good {c : Code} {evs : List Event} (h : c.Calls evs) (hf : c.Fine) :
    Good (· < 2 ^ 31) (fun b => c.Uses b) (fun b => c.count b) evs := by
  induction h with
  | skip => exact Good.nil _ _
  | block t t' h ih => exact (ih hf.2).block (by norm_num) hf.1 t t'
  | seq h h' ih ih' => exact (ih hf.1).append (ih' hf.2)
  | par h1 h2 hne hs hs' hm => exact Good.merge (Q := (· < 2 ^ 31)) h1 h2 hne (Sec.good hs hf.1) (Sec.good hs' hf.2) hm
  | one h1 hs hs' =>
    exact ((Sec.good hs hf.1).weaken fun _ e => e ▸ h1).append ((Sec.good hs' hf.2).weaken fun _ e => e ▸ h1)
  | other h1 hs hs' =>
    have := ((Sec.good hs' hf.2).weaken fun _ e => e ▸ h1).append ((Sec.good hs hf.1).weaken fun _ e => e ▸ h1)
    refine ⟨this.thread, fun e he => ?_, this.alt, fun b => ?_⟩
    · obtain ⟨b, h1, h2⟩ := this.name e he
      exact ⟨b, h1.symm, h2⟩
    · rw [this.count]
      exact Nat.add_comm _ _

/-- C129 for all code without a block inside of a block of the same name: the profiler measures all blocks -/
theorem measured {c : Code} (hf : c.Fine) {evs : List Event} (h : c.Calls evs) (hlen : evs.length < 2 ^ 31) :
    ∃ t, run evs = some t ∧ ∀ (b : Blk) (th : ℕ) (key : Key), keyOf th b.key = some key → callsBy th b.key evs ≠ [] →
      Alternate (callsBy th b.key evs) ∧
      get t key = some ⟨0, (outermost (callsBy th b.key evs) 0 0).length, lengths (outermost (callsBy th b.key evs) 0 0)⟩ ∧
      ∀ t0 t1 : BitVec 64, Clock evs t0 t1 →
        (lengths (outermost (callsBy th b.key evs) 0 0)).toNat
          = ((outermost (callsBy th b.key evs) 0 0).map fun x => x.2.toNat - x.1.toNat).sum ∧
        (lengths (outermost (callsBy th b.key evs) 0 0)).toNat ≤ (t1 - t0).toNat := by
  have hg := Code.good h hf
  obtain ⟨t, ht⟩ := run_defined evs (fun e he => by
    obtain ⟨b, -, hb⟩ := hg.name e he
    rw [hb]
    exact keyOf_blk b (hg.thread e he)) hlen
  refine ⟨t, ht, fun b th key hk hne => ?_⟩
  have ha := hg.alt th b
  refine ⟨ha, profiler_times_partial ht hk (key_noDash b) (fun e he => ?_) hne ha.paired.1 ha.paired.2, fun t0 t1 hc => ?_⟩
  · obtain ⟨b', -, hb⟩ := hg.name e he
    rw [hb]
    exact key_noDash b'
  · have hs : ((callsBy th b.key evs).map fun c => c.2.toNat).Pairwise (· ≤ ·) := by
      refine hc.sorted.sublist ?_
      have : (callsBy th b.key evs).map (fun c => c.2.toNat)
          = (evs.filter fun e => Decidable.decide (e.thread = th ∧ e.name = b.key)).map fun e => e.tick.toNat := by
        simp [callsBy, Function.comp_def]
      rw [this]
      exact List.filter_sublist.map _
    have hb : ∀ c ∈ callsBy th b.key evs, t0.toNat ≤ c.2.toNat ∧ c.2.toNat ≤ t1.toNat := by
      intro c hcm
      obtain ⟨e, he, rfl⟩ := List.mem_map.1 hcm
      exact hc.bounds e (List.mem_of_mem_filter he)
    obtain ⟨h1, h2⟩ := ha.sum hs hb
    have hle : t0.toNat ≤ t1.toNat := by
      obtain ⟨c, hcm⟩ := List.exists_mem_of_ne_nil _ hne
      exact (hb c hcm).1.trans (hb c hcm).2
    have h3 := lengths_toNat _ h1 (lt_of_le_of_lt h2 (lt_of_le_of_lt (Nat.sub_le _ _) t1.isLt))
    refine ⟨h3, ?_⟩
    rw [h3, BitVec.toNat_sub_of_le (BitVec.le_def.2 hle)]
    exact h2

/-! ## The code of the program -/

theorem Sec.loop_fine {n : ℕ} {f : ℕ → Sec} (h : ∀ i, (f i).Fine) : (Sec.loop n f).Fine := by
  induction n with
  | zero => trivial
  | succ n ih => exact ⟨ih, h n⟩

theorem Sec.loop_uses {n : ℕ} {f : ℕ → Sec} {b : Blk} (h : ∀ i, ¬ (f i).Uses b) : ¬ (Sec.loop n f).Uses b := by
  induction n with
  | zero => exact id
  | succ n ih => exact fun hh => hh.elim ih (h n)

theorem Code.loop_fine {n : ℕ} {f : ℕ → Code} (h : ∀ i, (f i).Fine) : (Code.loop n f).Fine := by
  induction n with
  | zero => trivial
  | succ n ih => exact ⟨ih, h n⟩

theorem Code.loop_uses {n : ℕ} {f : ℕ → Code} {b : Blk} (h : ∀ i, ¬ (f i).Uses b) : ¬ (Code.loop n f).Uses b := by
  induction n with
  | zero => exact id
  | succ n ih => exact fun hh => hh.elim ih (h n)

theorem Sec.loop_count (n : ℕ) (f : ℕ → Sec) (b : Blk) : (Sec.loop n f).count b = ∑ i ∈ Finset.range n, (f i).count b := by
  induction n with
  | zero => rfl
  | succ n ih => rw [Finset.sum_range_succ, ← ih]; rfl

theorem Code.loop_count (n : ℕ) (f : ℕ → Code) (b : Blk) : (Code.loop n f).count b = ∑ i ∈ Finset.range n, (f i).count b := by
  induction n with
  | zero => rfl
  | succ n ih => rw [Finset.sum_range_succ, ← ih]; rfl

theorem Code.cond_fine {p : Prop} [Decidable p] {c : Code} (h : c.Fine) : (Code.cond p c).Fine := by
  unfold Code.cond
  split
  · exact h
  · trivial

theorem Code.cond_uses {p : Prop} [Decidable p] {c : Code} {b : Blk} (h : ¬ c.Uses b) : ¬ (Code.cond p c).Uses b := by
  unfold Code.cond
  split
  · exact h
  · exact id

theorem Code.cond_count {p : Prop} [Decidable p] {c : Code} {b : Blk} : (Code.cond p c).count b = if p then c.count b else 0 := by
  unfold Code.cond
  split <;> rfl

theorem timeFlowMap_fine (n : ℕ) : (timeFlowMap n).Fine := by
  refine ⟨?_, ⟨fun h => h, trivial⟩, Sec.loop_fine fun _ => ?_⟩
  · rintro (h | h)
    · rcases h with h | h
      · cases h
      · exact h
    · exact Sec.loop_uses (fun _ => by simp [Sec.Uses]) h
  · simp [Sec.Fine, Sec.Uses]

/-- the blocks of `TimeFlowMap` are no others -/
theorem construct_uses (n : ℕ) {b : Blk} (h : b ∉ [Blk.tfm, .firstQR, .qr, .computeC, .dormqr, .pivot, .dgeqrf, .computeDT]) :
    ¬ (construct n).Uses b := by
  simp only [List.mem_cons, List.not_mem_nil, or_false, not_or] at h
  have : ¬ (timeFlowMap n).Uses b := by
    rintro (h1 | (h1 | h1) | h1)
    · exact h.1 h1
    · exact h.2.1 h1
    · exact h1
    · exact Sec.loop_uses (fun _ => by simp [Sec.Uses, h]) h1
  exact fun hh => hh.elim this this

theorem construct_fine (n : ℕ) : (construct n).Fine := ⟨timeFlowMap_fine n, timeFlowMap_fine n⟩

theorem iteration_fine (p : Shape) (neqlt : ℕ) : (iteration p neqlt).Fine := by
  have hg := construct_uses p.numBprod (b := .grecomp) (by decide)
  have hi := construct_uses p.numBprod (b := .iter) (by decide)
  refine ⟨Code.loop_uses fun l => ?_, Code.loop_fine fun l => ?_⟩
  · rintro (h | h | h | h | h)
    · rcases h with h | h
      · cases h
      · exact h
    · rcases h with h | h
      · cases h
      · exact h
    · rcases h with h | h
      · cases h
      · exact h
    · exact Code.cond_uses (by rintro (h | h); cases h; exact hi h) h
    · exact Code.cond_uses (by rintro (h | h); cases h; exact h) h
  · exact ⟨⟨id, trivial⟩, ⟨id, trivial⟩, ⟨id, trivial⟩, Code.cond_fine ⟨hg, construct_fine _⟩, Code.cond_fine ⟨id, trivial⟩⟩

theorem phononIteration_fine (p : Shape) (neqlt blocks flips : ℕ) : (phononIteration p neqlt blocks flips).Fine := by
  have hg := construct_uses p.numBprod (b := .grecomp) (by decide)
  have hi := construct_uses p.numBprod (b := .iter) (by decide)
  have hb := construct_uses p.numBprod (b := .phBlock) (by decide)
  have hf := construct_uses p.numBprod (b := .phFlip) (by decide)
  have leaf : ∀ b : Blk, b ≠ .iter → ¬ (Code.block b .skip).Uses .iter := by
    rintro b hne (h | h)
    · exact hne h.symm
    · exact h
  refine ⟨?_, Code.loop_fine fun l => ?_, ⟨Code.loop_uses fun _ => hb, Code.loop_fine fun _ => construct_fine _⟩,
    Code.loop_uses fun _ => hf, Code.loop_fine fun _ => construct_fine _⟩
  · rintro (h | h | h)
    · refine Code.loop_uses (fun l => ?_) h
      rintro (h | h | h | h | h | h)
      · exact leaf _ (by decide) h
      · exact Code.cond_uses (leaf _ (by decide)) h
      · exact leaf _ (by decide) h
      · exact leaf _ (by decide) h
      · exact Code.cond_uses (by rintro (h | h); cases h; exact hi h) h
      · refine Code.cond_uses ?_ h
        rintro (h | h)
        · exact leaf _ (by decide) h
        · exact leaf _ (by decide) h
    · rcases h with h | h
      · cases h
      · exact Code.loop_uses (fun _ => hi) h
    · rcases h with h | h
      · cases h
      · exact Code.loop_uses (fun _ => hi) h
  · exact ⟨⟨id, trivial⟩, Code.cond_fine ⟨id, trivial⟩, ⟨id, trivial⟩, ⟨id, trivial⟩, Code.cond_fine ⟨hg, construct_fine _⟩,
      Code.cond_fine ⟨⟨id, trivial⟩, id, trivial⟩⟩

theorem simulation_fine (p : Shape) (blocks flips : ℕ → ℕ) (it0 n : ℕ) : (simulation p blocks flips it0 n).Fine := by
  refine ⟨construct_fine _, Code.loop_fine fun k => ⟨?_, Code.cond_fine ⟨id, trivial⟩⟩⟩
  split
  · exact phononIteration_fine _ _ _ _
  · exact iteration_fine _ _

/-- C129: whatever the parameters, the random decisions, the distribution of the sections over threads, their interleaving and the
times are: all calls of the profiler are defined, and for every name and thread the report has the number of the intervals, and the
sum of their lengths, which is at most the total wall time -/
theorem program_measured (p : Shape) (blocks flips : ℕ → ℕ) (it0 n : ℕ) {evs : List Event}
    (h : (simulation p blocks flips it0 n).Calls evs) (hlen : evs.length < 2 ^ 31) :
    ∃ t, run evs = some t ∧ ∀ (b : Blk) (th : ℕ) (key : Key), keyOf th b.key = some key → callsBy th b.key evs ≠ [] →
      Alternate (callsBy th b.key evs) ∧
      get t key = some ⟨0, (outermost (callsBy th b.key evs) 0 0).length, lengths (outermost (callsBy th b.key evs) 0 0)⟩ ∧
      ∀ t0 t1 : BitVec 64, Clock evs t0 t1 →
        (lengths (outermost (callsBy th b.key evs) 0 0)).toNat
          = ((outermost (callsBy th b.key evs) 0 0).map fun x => x.2.toNat - x.1.toNat).sum ∧
        (lengths (outermost (callsBy th b.key evs) 0 0)).toNat ≤ (t1 - t0).toNat :=
  measured (simulation_fine p blocks flips it0 n) h hlen

/-! ## Numbers of calls -/

/-- blocks in sections are of a given kind -/
def Code.SectionsIn (S : Blk → Prop) : Code → Prop
  | .skip => True
  | .block _ c => c.SectionsIn S
  | .seq c d => c.SectionsIn S ∧ d.SectionsIn S
  | .par s t => (∀ b, s.Uses b → S b) ∧ ∀ b, t.Uses b → S b

theorem Code.loop_sections {S : Blk → Prop} {n : ℕ} {f : ℕ → Code} (h : ∀ i, (f i).SectionsIn S) : (Code.loop n f).SectionsIn S := by
  induction n with
  | zero => trivial
  | succ n ih => exact ⟨ih, h n⟩

theorem Code.cond_sections {S : Blk → Prop} {p : Prop} [Decidable p] {c : Code} (h : c.SectionsIn S) : (Code.cond p c).SectionsIn S := by
  unfold Code.cond
  split
  · exact h
  · trivial

/-- all other blocks are those of the main thread -/
theorem Code.main_thread {S : Blk → Prop} {c : Code} {evs : List Event} (h : c.Calls evs) (hf : c.Fine) (hS : c.SectionsIn S) {b : Blk}
    (hb : ¬ S b) : ∀ e ∈ evs, e.name = b.key → e.thread = 0 := by
  have sec : ∀ {s : Sec} {th : ℕ} {x : List Event}, s.Calls th x → s.Fine → (∀ b, s.Uses b → S b) → ∀ e ∈ x, e.name ≠ b.key := by
    intro s th x hx hfx hs e he hn
    obtain ⟨b', h1, h2⟩ := (Sec.good hx hfx).name e he
    exact hb (key_inj _ _ (h2.symm.trans hn) ▸ hs b' h1)
  induction h with
  | skip => simp
  | block t t' h ih =>
    intro e he hn
    simp only [List.mem_cons, List.mem_append, List.not_mem_nil, or_false] at he
    rcases he with rfl | he | rfl
    · rfl
    · exact ih hf.2 hS e he hn
    · rfl
  | seq h h' ih ih' =>
    intro e he hn
    rcases List.mem_append.1 he with he | he
    · exact ih hf.1 hS.1 e he hn
    · exact ih' hf.2 hS.2 e he hn
  | par h1 h2 hne hs hs' hm =>
    intro e he hn
    rcases hm.mem he with he | he
    · exact absurd hn (sec hs hf.1 hS.1 e he)
    · exact absurd hn (sec hs' hf.2 hS.2 e he)
  | one h1 hs hs' =>
    intro e he hn
    rcases List.mem_append.1 he with he | he
    · exact absurd hn (sec hs hf.1 hS.1 e he)
    · exact absurd hn (sec hs' hf.2 hS.2 e he)
  | other h1 hs hs' =>
    intro e he hn
    rcases List.mem_append.1 he with he | he
    · exact absurd hn (sec hs' hf.2 hS.2 e he)
    · exact absurd hn (sec hs hf.1 hS.1 e he)

/-- the blocks in `TimeFlowMap` -/
def FlowBlk (b : Blk) : Prop := b ∈ [Blk.tfm, .firstQR, .qr, .computeC, .dormqr, .pivot, .dgeqrf, .computeDT]

theorem simulation_sections (p : Shape) (blocks flips : ℕ → ℕ) (it0 n : ℕ) :
    (simulation p blocks flips it0 n).SectionsIn FlowBlk := by
  have hc : (construct p.numBprod).SectionsIn FlowBlk :=
    ⟨fun b h => by_contra fun hb => construct_uses p.numBprod hb (Or.inl h),
      fun b h => by_contra fun hb => construct_uses p.numBprod hb (Or.inr h)⟩
  refine ⟨hc, Code.loop_sections fun k => ⟨?_, Code.cond_sections trivial⟩⟩
  split
  · refine ⟨Code.loop_sections fun l => ?_, Code.loop_sections fun _ => hc, Code.loop_sections fun _ => hc⟩
    exact ⟨trivial, Code.cond_sections trivial, trivial, trivial, Code.cond_sections hc, Code.cond_sections ⟨trivial, trivial⟩⟩
  · exact Code.loop_sections fun l => ⟨trivial, trivial, trivial, Code.cond_sections hc, Code.cond_sections trivial⟩

/-- how many of the time slices are multiples of `m` -/
theorem sum_multiples (m L k : ℕ) : ∑ l ∈ Finset.range L, (if (l + 1) % m = 0 then k else 0) = L / m * k := by
  induction L with
  | zero => simp
  | succ L ih =>
    rw [Finset.sum_range_succ, ih, Nat.succ_div]
    simp only [Nat.dvd_iff_mod_eq_zero]
    split <;> ring

theorem timeFlowMap_count (n : ℕ) : (timeFlowMap n).count .tfm = 1 := by
  simp [timeFlowMap, Sec.count, Sec.loop_count]

/-- numbers of calls in the code -/
theorem simulation_count (p : Shape) (blocks flips : ℕ → ℕ) (it0 n : ℕ) :
    (simulation p blocks flips it0 n).count .iter = n ∧ (simulation p blocks flips it0 n).count .wraps = n * p.L ∧
    (simulation p blocks flips it0 n).count .grecomp = n * (p.L / p.nwraps) ∧
    (simulation p blocks flips it0 n).count .tfm = 2 * (1 + ∑ k ∈ Finset.range n,
      (p.L / p.nwraps + if p.usePhonons = true then blocks (it0 + k) + flips (it0 + k) else 0)) := by
  have hc : ∀ b : Blk, ¬ FlowBlk b → (construct p.numBprod).count b = 0 := by
    intro b hb
    unfold FlowBlk at hb
    simp only [List.mem_cons, List.not_mem_nil, or_false, not_or] at hb
    obtain ⟨h1, h2, h3, h4, h5, h6, h7, h8⟩ := hb
    simp [construct, timeFlowMap, Code.count, Sec.count, Sec.loop_count, Ne.symm h1, Ne.symm h2, Ne.symm h3, Ne.symm h4, Ne.symm h5,
      Ne.symm h6, Ne.symm h7, Ne.symm h8]
  have hi := hc .iter (by unfold FlowBlk; decide)
  have hw := hc .wraps (by unfold FlowBlk; decide)
  have hg := hc .grecomp (by unfold FlowBlk; decide)
  have ht : (construct p.numBprod).count .tfm = 2 := by
    simp [construct, Code.count, timeFlowMap_count]
  have step : ∀ it, (mainStep p blocks flips it).count .iter = 1 ∧ (mainStep p blocks flips it).count .wraps = p.L ∧
      (mainStep p blocks flips it).count .grecomp = p.L / p.nwraps ∧ (mainStep p blocks flips it).count .tfm
        = 2 * (p.L / p.nwraps + if p.usePhonons = true then blocks it + flips it else 0) := by
    intro it
    unfold mainStep
    by_cases hp : p.usePhonons = true
    · refine ⟨?_, ?_, ?_, ?_⟩ <;>
      simp only [hp, if_true, phononIteration, Code.count, Code.loop_count, Code.cond_count, hi, hw, hg, ht, reduceCtorEq, if_false,
        add_zero, zero_add, ite_self, Finset.sum_const_zero, sum_multiples, Finset.sum_const, Finset.card_range, nsmul_eq_mul, Nat.cast_id, mul_one]
      ring
    · refine ⟨?_, ?_, ?_, ?_⟩ <;>
      simp only [hp, if_false, iteration, Code.count, Code.loop_count, Code.cond_count, hi, hw, hg, ht, reduceCtorEq, if_true,
        add_zero, zero_add, ite_self, Finset.sum_const_zero, sum_multiples, Finset.sum_const, Finset.card_range, nsmul_eq_mul, Nat.cast_id, mul_one]
      ring
  simp only [simulation, Code.count, Code.loop_count, hi, hw, hg, ht, (step _).1, (step _).2.1, (step _).2.2.1, (step _).2.2.2,
    Finset.sum_const, Finset.card_range, nsmul_eq_mul, Nat.cast_id, mul_one, zero_add, true_and]
  rw [← Finset.mul_sum]
  ring

/-- C129: the report has one call of the iteration for every iteration, one call of the wraps for every time slice of every iteration,
and one recomputation for every `nwraps` time slices; `TimeFlowMap` is entered by all threads together twice for every construction
of the Green's functions -/
theorem program_calls (p : Shape) (blocks flips : ℕ → ℕ) (it0 n : ℕ) {evs : List Event}
    (h : (simulation p blocks flips it0 n).Calls evs) {t : Table Entry} (hr : run evs = some t) :
    (∀ q ∈ [(Blk.iter, n), (.wraps, n * p.L), (.grecomp, n * (p.L / p.nwraps))],
      (q.2 = 0 ∧ get t q.1.key = none) ∨ ∃ e, get t q.1.key = some e ∧ e.calls = q.2) ∧
    entered .tfm evs = 2 * (1 + ∑ k ∈ Finset.range n,
      (p.L / p.nwraps + if p.usePhonons = true then blocks (it0 + k) + flips (it0 + k) else 0)) := by
  have hf := simulation_fine p blocks flips it0 n
  have hg := Code.good h hf
  obtain ⟨c1, c2, c3, c4⟩ := simulation_count p blocks flips it0 n
  have key : ∀ (b : Blk) (m : ℕ), ¬ FlowBlk b → (simulation p blocks flips it0 n).count b = m →
      (m = 0 ∧ get t b.key = none) ∨ ∃ e, get t b.key = some e ∧ e.calls = m := by
    intro b m hb hm
    have hmain := Code.main_thread h hf (simulation_sections p blocks flips it0 n) hb
    have hk : keyOf 0 b.key = some b.key := rfl
    have hdash : ∀ e ∈ evs, (45 : UInt8) ∉ e.name := fun e he => by
      obtain ⟨b', -, hb'⟩ := hg.name e he
      rw [hb']
      exact key_noDash b'
    have ha := hg.alt 0 b
    have hcount : ((callsBy 0 b.key evs).filter fun c => Decidable.decide (c.1 = .enter)).length = m := by
      rw [← hm, ← hg.count b]
      unfold callsBy entered
      rw [List.filter_map, List.length_map, List.filter_filter]
      congr 1
      refine List.filter_congr fun e he => ?_
      simp only [Function.comp]
      rw [← Bool.decide_and, decide_eq_decide]
      exact ⟨fun hh => ⟨hh.1, hh.2.2⟩, fun hh => ⟨hh.1, hmain e he hh.2, hh.2⟩⟩
    by_cases hne : callsBy 0 b.key evs = []
    · refine Or.inl ⟨?_, ?_⟩
      · rw [← hcount, hne]
        rfl
      · have h1 := entry_of_calls hr b.key
        rw [callsOf_eq hk evs (key_noDash b) hdash, hne] at h1
        exact (Option.some.inj h1).symm
    · refine Or.inr ⟨_, profiler_times_partial hr hk (key_noDash b) hdash hne ha.paired.1 ha.paired.2, ?_⟩
      rw [ha.count, hcount]
  refine ⟨fun q hq => ?_, by rw [hg.count, c4]⟩
  fin_cases hq
  · exact key .iter _ (by unfold FlowBlk; decide) c1
  · exact key .wraps _ (by unfold FlowBlk; decide) c2
  · exact key .grecomp _ (by unfold FlowBlk; decide) c3

/-! ## Order of the report -/

/-- different names are in a strict order -/
theorem nameLE_antisymm (a b : Key) (h1 : nameLE a b = true) (h2 : nameLE b a = true) : a = b := by
  unfold nameLE at h1 h2
  simp only [decide_eq_true_eq] at h1 h2
  exact List.map_injective_iff.2 (fun x y h => UInt8.toNat_inj.1 h) (List.le_antisymm h1 h2)

/-- C129: whatever algorithm `qsort` uses (it need not be stable), the report has a unique order -/
theorem report_unique {evs : List Event} {t : Table Entry} (h : run evs = some t) {r : List (Key × Entry)} (hp : r.Perm (delete t))
    (hs : r.Pairwise fun a b => nameLE a.1 b.1 = true) : r = report t := by
  obtain ⟨-, h2, h3, -, -⟩ := report_spec h
  have hperm : r.Perm (report t) := hp.trans (List.mergeSort_perm _ _).symm
  refine List.Perm.eq_of_pairwise (le := fun a b => nameLE a.1 b.1 = true) (fun a b ha hb h4 h5 => ?_) hs h3 hperm
  exact List.inj_on_of_nodup_map h2 (hperm.mem_iff.1 ha) hb (nameLE_antisymm _ _ h4 h5)

/-! ## Non-vacuity -/

/-- names are ordered as `strcmp` does: a name comes before its extensions -/
example : nameLE Blk.iter.key Blk.wraps.key = true ∧ nameLE Blk.wraps.key Blk.iter.key = false ∧
    nameLE Blk.firstQR.key Blk.qr.key = true := by decide +kernel

/-- every section can be executed by every thread -/
theorem Sec.calls_exist (th : ℕ) (s : Sec) : ∃ evs, s.Calls th evs := by
  induction s with
  | skip => exact ⟨_, .skip⟩
  | block b s ih => exact ⟨_, .block 0 0 ih.choose_spec⟩
  | seq s t ih ih' => exact ⟨_, .seq ih.choose_spec ih'.choose_spec⟩

theorem Merge.one_after_other : ∀ x y : List Event, Merge x y (x ++ y)
  | [], [] => .nil
  | [], e :: y => .right e (Merge.one_after_other [] y)
  | e :: x, y => .left e (Merge.one_after_other x y)

/-- every code has sequences of calls -/
theorem Code.calls_exist (c : Code) : ∃ evs, c.Calls evs := by
  induction c with
  | skip => exact ⟨_, .skip⟩
  | block b s ih => exact ⟨_, .block 0 0 ih.choose_spec⟩
  | seq s t ih ih' => exact ⟨_, .seq ih.choose_spec ih'.choose_spec⟩
  | par s t =>
    exact ⟨_, .par (th := 0) (th' := 1) (by norm_num) (by norm_num) (by norm_num) (Sec.calls_exist 0 s).choose_spec
      (Sec.calls_exist 1 t).choose_spec (Merge.one_after_other _ _)⟩

/-- two threads with overlapping blocks: the times of both are measured -/
example : (Code.block .grecomp (.par (.block .tfm .skip) (.block .tfm .skip))).Calls
      [⟨0, .enter, Blk.grecomp.key, 1⟩, ⟨0, .enter, Blk.tfm.key, 2⟩, ⟨1, .enter, Blk.tfm.key, 3⟩, ⟨0, .leave, Blk.tfm.key, 5⟩,
        ⟨1, .leave, Blk.tfm.key, 9⟩, ⟨0, .leave, Blk.grecomp.key, 10⟩] ∧
    Clock [⟨0, .enter, Blk.grecomp.key, 1⟩, ⟨0, .enter, Blk.tfm.key, 2⟩, ⟨1, .enter, Blk.tfm.key, 3⟩, ⟨0, .leave, Blk.tfm.key, 5⟩,
        ⟨1, .leave, Blk.tfm.key, 9⟩, ⟨0, .leave, Blk.grecomp.key, 10⟩] 1 12 := by
  refine ⟨?_, ?_, ?_⟩
  · exact .block (evs := [⟨0, .enter, Blk.tfm.key, 2⟩, ⟨1, .enter, Blk.tfm.key, 3⟩, ⟨0, .leave, Blk.tfm.key, 5⟩,
        ⟨1, .leave, Blk.tfm.key, 9⟩]) 1 10
      (.par (th := 0) (th' := 1) (by norm_num) (by norm_num) (by norm_num) (.block 2 5 .skip) (.block 3 9 .skip)
        (.left _ (.right _ (.left _ (.right _ .nil)))))
  · simp
  · simp

/-- one iteration of a system with six time slices, recomputing the Green's functions after every third -/
example : ∃ evs, (simulation ⟨6, 3, 2, 1, 0, 0, false, false⟩ (fun _ => 0) (fun _ => 0) 0 1).Calls evs ∧ entered .tfm evs = 6 ∧
    entered .wraps evs = 6 := by
  obtain ⟨evs, h⟩ := Code.calls_exist (simulation ⟨6, 3, 2, 1, 0, 0, false, false⟩ (fun _ => 0) (fun _ => 0) 0 1)
  have hg := Code.good h (simulation_fine _ _ _ _ _)
  obtain ⟨-, c2, -, c4⟩ := simulation_count ⟨6, 3, 2, 1, 0, 0, false, false⟩ (fun _ => 0) (fun _ => 0) 0 1
  exact ⟨evs, h, by rw [hg.count, c4]; rfl, by rw [hg.count, c2]; rfl⟩

end Verif.Profiler
