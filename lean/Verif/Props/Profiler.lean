import Verif.Model.Profiler
import Verif.Props.HashTable
import Mathlib.Data.Nat.Digits.Lemmas
import Mathlib.Data.List.Sort
import Mathlib.Algebra.BigOperators.Group.List.Basic

/-! # The profiler: C57 -/

set_option autoImplicit false

namespace Verif.Profiler

open Verif.HashTable

/-! ## One entry -/

/-- what happens to one entry -/
def entryStep (p : Option Entry) (c : Call × BitVec 64) : Option (Option Entry) :=
  match c.1 with
  | .enter => (enterEntry (p.getD Entry.zero) c.2).map some
  | .leave => some (p.map fun p => leaveEntry p c.2)

/-- the calls made under a key -/
def callsOf (key : Key) (evs : List Event) : List (Call × BitVec 64) :=
  (evs.filter fun e => Decidable.decide (keyOf e.thread e.name = some key)).map fun e => (e.call, e.tick)

theorem step_get {t t' : Table Entry} {e : Event} (h : step t e = some t') (key : Key) :
    (if keyOf e.thread e.name = some key then entryStep (get t key) (e.call, e.tick)
      else some (get t key)) = some (get t' key) := by
  unfold step at h
  simp only [Option.bind_eq_bind] at h
  obtain ⟨k, hk, h⟩ := Option.bind_eq_some_iff.1 h
  rw [hk]
  simp only [Option.some.injEq]
  obtain ⟨th, c, n, tick⟩ := e
  cases c with
  | enter =>
    simp only [enter] at h
    cases hg : get t k with
    | none =>
      rw [hg] at h
      simp only [Option.map_eq_some_iff] at h
      obtain ⟨p, hp, rfl⟩ := h
      rw [get_insert, get_insert]
      by_cases hc : k = key
      · subst hc
        simp [entryStep, hg, hp]
      · rw [if_neg hc, if_neg (Ne.symm hc), if_neg (Ne.symm hc)]
    | some q =>
      rw [hg] at h
      simp only [Option.map_eq_some_iff] at h
      obtain ⟨p, hp, rfl⟩ := h
      rw [get_insert]
      by_cases hc : k = key
      · subst hc
        simp [entryStep, hg, hp]
      · rw [if_neg hc, if_neg (Ne.symm hc)]
  | leave =>
    simp only [leave, Option.some.injEq] at h
    cases hg : get t k with
    | none =>
      rw [hg] at h
      subst h
      by_cases hc : k = key
      · subst hc
        simp [entryStep, hg]
      · rw [if_neg hc]
    | some q =>
      rw [hg] at h
      subst h
      simp only
      rw [get_insert]
      by_cases hc : k = key
      · subst hc
        simp [entryStep, hg]
      · rw [if_neg hc, if_neg (Ne.symm hc)]

/-- C57: the entry of a key after any history of any threads is determined by the calls under this key
alone -/
theorem entry_of_calls {evs : List Event} {t : Table Entry} (h : run evs = some t) (key : Key) :
    (callsOf key evs).foldlM entryStep none = some (get t key) := by
  have gen : ∀ (evs : List Event) (t t' : Table Entry), evs.foldlM step t = some t' →
      (callsOf key evs).foldlM entryStep (get t key) = some (get t' key) := by
    intro evs
    induction evs with
    | nil =>
      intro t t' h
      obtain rfl : t = t' := Option.some.inj h
      rfl
    | cons e evs ih =>
      intro t t' h
      rw [List.foldlM_cons, Option.bind_eq_bind] at h
      obtain ⟨t1, h1, h2⟩ := Option.bind_eq_some_iff.1 h
      have hs := step_get h1 key
      unfold callsOf
      rw [List.filter_cons]
      by_cases hc : keyOf e.thread e.name = some key
      · rw [if_pos (decide_eq_true hc), List.map_cons, List.foldlM_cons, Option.bind_eq_bind]
        rw [if_pos hc] at hs
        rw [hs]
        exact ih _ _ h2
      · rw [if_neg (by simpa using hc)]
        rw [if_neg hc] at hs
        rw [Option.some.inj hs]
        exact ih _ _ h2
  have := gen evs start t h
  exact this

/-- C57: histories with the same calls under a key, in the same order, give the same entry, whatever
other names and other threads do and however they are interleaved -/
theorem entry_independent {evs evs' : List Event} {t t' : Table Entry} (h : run evs = some t)
    (h' : run evs' = some t') (key : Key) (hc : callsOf key evs = callsOf key evs') :
    get t key = get t' key := by
  have e1 := entry_of_calls h key
  have e2 := entry_of_calls h' key
  rw [hc, e2] at e1
  exact (Option.some.inj e1).symm

/-! ## Names -/

theorem decimal_inj {m n : ℕ} (h : decimal m = decimal n) : m = n := by
  unfold decimal at h
  have h1 := List.reverse_injective h
  refine Nat.digits.injective 10 ?_
  have inv : ∀ l : List ℕ, (∀ d ∈ l, d < 10) →
      (l.map fun d => UInt8.ofNat (48 + d)).map (fun c => c.toNat - 48) = l := by
    intro l hl
    rw [List.map_map]
    conv_rhs => rw [← List.map_id l]
    refine List.map_congr_left fun d hd => ?_
    have := hl d hd
    interval_cases d <;> rfl
  rw [← inv _ fun d hd => Nat.digits_lt_base (by norm_num : 1 < 10) hd, h1,
    inv _ fun d hd => Nat.digits_lt_base (by norm_num : 1 < 10) hd]

theorem decimal_noDash (n : ℕ) : (45 : UInt8) ∉ decimal n := by
  unfold decimal
  intro h
  rw [List.mem_reverse, List.mem_map] at h
  obtain ⟨d, hd, e⟩ := h
  have := Nat.digits_lt_base (by norm_num : 1 < 10) hd
  interval_cases d <;> revert e <;> decide

/-- different threads and different names have different entries if no name has a `-` -/
theorem keyOf_inj {th th' : ℕ} {n n' k : Key} (hn : (45 : UInt8) ∉ n) (hn' : (45 : UInt8) ∉ n')
    (h : keyOf th n = some k) (h' : keyOf th' n' = some k) : th = th' ∧ n = n' := by
  have cases : ∀ {th : ℕ} {n : Key}, keyOf th n = some k → (th = 0 ∧ k = n) ∨
      (0 < th ∧ k = n ++ 45 :: decimal th) := by
    intro th n h
    unfold keyOf at h
    split at h
    · rename_i hp
      simp only at h
      split at h
      · exact Or.inr ⟨hp, (Option.some.inj h).symm⟩
      · cases h
    · exact Or.inl ⟨by omega, (Option.some.inj h).symm⟩
  rcases cases h with ⟨a1, a2⟩ | ⟨a1, a2⟩ <;> rcases cases h' with ⟨b1, b2⟩ | ⟨b1, b2⟩
  · exact ⟨a1.trans b1.symm, a2.symm.trans b2⟩
  · rw [a2] at b2
    exact absurd (b2 ▸ by simp) hn
  · rw [b2] at a2
    exact absurd (a2 ▸ by simp) hn'
  · rw [a2] at b2
    obtain ⟨e1, -, e2⟩ := (List.append_cons_inj_of_notMem hn (decimal_noDash _)).1 b2
    exact ⟨decimal_inj e2, e1⟩

/-- the calls of one thread with one name -/
def callsBy (thread : ℕ) (name : Key) (evs : List Event) : List (Call × BitVec 64) :=
  (evs.filter fun e => Decidable.decide (e.thread = thread ∧ e.name = name)).map fun e => (e.call, e.tick)

/-- if no name has a `-`, the calls under a key are those of one thread with one name -/
theorem callsOf_eq {thread : ℕ} {name key : Key} (hk : keyOf thread name = some key) (evs : List Event)
    (hn : (45 : UInt8) ∉ name) (he : ∀ e ∈ evs, (45 : UInt8) ∉ e.name) :
    callsOf key evs = callsBy thread name evs := by
  unfold callsOf callsBy
  congr 1
  refine List.filter_congr fun e h => ?_
  congr 1
  refine propext ⟨fun h1 => keyOf_inj (he e h) hn h1 hk, ?_⟩
  rintro ⟨rfl, rfl⟩
  exact hk

/-! ## Intervals -/

/-- the outermost intervals of a sequence of calls; `depth` blocks are open, the outermost since `since` -/
def outermost : List (Call × BitVec 64) → (depth : ℕ) → (since : BitVec 64) →
    List (BitVec 64 × BitVec 64)
  | [], _, _ => []
  | (.enter, t) :: r, 0, _ => outermost r 1 t
  | (.enter, _) :: r, d + 1, o => outermost r (d + 2) o
  | (.leave, _) :: r, 0, o => outermost r 0 o
  | (.leave, t) :: r, 1, o => (o, t) :: outermost r 0 o
  | (.leave, _) :: r, d + 2, o => outermost r (d + 1) o

/-- every block is left after it is entered, and all are left at the end -/
def Paired : List (Call × BitVec 64) → ℕ → Prop
  | [], d => d = 0
  | (.enter, _) :: r, d => Paired r (d + 1)
  | (.leave, _) :: _, 0 => False
  | (.leave, _) :: r, d + 1 => Paired r d

/-- no block is entered inside a block of the same name -/
def Flat : List (Call × BitVec 64) → Bool → Prop
  | [], _ => True
  | (.enter, _) :: r, op => op = false ∧ Flat r true
  | (.leave, _) :: r, _ => Flat r false

/-- sum of the lengths of intervals -/
def lengths (l : List (BitVec 64 × BitVec 64)) : BitVec 64 := (l.map fun x => x.2 - x.1).sum

theorem outermost_zero : ∀ (l : List (Call × BitVec 64)) (o o' : BitVec 64),
    outermost l 0 o = outermost l 0 o'
  | [], _, _ => rfl
  | (.enter, _) :: _, _, _ => rfl
  | (.leave, _) :: r, o, o' => outermost_zero r o o'

theorem flat_entry : ∀ (l : List (Call × BitVec 64)) (p : Entry) (q : Option Entry), p.start = 0 →
    Paired l 0 → Flat l false →
    l.foldlM entryStep (some p) = some q →
    q = some ⟨0, p.calls + (outermost l 0 0).length, p.total + lengths (outermost l 0 0)⟩
  | [], p, q, hs, _, _, h => by
    obtain rfl : some p = q := Option.some.inj h
    obtain ⟨a, b, c⟩ := p
    obtain rfl : a = 0 := hs
    simp [outermost, lengths]
  | [(.enter, t)], p, q, hs, hp, _, _ => absurd hp (by simp [Paired])
  | (.enter, t) :: (.enter, u) :: r, p, q, hs, hp, hf, _ => absurd hf.2.1 (by decide)
  | (.leave, t) :: r, p, q, hs, hp, _, _ => absurd hp (by simp [Paired])
  | (.enter, t) :: (.leave, u) :: r, p, q, hs, hp, hf, h => by
    rw [List.foldlM_cons, Option.bind_eq_bind] at h
    obtain ⟨q1, h1, h⟩ := Option.bind_eq_some_iff.1 h
    rw [List.foldlM_cons, Option.bind_eq_bind] at h
    obtain ⟨q2, h2, h⟩ := Option.bind_eq_some_iff.1 h
    simp only [entryStep, Option.getD_some, enterEntry, hs, if_true, Option.map_eq_some_iff] at h1
    obtain ⟨p1, h1, rfl⟩ := h1
    split at h1
    · have h1 := Option.some.inj h1
      simp only [entryStep, Option.map_some, Option.some.injEq] at h2
      subst h2
      have := flat_entry r (leaveEntry p1 u) q rfl hp hf.2 h
      rw [this]
      subst h1
      simp only [leaveEntry, outermost, lengths, List.length_cons, List.map_cons, List.sum_cons]
      rw [outermost_zero r t 0]
      congr 2
      · push_cast
        ring
      · exact BitVec.add_assoc _ _ _
    · cases h1

/-- C57 as far as it holds: if the blocks of a name in a thread are properly paired and not nested in
each other, then the total is the sum of their lengths and the count is their number, whatever other names
and other threads do in between -/
theorem profiler_times_partial {evs : List Event} {t : Table Entry} (h : run evs = some t)
    {thread : ℕ} {name key : Key} (hk : keyOf thread name = some key) (hn : (45 : UInt8) ∉ name)
    (he : ∀ e ∈ evs, (45 : UInt8) ∉ e.name) (hne : callsBy thread name evs ≠ [])
    (hp : Paired (callsBy thread name evs) 0) (hf : Flat (callsBy thread name evs) false) :
    get t key = some ⟨0, (outermost (callsBy thread name evs) 0 0).length,
      lengths (outermost (callsBy thread name evs) 0 0)⟩ := by
  have h1 := entry_of_calls h key
  rw [callsOf_eq hk evs hn he] at h1
  generalize callsBy thread name evs = l at *
  have h2 : l.foldlM entryStep (some Entry.zero) = some (get t key) := by
    cases l with
    | nil => exact absurd rfl hne
    | cons c r =>
      obtain ⟨c, u⟩ := c
      cases c with
      | enter => exact h1
      | leave => exact absurd hp (by simp [Paired])
  rw [flat_entry l Entry.zero _ rfl hp hf h2]
  simp [Entry.zero]

/-- the sum in machine words is the sum of the lengths as numbers, if the clock does not go back and the
sum is below `2 ^ 64` -/
theorem lengths_toNat (l : List (BitVec 64 × BitVec 64)) (h : ∀ x ∈ l, x.1.toNat ≤ x.2.toNat)
    (hs : (l.map fun x => x.2.toNat - x.1.toNat).sum < 2 ^ 64) :
    (lengths l).toNat = (l.map fun x => x.2.toNat - x.1.toNat).sum := by
  induction l with
  | nil => rfl
  | cons x l ih =>
    simp only [List.map_cons, List.sum_cons] at hs ⊢
    have h1 := h x List.mem_cons_self
    have h2 := ih (fun y hy => h y (List.mem_cons_of_mem _ hy)) (by omega)
    unfold lengths at h2 ⊢
    rw [List.map_cons, List.sum_cons, BitVec.toNat_add, h2,
      BitVec.toNat_sub_of_le (BitVec.le_def.2 h1), Nat.mod_eq_of_lt hs]

/-! ## Definedness -/

theorem entryStep_calls {p q : Option Entry} {c : Call × BitVec 64} (h : entryStep p c = some q) (m : ℤ)
    (hp : ∀ x, p = some x → 0 < x.calls ∧ x.calls ≤ m) (hm : 0 ≤ m) :
    ∀ x, q = some x → 0 < x.calls ∧ x.calls ≤ m + 1 := by
  rintro x rfl
  obtain ⟨c, t⟩ := c
  cases c with
  | enter =>
    simp only [entryStep, Option.map_eq_some_iff] at h
    obtain ⟨y, h, e⟩ := h
    obtain rfl : y = x := Option.some.inj e
    have hp' : 0 ≤ (p.getD Entry.zero).calls ∧ (p.getD Entry.zero).calls ≤ m ∧
        ((p.getD Entry.zero).start ≠ 0 → 0 < (p.getD Entry.zero).calls) := by
      cases p with
      | none => exact ⟨le_refl _, hm, fun h => absurd rfl h⟩
      | some z => exact ⟨(hp z rfl).1.le, (hp z rfl).2, fun _ => (hp z rfl).1⟩
    unfold enterEntry at h
    split at h
    · split at h
      · rw [← Option.some.inj h]
        exact ⟨by show 0 < _ + 1; omega, by show _ + 1 ≤ _; omega⟩
      · cases h
    · rename_i hs
      rw [← Option.some.inj h]
      exact ⟨hp'.2.2 hs, by omega⟩
  | leave =>
    simp only [entryStep, Option.some.injEq] at h
    cases p with
    | none => cases h
    | some z =>
      rw [← Option.some.inj h]
      have := hp z rfl
      exact ⟨this.1, by show z.calls ≤ _; omega⟩

/-- every entry has been entered, so the report does not divide by zero -/
theorem run_calls {evs : List Event} {t : Table Entry} (h : run evs = some t) (key : Key) (p : Entry)
    (hg : get t key = some p) : 0 < p.calls ∧ p.calls ≤ evs.length := by
  have gen : ∀ (l : List (Call × BitVec 64)) (m : ℤ) (p q : Option Entry), 0 ≤ m →
      (∀ x, p = some x → 0 < x.calls ∧ x.calls ≤ m) → l.foldlM entryStep p = some q →
      ∀ x, q = some x → 0 < x.calls ∧ x.calls ≤ m + l.length := by
    intro l
    induction l with
    | nil =>
      intro m p q hm hp h x hx
      obtain rfl : p = q := Option.some.inj h
      have := hp x hx
      simpa using this
    | cons c l ih =>
      intro m p q hm hp h x hx
      rw [List.foldlM_cons, Option.bind_eq_bind] at h
      obtain ⟨p1, h1, h2⟩ := Option.bind_eq_some_iff.1 h
      have := ih (m + 1) p1 q (by omega) (entryStep_calls h1 m hp hm) h2 x hx
      rw [List.length_cons]
      push_cast
      omega
  have := gen _ 0 none _ le_rfl (fun x hx => by cases hx) (entry_of_calls h key) p hg
  have hl : (callsOf key evs).length ≤ evs.length := by
    unfold callsOf
    rw [List.length_map]
    exact List.length_filter_le _ _
  omega

/-- the calls are defined as long as the names fit into the buffer and there are fewer than `2 ^ 31` -/
theorem run_defined (evs : List Event) (hk : ∀ e ∈ evs, keyOf e.thread e.name ≠ none)
    (hl : evs.length < 2 ^ 31) : ∃ t, run evs = some t := by
  induction evs using List.reverseRecOn with
  | nil => exact ⟨_, rfl⟩
  | append_singleton evs e ih =>
    rw [List.length_append, List.length_singleton] at hl
    obtain ⟨t, ht⟩ := ih (fun e he => hk e (by simp [he])) (by omega)
    obtain ⟨key, hkey⟩ := Option.ne_none_iff_exists'.1 (hk e (by simp))
    have hs : ∃ t', step t e = some t' := by
      unfold step
      rw [hkey]
      simp only [Option.bind_eq_bind, Option.bind_some]
      cases e.call with
      | leave => exact ⟨_, rfl⟩
      | enter =>
        simp only [enter]
        cases hg : get t key with
        | none => exact ⟨_, rfl⟩
        | some p =>
          have := run_calls ht key p hg
          simp only [enterEntry]
          split
          · rw [if_pos (by omega)]
            exact ⟨_, rfl⟩
          · exact ⟨_, rfl⟩
    obtain ⟨t', ht'⟩ := hs
    refine ⟨t', ?_⟩
    unfold run at ht ⊢
    rw [List.foldlM_append, ht]
    simpa using ht'

/-! ## Where C57 fails -/

/-- two nested blocks of the same name: the total is `(d - b) + e` instead of `e - b` -/
theorem nested_total (name : Key) (b c d e : BitVec 64) (hb : b ≠ 0) :
    ∃ t, run [⟨0, .enter, name, b⟩, ⟨0, .enter, name, c⟩, ⟨0, .leave, name, d⟩, ⟨0, .leave, name, e⟩] =
      some t ∧ get t name = some ⟨0, 1, (d - b) + e⟩ := by
  obtain ⟨t, ht⟩ := run_defined [⟨0, .enter, name, b⟩, ⟨0, .enter, name, c⟩, ⟨0, .leave, name, d⟩,
    ⟨0, .leave, name, e⟩] (by simp [keyOf]) (by simp)
  refine ⟨t, ht, ?_⟩
  have := entry_of_calls ht name
  simp only [callsOf, keyOf] at this
  have hb' : ¬ b = 0#64 := hb
  simpa [entryStep, enterEntry, leaveEntry, Entry.zero, hb'] using this.symm

/-- C57 is false: properly paired blocks for which the total is not the sum of the outermost intervals -/
theorem nested_wrong : ∃ (evs : List Event) (name : Key) (t : Table Entry) (p : Entry),
    run evs = some t ∧ get t name = some p ∧ Paired (callsBy 0 name evs) 0 ∧
    outermost (callsBy 0 name evs) 0 0 = [(1, 4)] ∧ p.total = 6 := by
  obtain ⟨t, h1, h2⟩ := nested_total [84] 1 2 3 4 (by decide)
  refine ⟨_, [84], t, _, h1, h2, ?_, ?_, ?_⟩
  · simp [callsBy, Paired]
  · simp [callsBy, outermost]
  · decide

/-- C57 is false: a name with a `-` may be that of another thread, whose intervals are then added -/
theorem names_collide : ∃ (evs : List Event) (name : Key) (t : Table Entry) (p : Entry),
    run evs = some t ∧ get t name = some p ∧
    outermost (callsBy 0 name evs) 0 0 = [(1, 2)] ∧ p.total = 5 := by
  obtain ⟨t, ht⟩ := run_defined [⟨0, .enter, [84, 45, 49], 1⟩, ⟨0, .leave, [84, 45, 49], 2⟩,
    ⟨1, .enter, [84], 3⟩, ⟨1, .leave, [84], 7⟩] (by simp [keyOf, decimal]) (by simp)
  have := entry_of_calls ht [84, 45, 49]
  simp [callsOf, keyOf, decimal, entryStep, enterEntry, leaveEntry, Entry.zero] at this
  refine ⟨_, [84, 45, 49], t, _, ht, this.symm, ?_, ?_⟩
  · simp [callsBy, outermost]
  · decide

/-- the hypotheses of `profiler_times_partial` hold for two threads at work -/
example : ∃ t, run [⟨0, .enter, [84], 1⟩, ⟨1, .enter, [84], 2⟩, ⟨0, .enter, [85], 3⟩, ⟨0, .leave, [85], 5⟩,
    ⟨1, .leave, [84], 9⟩, ⟨0, .leave, [84], 11⟩, ⟨0, .enter, [84], 12⟩, ⟨0, .leave, [84], 20⟩] = some t ∧
    get t [84] = some ⟨0, 2, 18⟩ ∧ get t [84, 45, 49] = some ⟨0, 1, 7⟩ ∧ get t [85] = some ⟨0, 1, 2⟩ := by
  obtain ⟨t, ht⟩ := run_defined [⟨0, .enter, [84], 1⟩, ⟨1, .enter, [84], 2⟩, ⟨0, .enter, [85], 3⟩,
    ⟨0, .leave, [85], 5⟩, ⟨1, .leave, [84], 9⟩, ⟨0, .leave, [84], 11⟩, ⟨0, .enter, [84], 12⟩,
    ⟨0, .leave, [84], 20⟩] (by simp [keyOf, decimal]) (by simp)
  refine ⟨t, ht, ?_, ?_, ?_⟩
  · rw [profiler_times_partial ht (thread := 0) (name := [84]) rfl] <;>
      simp [callsBy, Paired, Flat, outermost, lengths]
  · rw [profiler_times_partial ht (thread := 1) (name := [84]) (by simp [keyOf, decimal])] <;>
      simp [callsBy, Paired, Flat, outermost, lengths]
  · rw [profiler_times_partial ht (thread := 0) (name := [85]) rfl] <;>
      simp [callsBy, Paired, Flat, outermost, lengths]

/-! ## The report -/

theorem inv_profile {evs : List Event} {t : Table Entry} (h : run evs = some t) : Inv t := by
  have gen : ∀ (evs : List Event) (t t' : Table Entry), Inv t → evs.foldlM step t = some t' → Inv t' := by
    intro evs
    induction evs with
    | nil =>
      intro t t' ht h
      exact Option.some.inj h ▸ ht
    | cons e evs ih =>
      intro t t' ht h
      rw [List.foldlM_cons, Option.bind_eq_bind] at h
      obtain ⟨t1, h1, h2⟩ := Option.bind_eq_some_iff.1 h
      refine ih _ _ ?_ h2
      unfold step at h1
      simp only [Option.bind_eq_bind] at h1
      obtain ⟨k, -, h1⟩ := Option.bind_eq_some_iff.1 h1
      split at h1
      · unfold enter at h1
        split at h1
        · simp only [Option.map_eq_some_iff] at h1
          obtain ⟨p, -, rfl⟩ := h1
          exact inv_insert (inv_insert ht _ _) _ _
        · simp only [Option.map_eq_some_iff] at h1
          obtain ⟨p, -, rfl⟩ := h1
          exact inv_insert ht _ _
      · rw [← Option.some.inj h1]
        unfold leave
        split
        · exact ht
        · exact inv_insert ht _ _
  exact gen _ _ _ (inv_allocate 32 (by norm_num)) h

theorem get_iff_mem {t : Table Entry} (h : Inv t) (key : Key) (p : Entry) :
    get t key = some p ↔ (key, p) ∈ delete t := by
  unfold HashTable.get delete
  rw [List.mem_flatMap]
  constructor
  · intro hg
    exact ⟨index t key, List.mem_range.2 (index_lt h.pos key), (chainGet_iff_mem _ _ _ (h.nodup _)).1 hg⟩
  · rintro ⟨i, -, hm⟩
    obtain rfl := h.home i _ hm
    exact (chainGet_iff_mem _ _ _ (h.nodup _)).2 hm

theorem nameLE_trans (a b c : Key) (h1 : nameLE a b = true) (h2 : nameLE b c = true) :
    nameLE a c = true := by
  unfold nameLE at *
  simp only [decide_eq_true_eq] at *
  exact List.le_trans h1 h2

theorem nameLE_total (a b : Key) : (nameLE a b || nameLE b a) = true := by
  unfold nameLE
  simp only [Bool.or_eq_true, decide_eq_true_eq]
  exact List.le_total _ _

/-- C57: the report lists every name that was entered exactly once, in the order of the names, with its
entry; the array of `n_entries` pointers is filled exactly -/
theorem report_spec {evs : List Event} {t : Table Entry} (h : run evs = some t) :
    (∀ key p, (key, p) ∈ report t ↔ get t key = some p) ∧
    ((report t).map Prod.fst).Nodup ∧
    (report t).Pairwise (fun a b => nameLE a.1 b.1 = true) ∧
    t.nEntries = ((report t).length : ℤ) ∧ t.nEntries = ((delete t).length : ℤ) := by
  have hi := inv_profile h
  have hperm := List.mergeSort_perm (delete t) fun a b => nameLE a.1 b.1
  refine ⟨?_, ?_, ?_, ?_, hi.count⟩
  · intro key p
    rw [get_iff_mem hi]
    exact hperm.mem_iff
  · unfold report
    rw [(hperm.map Prod.fst).nodup_iff]
    unfold delete
    rw [List.map_flatMap, List.nodup_flatMap]
    refine ⟨fun i _ => hi.nodup i, ?_⟩
    refine List.Pairwise.imp_of_mem ?_ (List.nodup_range (n := t.nBuckets))
    intro i j _ _ hij k hki hkj
    obtain ⟨e, he, rfl⟩ := List.mem_map.1 hki
    obtain ⟨e', he', hee⟩ := List.mem_map.1 hkj
    have h1 := hi.home i e he
    have h2 := hi.home j e' he'
    rw [hee] at h2
    exact hij (h1.symm.trans h2)
  · exact List.pairwise_mergeSort (le := fun a b : Key × Entry => nameLE a.1 b.1)
      (fun a b c => nameLE_trans a.1 b.1 c.1) (fun a b => nameLE_total a.1 b.1) (delete t)
  · rw [hi.count]
    unfold report
    rw [hperm.length_eq]

/-- a name is in the report if and only if it was entered -/
theorem report_names {evs : List Event} {t : Table Entry} (h : run evs = some t) (key : Key) :
    (∃ p, (key, p) ∈ report t) ↔ ∃ e ∈ evs, e.call = .enter ∧ keyOf e.thread e.name = some key := by
  have gen : ∀ (l : List (Call × BitVec 64)) (p q : Option Entry), l.foldlM entryStep p = some q →
      (q.isSome = true ↔ p.isSome = true ∨ ∃ c ∈ l, c.1 = .enter) := by
    intro l
    induction l with
    | nil =>
      intro p q h
      rw [← Option.some.inj h]
      simp
    | cons c l ih =>
      intro p q h
      rw [List.foldlM_cons, Option.bind_eq_bind] at h
      obtain ⟨p1, h1, h2⟩ := Option.bind_eq_some_iff.1 h
      rw [ih _ _ h2]
      obtain ⟨c, u⟩ := c
      cases c with
      | enter =>
        simp only [entryStep, Option.map_eq_some_iff] at h1
        obtain ⟨y, -, rfl⟩ := h1
        simp
      | leave =>
        simp only [entryStep, Option.some.injEq] at h1
        rw [← h1]
        simp
  have h1 := gen _ _ _ (entry_of_calls h key)
  have h2 : (∃ p, (key, p) ∈ report t) ↔ (get t key).isSome = true := by
    rw [Option.isSome_iff_exists]
    exact exists_congr fun p => (report_spec h).1 key p
  rw [h2, h1]
  simp only [Option.isSome_none, Bool.false_eq_true, false_or, callsOf, List.mem_map, List.mem_filter,
    decide_eq_true_eq]
  constructor
  · rintro ⟨c, ⟨e, ⟨a1, a2⟩, rfl⟩, a3⟩
    exact ⟨e, a1, a3, a2⟩
  · rintro ⟨e, a1, a2, a3⟩
    exact ⟨_, ⟨e, ⟨a1, a3⟩, rfl⟩, a2⟩

end Verif.Profiler
