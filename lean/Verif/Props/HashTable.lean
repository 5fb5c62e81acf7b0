import Verif.Model.HashTable
import Mathlib.Data.Multiset.AddSub
import Mathlib.Algebra.Order.Group.Multiset
import Mathlib.Tactic.Abel
import Mathlib.Data.List.Nodup

set_option autoImplicit false

/-! # Properties C06 and C07: the hash table is a finite map -/

namespace Verif.HashTable

variable {ν : Type}

/-! ## Specification: a partial function from keys to values -/

/-- one call on the abstract map: new map and returned value -/
def specStep (m : Key → Option ν) : Op ν → (Key → Option ν) × Option ν
  | .insert k v => (fun k' => if k' = k then some v else m k', m k)
  | .get k => (m, m k)
  | .remove k => (fun k' => if k' = k then none else m k', m k)

/-- a sequence of calls on the abstract map -/
def specRun (m : Key → Option ν) : List (Op ν) → (Key → Option ν) × List (Option ν)
  | [] => (m, [])
  | op :: ops => ((specRun (specStep m op).1 ops).1, (specStep m op).2 :: (specRun (specStep m op).1 ops).2)

/-! ## Chains -/

theorem chainGet_insert (key k' : Key) (val : ν) (c : List (Key × ν)) :
    chainGet k' (chainInsert key val c).1 = if k' = key then some val else chainGet k' c := by
  induction c with
  | nil => simp [chainInsert, chainGet]
  | cons e rest ih =>
    obtain ⟨k, v⟩ := e
    by_cases h : key = k
    · subst h
      by_cases h' : k' = key <;> simp [chainInsert, chainGet, h']
    · by_cases h' : k' = k
      · have : ¬ k' = key := fun hk => h (hk.symm.trans h')
        simp only [chainInsert, if_neg h, chainGet, if_pos h', if_neg this]
      · simp only [chainInsert, if_neg h, chainGet, if_neg h', ih]

theorem chainInsert_ret (key : Key) (val : ν) (c : List (Key × ν)) :
    (chainInsert key val c).2 = chainGet key c := by
  induction c with
  | nil => rfl
  | cons e rest ih =>
    obtain ⟨k, v⟩ := e
    by_cases h : key = k <;> simp [chainInsert, chainGet, h, ih]

theorem chainRemove_ret (key : Key) (c : List (Key × ν)) :
    (chainRemove key c).2 = chainGet key c := by
  induction c with
  | nil => rfl
  | cons e rest ih =>
    obtain ⟨k, v⟩ := e
    by_cases h : key = k <;> simp [chainRemove, chainGet, h, ih]

theorem chainGet_eq_none (key : Key) (c : List (Key × ν)) :
    chainGet key c = none ↔ key ∉ c.map Prod.fst := by
  induction c with
  | nil => simp [chainGet]
  | cons e rest ih =>
    obtain ⟨k, v⟩ := e
    by_cases h : key = k <;> simp [chainGet, h, ih]

theorem chainGet_remove (key k' : Key) (c : List (Key × ν)) (hc : (c.map Prod.fst).Nodup) :
    chainGet k' (chainRemove key c).1 = if k' = key then none else chainGet k' c := by
  induction c with
  | nil => simp [chainRemove, chainGet]
  | cons e rest ih =>
    obtain ⟨k, v⟩ := e
    simp only [List.map_cons, List.nodup_cons] at hc
    by_cases h : key = k
    · subst h
      by_cases h' : k' = key
      · subst h'
        simp only [chainRemove, if_true]
        exact (chainGet_eq_none _ _).2 hc.1
      · simp [chainRemove, chainGet, h']
    · by_cases h' : k' = k
      · have : ¬ k' = key := fun hk => h (hk.symm.trans h')
        simp only [chainRemove, if_neg h, chainGet, if_pos h', if_neg this]
      · simp only [chainRemove, if_neg h, chainGet, if_neg h', ih hc.2]

theorem chainInsert_keys (key : Key) (val : ν) (c : List (Key × ν)) :
    (chainInsert key val c).1.map Prod.fst =
      if key ∈ c.map Prod.fst then c.map Prod.fst else c.map Prod.fst ++ [key] := by
  induction c with
  | nil => simp [chainInsert]
  | cons e rest ih =>
    obtain ⟨k, v⟩ := e
    by_cases h : key = k
    · simp [chainInsert, h]
    · simp only [chainInsert, if_neg h]
      rw [List.map_cons, ih, List.map_cons]
      by_cases hk : key ∈ rest.map Prod.fst
      · rw [if_pos hk, if_pos (List.mem_cons_of_mem _ hk)]
      · rw [if_neg hk, if_neg (by rw [List.mem_cons]; rintro (h' | h'); exacts [h h', hk h'])]
        rfl

theorem chainRemove_sublist (key : Key) (c : List (Key × ν)) :
    List.Sublist (chainRemove key c).1 c := by
  induction c with
  | nil => exact List.Sublist.refl _
  | cons e rest ih =>
    obtain ⟨k, v⟩ := e
    by_cases h : key = k
    · simp [chainRemove, h]
    · simp only [chainRemove, if_neg h]; exact ih.cons_cons _

theorem chainGet_iff_mem (key : Key) (v : ν) (c : List (Key × ν)) (hc : (c.map Prod.fst).Nodup) :
    chainGet key c = some v ↔ (key, v) ∈ c := by
  induction c with
  | nil => simp [chainGet]
  | cons e rest ih =>
    obtain ⟨k, w⟩ := e
    simp only [List.map_cons, List.nodup_cons] at hc
    by_cases h : key = k
    · subst h
      have : ∀ v, (key, v) ∉ rest := fun v hv => hc.1 (List.mem_map.2 ⟨_, hv, rfl⟩)
      simp [chainGet, this, eq_comm]
    · simp [chainGet, h, ih hc.2]

/-! ## Representation invariant -/

/-- every entry sits in the bucket of its hash, and a chain has no repeated key -/
structure Inv (t : Table ν) : Prop where
  pos : 0 < t.nBuckets
  home : ∀ i, ∀ e ∈ t.buckets i, index t e.1 = i
  nodup : ∀ i, ((t.buckets i).map Prod.fst).Nodup
  count : t.nEntries = ((delete t).length : ℤ)

theorem index_lt {t : Table ν} (h : 0 < t.nBuckets) (k : Key) : index t k < t.nBuckets :=
  Nat.mod_lt _ h

theorem sum_range_update (f : ℕ → ℕ) (n i a : ℕ) (hi : i < n) :
    ((List.range n).map (Function.update f i a)).sum + f i = ((List.range n).map f).sum + a := by
  induction n with
  | zero => omega
  | succ n ih =>
    rw [List.range_succ, List.map_append, List.map_append, List.sum_append, List.sum_append]
    by_cases h : i = n
    · subst h
      have : (List.range i).map (Function.update f i a) = (List.range i).map f := by
        apply List.map_congr_left
        intro x hx
        rw [List.mem_range] at hx
        exact Function.update_of_ne (by omega) _ _
      rw [this]; simp; omega
    · have := ih (by omega)
      have h2 : Function.update f i a n = f n := Function.update_of_ne (fun h' => h h'.symm) _ _
      simp only [List.map_cons, List.map_nil, List.sum_cons, List.sum_nil, h2]
      omega

theorem delete_length (t : Table ν) :
    (delete t).length = ((List.range t.nBuckets).map fun i => (t.buckets i).length).sum := by
  simp [delete, List.length_flatMap]

theorem length_update (n : ℕ) (b : ℕ → List (Key × ν)) (i : ℕ) (c : List (Key × ν)) (hi : i < n) :
    ((List.range n).map fun j => (Function.update b i c j).length).sum + (b i).length
      = ((List.range n).map fun j => (b j).length).sum + c.length := by
  have := sum_range_update (fun j => (b j).length) n i c.length hi
  rw [← this]
  congr 3
  funext j
  by_cases h : j = i
  · subst h; simp
  · simp [h]

theorem chainInsert_length (key : Key) (val : ν) (c : List (Key × ν)) :
    (chainInsert key val c).1.length = c.length + if (chainInsert key val c).2.isSome then 0 else 1 := by
  induction c with
  | nil => simp [chainInsert]
  | cons e rest ih =>
    obtain ⟨k, v⟩ := e
    by_cases h : key = k
    · simp [chainInsert, h]
    · simp only [chainInsert, if_neg h, List.length_cons, ih]; omega

theorem chainRemove_length (key : Key) (c : List (Key × ν)) :
    (chainRemove key c).1.length + (if (chainRemove key c).2.isSome then 1 else 0) = c.length := by
  induction c with
  | nil => simp [chainRemove]
  | cons e rest ih =>
    obtain ⟨k, v⟩ := e
    by_cases h : key = k
    · simp [chainRemove, h]
    · simp only [chainRemove, if_neg h, List.length_cons, ← ih]; omega

theorem inv_allocate (n : ℕ) (hn : 0 < n) : Inv (allocate n : Table ν) where
  pos := hn
  home := by intro i e he; simp [allocate] at he
  nodup := by intro i; simp [allocate]
  count := by simp [allocate, delete]

theorem inv_insert {t : Table ν} (h : Inv t) (k : Key) (v : ν) : Inv (insert t k v).1 where
  pos := h.pos
  home := by
    intro i e he
    change index t e.1 = i
    simp only [insert] at he
    by_cases hi : i = index t k
    · subst hi
      rw [Function.update_self] at he
      have hk : e.1 ∈ (chainInsert k v (t.buckets (index t k))).1.map Prod.fst :=
        List.mem_map.2 ⟨e, he, rfl⟩
      rw [chainInsert_keys] at hk
      have : e.1 ∈ (t.buckets (index t k)).map Prod.fst ∨ e.1 = k := by
        split at hk
        · exact Or.inl hk
        · simpa using hk
      rcases this with hm | hm
      · obtain ⟨e', he', hee⟩ := List.mem_map.1 hm
        rw [← hee]; exact h.home _ _ he'
      · rw [hm]
    · rw [Function.update_of_ne hi] at he
      exact h.home i e he
  nodup := by
    intro i
    simp only [insert]
    by_cases hi : i = index t k
    · subst hi
      rw [Function.update_self, chainInsert_keys]
      split
      · exact h.nodup _
      · rename_i hk
        rw [List.nodup_append]
        refine ⟨h.nodup _, by simp, ?_⟩
        intro a ha b hb
        rw [List.mem_singleton] at hb
        subst hb
        exact fun hab => hk (hab ▸ ha)
    · rw [Function.update_of_ne hi]; exact h.nodup i
  count := by
    have h1 := length_update t.nBuckets t.buckets (index t k)
      (chainInsert k v (t.buckets (index t k))).1 (index_lt h.pos k)
    have h2 := chainInsert_length k v (t.buckets (index t k))
    have h3 := h.count
    rw [delete_length] at h3 ⊢
    simp only [insert]
    split at h2 <;> rename_i hs <;> simp only [hs, if_true, if_false, h3, Bool.false_eq_true] <;> omega

theorem inv_remove {t : Table ν} (h : Inv t) (k : Key) : Inv (remove t k).1 where
  pos := h.pos
  home := by
    intro i e he
    change index t e.1 = i
    simp only [remove] at he
    by_cases hi : i = index t k
    · subst hi
      rw [Function.update_self] at he
      exact h.home _ _ ((chainRemove_sublist k _).subset he)
    · rw [Function.update_of_ne hi] at he
      exact h.home i e he
  nodup := by
    intro i
    simp only [remove]
    by_cases hi : i = index t k
    · subst hi
      rw [Function.update_self]
      exact ((chainRemove_sublist k _).map _).nodup (h.nodup _)
    · rw [Function.update_of_ne hi]; exact h.nodup i
  count := by
    have h1 := length_update t.nBuckets t.buckets (index t k)
      (chainRemove k (t.buckets (index t k))).1 (index_lt h.pos k)
    have h2 := chainRemove_length k (t.buckets (index t k))
    have h3 := h.count
    rw [delete_length] at h3 ⊢
    simp only [remove]
    split at h2 <;> rename_i hs <;> simp only [hs, if_true, if_false, h3, Bool.false_eq_true] <;> omega

theorem get_insert {t : Table ν} (k k' : Key) (v : ν) :
    get (insert t k v).1 k' = if k' = k then some v else get t k' := by
  unfold get
  change chainGet k' ((Function.update t.buckets (index t k) _) (index t k')) = _
  by_cases hi : index t k' = index t k
  · rw [hi, Function.update_self, chainGet_insert]
  · rw [Function.update_of_ne hi, if_neg]
    rintro rfl; exact hi rfl

theorem get_remove {t : Table ν} (h : Inv t) (k k' : Key) :
    get (remove t k).1 k' = if k' = k then none else get t k' := by
  unfold get
  change chainGet k' ((Function.update t.buckets (index t k) _) (index t k')) = _
  by_cases hi : index t k' = index t k
  · rw [hi, Function.update_self, chainGet_remove _ _ _ (h.nodup _)]
  · rw [Function.update_of_ne hi, if_neg]
    rintro rfl; exact hi rfl

theorem inv_step {t : Table ν} (h : Inv t) (op : Op ν) : Inv (step t op).1 := by
  cases op with
  | insert k v => exact inv_insert h k v
  | get k => exact h
  | remove k => exact inv_remove h k

theorem step_refines {t : Table ν} (h : Inv t) (op : Op ν) :
    get (step t op).1 = (specStep (get t) op).1 ∧ (step t op).2 = (specStep (get t) op).2 := by
  cases op with
  | insert k v => exact ⟨funext fun k' => get_insert k k' v, chainInsert_ret _ _ _⟩
  | get k => exact ⟨rfl, rfl⟩
  | remove k => exact ⟨funext fun k' => get_remove h k k', chainRemove_ret _ _⟩

theorem inv_run (ops : List (Op ν)) : ∀ {t : Table ν}, Inv t → Inv (run t ops).1 := by
  induction ops with
  | nil => exact fun h => h
  | cons op ops ih => exact fun h => ih (inv_step h op)

theorem run_refines (ops : List (Op ν)) : ∀ {t : Table ν}, Inv t →
    get (run t ops).1 = (specRun (get t) ops).1 ∧ (run t ops).2 = (specRun (get t) ops).2 := by
  induction ops with
  | nil => exact fun _ => ⟨rfl, rfl⟩
  | cons op ops ih =>
    intro t h
    obtain ⟨h1, h2⟩ := step_refines h op
    obtain ⟨h3, h4⟩ := ih (inv_step h op)
    rw [h1] at h3 h4
    exact ⟨h3, by simp only [run, specRun]; rw [h2, h4]⟩

/-! ## C06 -/

/-- C06: for every sequence of calls on a new table with any positive number of buckets, all
returned values are those of the abstract map, and so is the final content. -/
theorem hashTable_refines_map (n : ℕ) (hn : 0 < n) (ops : List (Op ν)) :
    (run (allocate n) ops).2 = (specRun (fun _ => none) ops).2 ∧
    ∀ k, get (run (allocate n) ops).1 k = (specRun (fun _ => none) ops).1 k := by
  obtain ⟨h1, h2⟩ := run_refines ops (inv_allocate n hn)
  exact ⟨h2, fun k => congrFun h1 k⟩

/-! ## C07 -/

/-- C07 (count): after any sequence of calls `n_entries` is the number of keys present, and
`DeleteHashTable` visits exactly the present pairs, each key once. -/
theorem hashTable_count_delete (n : ℕ) (hn : 0 < n) (ops : List (Op ν)) :
    let t := (run (allocate n) ops).1
    let m := (specRun (fun _ => none) ops).1
    ((delete t).map Prod.fst).Nodup ∧
    (∀ k v, (k, v) ∈ delete t ↔ m k = some v) ∧
    t.nEntries = ((delete t).length : ℤ) := by
  intro t m
  have h : Inv t := inv_run ops (inv_allocate n hn)
  have hm : ∀ k, get t k = m k := (hashTable_refines_map n hn ops).2
  refine ⟨?_, ?_, h.count⟩
  · unfold delete
    rw [List.map_flatMap, List.nodup_flatMap]
    refine ⟨fun i _ => h.nodup i, ?_⟩
    refine List.Pairwise.imp_of_mem ?_ (List.nodup_range (n := t.nBuckets))
    intro i j _ _ hij k hki hkj
    obtain ⟨e, he, rfl⟩ := List.mem_map.1 hki
    obtain ⟨e', he', hee⟩ := List.mem_map.1 hkj
    have h1 := h.home i e he
    have h2 := h.home j e' he'
    rw [hee] at h2
    exact hij (h1.symm.trans h2)
  · intro k v
    rw [← hm k]
    unfold delete
    rw [List.mem_flatMap]
    unfold get
    rw [chainGet_iff_mem _ _ _ (h.nodup _)]
    constructor
    · rintro ⟨i, -, hi⟩
      have := h.home i _ hi
      rw [this]; exact hi
    · intro hk
      exact ⟨_, List.mem_range.2 (index_lt h.pos k), hk⟩

/-- the values handed to the table by a call -/
def given : Op ν → List ν
  | .insert _ v => [v]
  | _ => []

/-- the values handed back to the owner by a call: `HashTableInsert` and `HashTableRemove` give up
the old value, `HashTableGet` only lends it -/
def givenBack (op : Op ν) (ret : Option ν) : List ν :=
  match op with
  | .get _ => []
  | _ => ret.toList

/-- all values handed back during a sequence of calls -/
def allBack : List (Op ν) → List (Option ν) → List ν
  | op :: ops, r :: rs => givenBack op r ++ allBack ops rs
  | _, _ => []

theorem chainInsert_vals (key : Key) (val : ν) (c : List (Key × ν)) :
    (((chainInsert key val c).1.map Prod.snd : List ν) : Multiset ν) +
      ((chainInsert key val c).2.toList : List ν) = (c.map Prod.snd : List ν) + {val} := by
  induction c with
  | nil => simp [chainInsert]
  | cons e rest ih =>
    obtain ⟨k, v⟩ := e
    by_cases h : key = k
    · simp only [chainInsert, if_pos h, List.map_cons, Option.toList_some, ← Multiset.cons_coe,
        Multiset.coe_nil]
      rw [← Multiset.singleton_add val, ← Multiset.singleton_add v, ← Multiset.singleton_add v,
        add_zero]
      abel
    · simp only [chainInsert, if_neg h, List.map_cons, ← Multiset.cons_coe]
      rw [Multiset.cons_add, ih, Multiset.cons_add]

theorem chainRemove_vals (key : Key) (c : List (Key × ν)) :
    (((chainRemove key c).1.map Prod.snd : List ν) : Multiset ν) +
      ((chainRemove key c).2.toList : List ν) = (c.map Prod.snd : List ν) := by
  induction c with
  | nil => simp [chainRemove]
  | cons e rest ih =>
    obtain ⟨k, v⟩ := e
    by_cases h : key = k
    · simp only [chainRemove, if_pos h, List.map_cons, Option.toList_some, ← Multiset.cons_coe,
        Multiset.coe_nil]
      rw [← Multiset.singleton_add v, ← Multiset.singleton_add v, add_zero]
      abel
    · simp only [chainRemove, if_neg h, List.map_cons, ← Multiset.cons_coe]
      rw [Multiset.cons_add, ih]

/-- multiset of stored values -/
def vals (n : ℕ) (b : ℕ → List (Key × ν)) : Multiset ν :=
  (((List.range n).flatMap b).map Prod.snd : List ν)

theorem vals_succ (n : ℕ) (b : ℕ → List (Key × ν)) :
    vals (n + 1) b = vals n b + ((b n).map Prod.snd : List ν) := by
  simp [vals, List.range_succ, List.flatMap_append]

theorem vals_update (n : ℕ) (b : ℕ → List (Key × ν)) (i : ℕ) (c : List (Key × ν)) (hi : i < n) :
    vals n (Function.update b i c) + ((b i).map Prod.snd : List ν)
      = vals n b + (c.map Prod.snd : List ν) := by
  induction n with
  | zero => omega
  | succ n ih =>
    rw [vals_succ, vals_succ]
    by_cases h : i = n
    · subst h
      have : vals i (Function.update b i c) = vals i b := by
        unfold vals
        congr 2
        apply List.flatMap_congr
        intro x hx
        rw [List.mem_range] at hx
        exact Function.update_of_ne (by omega) _ _
      rw [this, Function.update_self]; abel
    · have h2 : Function.update b i c n = b n := Function.update_of_ne (fun h' => h h'.symm) _ _
      rw [h2]
      have := ih (by omega)
      calc _ = (vals n (Function.update b i c) + ((b i).map Prod.snd : List ν))
            + ((b n).map Prod.snd : List ν) := by abel
        _ = _ := by rw [this]; abel

theorem step_vals {t : Table ν} (h : Inv t) (op : Op ν) :
    vals (step t op).1.nBuckets (step t op).1.buckets + (givenBack op (step t op).2 : List ν)
      = vals t.nBuckets t.buckets + (given op : List ν) := by
  cases op with
  | insert k v =>
    have h1 := vals_update t.nBuckets t.buckets (index t k)
      (chainInsert k v (t.buckets (index t k))).1 (index_lt h.pos k)
    have h2 := chainInsert_vals k v (t.buckets (index t k))
    simp only [step, insert, givenBack, given]
    apply add_right_cancel (b := (((t.buckets (index t k)).map Prod.snd : List ν) : Multiset ν))
    calc _ = (vals t.nBuckets (Function.update t.buckets (index t k)
            (chainInsert k v (t.buckets (index t k))).1)
            + ((t.buckets (index t k)).map Prod.snd : List ν))
            + ((chainInsert k v (t.buckets (index t k))).2.toList : List ν) := by abel
      _ = vals t.nBuckets t.buckets + ((((chainInsert k v (t.buckets (index t k))).1).map Prod.snd : List ν)
            + ((chainInsert k v (t.buckets (index t k))).2.toList : List ν)) := by rw [h1]; abel
      _ = _ := by rw [h2]; simp only [Multiset.coe_singleton]; abel
  | get k => simp [step, givenBack, given]
  | remove k =>
    have h1 := vals_update t.nBuckets t.buckets (index t k)
      (chainRemove k (t.buckets (index t k))).1 (index_lt h.pos k)
    have h2 := chainRemove_vals k (t.buckets (index t k))
    simp only [step, remove, givenBack, given]
    apply add_right_cancel (b := (((t.buckets (index t k)).map Prod.snd : List ν) : Multiset ν))
    calc _ = (vals t.nBuckets (Function.update t.buckets (index t k)
            (chainRemove k (t.buckets (index t k))).1)
            + ((t.buckets (index t k)).map Prod.snd : List ν))
            + ((chainRemove k (t.buckets (index t k))).2.toList : List ν) := by abel
      _ = vals t.nBuckets t.buckets + ((((chainRemove k (t.buckets (index t k))).1).map Prod.snd : List ν)
            + ((chainRemove k (t.buckets (index t k))).2.toList : List ν)) := by rw [h1]; abel
      _ = _ := by rw [h2]; simp only [Multiset.coe_nil]; abel

theorem run_vals (ops : List (Op ν)) : ∀ {t : Table ν}, Inv t →
    vals (run t ops).1.nBuckets (run t ops).1.buckets + (allBack ops (run t ops).2 : List ν)
      = vals t.nBuckets t.buckets + (ops.flatMap given : List ν) := by
  induction ops with
  | nil => intro t _; simp [run, allBack]
  | cons op ops ih =>
    intro t h
    have h1 := step_vals h op
    have h2 := ih (inv_step h op)
    simp only [run, allBack, List.flatMap_cons, ← Multiset.coe_add]
    calc _ = (vals (run (step t op).1 ops).1.nBuckets (run (step t op).1 ops).1.buckets
          + (allBack ops (run (step t op).1 ops).2 : List ν)) + (givenBack op (step t op).2 : List ν) := by
            abel
      _ = (vals (step t op).1.nBuckets (step t op).1.buckets + (givenBack op (step t op).2 : List ν))
          + (ops.flatMap given : List ν) := by rw [h2]; abel
      _ = _ := by rw [h1]; abel

/-- C07 (ownership): every value ever passed to `HashTableInsert` is either returned exactly once by
a later `HashTableInsert`/`HashTableRemove`, or passed exactly once to the free function by
`DeleteHashTable`: nothing is leaked and nothing is freed twice. -/
theorem hashTable_ownership (n : ℕ) (hn : 0 < n) (ops : List (Op ν)) :
    let r := run (allocate n) ops
    (((delete r.1).map Prod.snd ++ allBack ops r.2 : List ν)).Perm (ops.flatMap given) := by
  intro r
  have := run_vals ops (inv_allocate (ν := ν) n hn)
  rw [← Multiset.coe_eq_coe, ← Multiset.coe_add]
  refine this.trans ?_
  have h0 : vals n (fun _ => ([] : List (Key × ν))) = 0 := by
    unfold vals
    rw [List.flatMap_eq_nil_iff.2 (fun _ _ => rfl)]; rfl
  change vals n (fun _ => ([] : List (Key × ν))) + _ = _
  rw [h0, zero_add]

/-- non-vacuity: with a single bucket all keys collide; replace, remove and re-insert -/
example :
    let ops : List (Op ℕ) := [.insert [97] 1, .insert [98] 2, .insert [97] 3, .remove [98],
      .get [98], .insert [99] 4, .get [97]]
    (run (allocate 1) ops).2 = [none, none, some 1, some 2, none, none, some 3] ∧
    (run (allocate 1) ops).1.nEntries = 2 ∧
    delete (run (allocate 1) ops).1 = [([97], 3), ([99], 4)] := by decide

/-- the hash of "a" agrees with the published FNV-1a test vector 0xE40C292C -/
example : fnv1a [97] = 0xE40C292C#32 := by decide

end Verif.HashTable
