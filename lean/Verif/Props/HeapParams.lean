import Verif.Props.Heap
import Verif.Props.HashTable
import Verif.Props.ParamsInterp

/-!
# Memory of the hash table, the parameter parser and the profiler
-/

set_option autoImplicit false

namespace Verif.Heap

open Verif.HashTable (Key Table vals)
open Verif.Params (SimParams Conv Token)

variable {F : Prop} {A : Multiset Res} {ν μ : Type}

/-! ## Hash table -/

/-- blocks of an entry; `vo` are the blocks of a value -/
def nodeOwn (vo : ν → Multiset Res) (nd : Node ν) : Multiset Res := nd.entry ::ₘ nd.key ::ₘ vo nd.val

/-- blocks of the entries -/
def tabOwn (vo : ν → Multiset Res) (t : Table (Node ν)) : Multiset Res :=
  (vals t.nBuckets t.buckets).bind (nodeOwn vo)

/-- all blocks of a hash table -/
def HT.own (vo : ν → Multiset Res) (t : HT ν) : Multiset Res := t.buckets ::ₘ tabOwn vo t.tab

variable {vo : ν → Multiset Res}

theorem insert_vals {t : Table ν} (h : 0 < t.nBuckets) (k : Key) (v : ν) :
    vals (HashTable.insert t k v).1.nBuckets (HashTable.insert t k v).1.buckets +
      ((HashTable.get t k).toList : Multiset ν) = vals t.nBuckets t.buckets + {v} := by
  have h1 := HashTable.vals_update t.nBuckets t.buckets (HashTable.index t k)
    (HashTable.chainInsert k v (t.buckets (HashTable.index t k))).1 (HashTable.index_lt h k)
  have h2 := HashTable.chainInsert_vals k v (t.buckets (HashTable.index t k))
  rw [HashTable.chainInsert_ret] at h2
  refine add_right_cancel (b := (((t.buckets (HashTable.index t k)).map Prod.snd : List ν) : Multiset ν)) ?_
  calc _ = vals t.nBuckets (Function.update t.buckets (HashTable.index t k)
        (HashTable.chainInsert k v (t.buckets (HashTable.index t k))).1) +
        (((t.buckets (HashTable.index t k)).map Prod.snd : List ν) : Multiset ν) +
        ((HashTable.get t k).toList : Multiset ν) := by
        rw [add_right_comm]; rfl
    _ = vals t.nBuckets t.buckets + (((HashTable.chainInsert k v
        (t.buckets (HashTable.index t k))).1.map Prod.snd : List ν) : Multiset ν) +
        ((HashTable.get t k).toList : Multiset ν) := by rw [h1]
    _ = _ := by
        rw [add_assoc]
        refine (congrArg _ h2).trans ?_
        abel

theorem remove_vals {t : Table ν} (h : 0 < t.nBuckets) (k : Key) :
    vals (HashTable.remove t k).1.nBuckets (HashTable.remove t k).1.buckets +
      ((HashTable.get t k).toList : Multiset ν) = vals t.nBuckets t.buckets := by
  have h1 := HashTable.vals_update t.nBuckets t.buckets (HashTable.index t k)
    (HashTable.chainRemove k (t.buckets (HashTable.index t k))).1 (HashTable.index_lt h k)
  have h2 := HashTable.chainRemove_vals k (t.buckets (HashTable.index t k))
  rw [HashTable.chainRemove_ret] at h2
  refine add_right_cancel (b := (((t.buckets (HashTable.index t k)).map Prod.snd : List ν) : Multiset ν)) ?_
  calc _ = vals t.nBuckets (Function.update t.buckets (HashTable.index t k)
        (HashTable.chainRemove k (t.buckets (HashTable.index t k))).1) +
        (((t.buckets (HashTable.index t k)).map Prod.snd : List ν) : Multiset ν) +
        ((HashTable.get t k).toList : Multiset ν) := by
        rw [add_right_comm]; rfl
    _ = vals t.nBuckets t.buckets + (((HashTable.chainRemove k
        (t.buckets (HashTable.index t k))).1.map Prod.snd : List ν) : Multiset ν) +
        ((HashTable.get t k).toList : Multiset ν) := by rw [h1]
    _ = _ := by
        rw [add_assoc]
        exact congrArg _ h2

theorem tabOwn_insert {t : Table (Node ν)} (h : 0 < t.nBuckets) (k : Key) (nd : Node ν) :
    tabOwn vo (HashTable.insert t k nd).1 + (HashTable.get t k).elim 0 (nodeOwn vo) =
      tabOwn vo t + nodeOwn vo nd := by
  have := congrArg (fun s => Multiset.bind s (nodeOwn vo)) (insert_vals h k nd)
  simp only [Multiset.add_bind, Multiset.singleton_bind] at this
  rw [tabOwn, tabOwn, ← this]
  congr 1
  cases HashTable.get t k <;> simp

theorem tabOwn_remove {t : Table (Node ν)} (h : 0 < t.nBuckets) (k : Key) :
    tabOwn vo (HashTable.remove t k).1 + (HashTable.get t k).elim 0 (nodeOwn vo) = tabOwn vo t := by
  have := congrArg (fun s => Multiset.bind s (nodeOwn vo)) (remove_vals h k)
  simp only [Multiset.add_bind] at this
  rw [tabOwn, tabOwn, ← this]
  congr 1
  cases HashTable.get t k <;> simp

theorem htAllocate_spec {n : ℕ} : Spec F A (htAllocate n : Mem (HT ν)) (fun t B =>
    t.tab = HashTable.allocate n ∧ B = t.own vo + A) := by
  refine Spec.alloc fun b => Spec.pure ⟨rfl, ?_⟩
  have : vals n (fun _ => ([] : List (Key × Node ν))) = 0 := by
    simp [vals]
  simp [HT.own, tabOwn, HashTable.allocate, this]

theorem htWalk_spec {key : Key} {c : List (Key × Node ν)} (h : ∀ e ∈ c, e.2.entry ∈ A ∧ e.2.key ∈ A) :
    Spec F A (htWalk key c) (fun r B => r = HashTable.chainGet key c ∧ B = A) := by
  induction c with
  | nil => exact Spec.pure ⟨rfl, rfl⟩
  | cons e rest ih =>
    obtain ⟨k, nd⟩ := e
    have h0 := h (k, nd) (by simp)
    refine Spec.uses (by simpa using h0) ?_
    rw [HashTable.chainGet]
    split
    · exact Spec.pure ⟨rfl, rfl⟩
    · exact ih fun e he => h e (by simp [he])

theorem bucket_live {t : Table (Node ν)} {i : ℕ} (hi : i < t.nBuckets) {e : Key × Node ν}
    (he : e ∈ t.buckets i) {q : Res} (hq : q ∈ nodeOwn vo e.2) : q ∈ tabOwn vo t := by
  rw [tabOwn, Multiset.mem_bind]
  refine ⟨e.2, ?_, hq⟩
  simp only [vals, Multiset.mem_coe, List.mem_map, List.mem_flatMap, List.mem_range]
  exact ⟨e, ⟨i, hi, he⟩, rfl⟩

theorem get_own {t : Table (Node ν)} (h : 0 < t.nBuckets) {k : Key} {nd : Node ν}
    (hg : HashTable.get t k = some nd) : ∃ R, tabOwn vo t = nodeOwn vo nd + R := by
  have := tabOwn_remove (vo := vo) h k
  rw [hg] at this
  exact ⟨_, by rw [add_comm]; exact this.symm⟩

theorem htFind_spec {t : HT ν} {key : Key} (h : 0 < t.tab.nBuckets) :
    Spec F (t.own vo + A) (htFind t key) (fun r B => r = HashTable.get t.tab key ∧ B = t.own vo + A) := by
  refine Spec.use (by simp [HT.own]) (htWalk_spec fun e he => ?_)
  have := fun q => bucket_live (vo := vo) (HashTable.index_lt h key) he (q := q)
  simp only [HT.own, Multiset.mem_add, Multiset.mem_cons]
  exact ⟨Or.inl (Or.inr (this _ (by simp [nodeOwn]))), Or.inl (Or.inr (this _ (by simp [nodeOwn])))⟩

theorem htGet_spec {t : HT ν} {key : Key} (h : 0 < t.tab.nBuckets) :
    Spec F (t.own vo + A) (htGet t key) (fun r B =>
      r = (HashTable.get t.tab key).map (fun nd => nd.val) ∧ B = t.own vo + A) := by
  refine Spec.bind (htFind_spec h) ?_
  rintro r _ ⟨rfl, rfl⟩
  exact Spec.pure ⟨rfl, rfl⟩

/-- insertion: the table takes over the blocks of the new value, the caller those of the old one -/
theorem htInsert_spec {t : HT ν} {key : Key} {val : ν} (h : 0 < t.tab.nBuckets) :
    Spec F (t.own vo + (vo val + A)) (htInsert t key val) (fun r B =>
      r.2 = (HashTable.get t.tab key).map (fun nd => nd.val) ∧ r.1.buckets = t.buckets ∧
      (∃ nd : Node ν, nd.val = val ∧ r.1.tab = (HashTable.insert t.tab key nd).1) ∧
      B = r.1.own vo + (r.2.elim 0 vo + A)) := by
  refine Spec.bind (htFind_spec h) ?_
  rintro r _ ⟨rfl, rfl⟩
  cases hg : HashTable.get t.tab key with
  | some nd =>
    obtain ⟨R, hR⟩ := get_own (vo := vo) h hg
    refine Spec.use (by simp [HT.own, hR, nodeOwn]) (Spec.pure ⟨rfl, rfl, ⟨_, rfl, rfl⟩, ?_⟩)
    have := tabOwn_insert (vo := vo) h key { nd with val := val }
    rw [hg, hR] at this
    simp only [Option.elim_some, nodeOwn, ← Multiset.singleton_add] at this
    have e : tabOwn vo (HashTable.insert t.tab key { nd with val := val }).1 =
        {nd.entry} + ({nd.key} + vo val) + R := by
      refine add_right_cancel (b := {nd.entry} + ({nd.key} + vo nd.val)) ?_
      rw [this]
      abel
    simp only [HT.own, e, hR, nodeOwn, Option.elim_some, ← Multiset.singleton_add]
    abel
  | none =>
    refine Spec.alloc fun e => Spec.alloc fun k => Spec.uses (by in_live) (Spec.use (by simp [HT.own])
      (Spec.pure ⟨rfl, rfl, ⟨⟨e, k, val⟩, rfl, rfl⟩, ?_⟩))
    have := tabOwn_insert (vo := vo) h key ⟨e, k, val⟩
    rw [hg] at this
    simp only [Option.elim_none, add_zero] at this
    simp only [HT.own, this, nodeOwn, Option.elim_none, ← Multiset.singleton_add]
    abel

/-- removal: the caller gets the blocks of the value -/
theorem htRemove_spec {t : HT ν} {key : Key} (h : 0 < t.tab.nBuckets) :
    Spec F (t.own vo + A) (htRemove t key) (fun r B =>
      r.2 = (HashTable.get t.tab key).map (fun nd => nd.val) ∧
      r.1 = ⟨t.buckets, (HashTable.remove t.tab key).1⟩ ∧ B = r.1.own vo + (r.2.elim 0 vo + A)) := by
  have hrm := tabOwn_remove (vo := vo) h key
  refine Spec.bind (htFind_spec h) ?_
  rintro r _ ⟨rfl, rfl⟩
  cases hg : HashTable.get t.tab key with
  | some nd =>
    rw [hg] at hrm
    have e : t.own vo + A = nd.key ::ₘ nd.entry ::ₘ
        (t.buckets ::ₘ (tabOwn vo (HashTable.remove t.tab key).1) + (vo nd.val + A)) := by
      rw [HT.own, ← hrm]
      simp only [Option.elim_some, nodeOwn, ← Multiset.singleton_add]
      abel
    rw [e]
    refine Spec.uses (by simp) (Spec.free (by simp) ?_)
    rw [Multiset.erase_cons_head]
    refine Spec.free (by simp) ?_
    rw [Multiset.erase_cons_head]
    exact Spec.pure ⟨rfl, rfl, rfl⟩
  | none =>
    rw [hg] at hrm
    have hsame : (HashTable.remove t.tab key).1 = t.tab := by
      have hc : HashTable.chainGet key (t.tab.buckets (HashTable.index t.tab key)) = none := hg
      have hr : ∀ c : List (Key × Node ν), HashTable.chainGet key c = none →
          (HashTable.chainRemove key c).1 = c := by
        intro c
        induction c with
        | nil => intro _; rfl
        | cons e rest ih =>
          obtain ⟨k, v⟩ := e
          intro hc
          rw [HashTable.chainGet] at hc
          split at hc
          · exact absurd hc (by simp)
          · rw [HashTable.chainRemove, if_neg ‹_›]
            show (k, v) :: _ = _
            rw [ih hc]
      rw [HashTable.remove]
      show Table.mk _ _ _ = _
      rw [hr _ hc, HashTable.chainRemove_ret, hc, Function.update_eq_self]
      rfl
    refine Spec.pure ⟨rfl, ?_, ?_⟩
    · rw [hsame]
    · simp

theorem htDeleteChain_spec {freeFunc : ν → Mem Unit}
    (hf : ∀ v A, Spec F (vo v + A) (freeFunc v) (fun _ B => B = A)) {c : List (Key × Node ν)} :
    Spec F (((c.map Prod.snd : List (Node ν)) : Multiset (Node ν)).bind (nodeOwn vo) + A)
      (htDeleteChain freeFunc c) (fun _ B => B = A) := by
  induction c with
  | nil => exact Spec.pure (by simp)
  | cons e rest ih =>
    obtain ⟨k, nd⟩ := e
    have e : (((((k, nd) :: rest).map Prod.snd : List (Node ν))) : Multiset (Node ν)).bind (nodeOwn vo) + A =
        nd.key ::ₘ (vo nd.val + nd.entry ::ₘ
          (((rest.map Prod.snd : List (Node ν)) : Multiset (Node ν)).bind (nodeOwn vo) + A)) := by
      rw [List.map_cons, ← Multiset.cons_coe, Multiset.cons_bind]
      simp only [nodeOwn, ← Multiset.singleton_add]
      abel
    rw [e]
    refine Spec.use (by simp) (Spec.free (by simp) ?_)
    rw [Multiset.erase_cons_head]
    refine Spec.use (by simp) (Spec.bind (hf _ _) ?_)
    rintro - _ rfl
    refine Spec.use (by simp) (Spec.free (by simp) ?_)
    rw [Multiset.erase_cons_head]
    exact ih

/-- `DeleteHashTable` releases every block of the table exactly once -/
theorem htDelete_spec {freeFunc : ν → Mem Unit}
    (hf : ∀ v A, Spec F (vo v + A) (freeFunc v) (fun _ B => B = A)) {t : HT ν} :
    Spec F (t.own vo + A) (htDelete freeFunc t) (fun _ B => B = A) := by
  have hsplit : ∀ n, n ≤ t.tab.nBuckets → ∃ D : Multiset Res,
      D + (vals n t.tab.buckets).bind (nodeOwn vo) = tabOwn vo t.tab := by
    intro n hn
    induction n with
    | zero => exact ⟨tabOwn vo t.tab, by simp [vals]⟩
    | succ n _ =>
      have : ∀ k, ∃ D : Multiset Res, D + (vals (n + 1) t.tab.buckets).bind (nodeOwn vo) =
          (vals (n + 1 + k) t.tab.buckets).bind (nodeOwn vo) := by
        intro k
        induction k with
        | zero => exact ⟨0, by simp⟩
        | succ k ih =>
          obtain ⟨D, hD⟩ := ih
          rw [← add_assoc, HashTable.vals_succ (n + 1 + k), Multiset.add_bind, ← hD]
          exact ⟨_ + D, by rw [add_assoc, add_comm]⟩
      obtain ⟨D, hD⟩ := this (t.tab.nBuckets - (n + 1))
      rw [show n + 1 + (t.tab.nBuckets - (n + 1)) = t.tab.nBuckets by omega] at hD
      exact ⟨D, hD⟩
  refine Spec.bind (Q := fun _ B => B = t.buckets ::ₘ A) ?_ ?_
  · refine (Spec.loop (fun i B => B + (vals i t.tab.buckets).bind (nodeOwn vo) =
      t.buckets ::ₘ (tabOwn vo t.tab + A)) ?_ ?_).conseq ?_
    · simp [HT.own, vals]
    · intro i B hi hB
      obtain ⟨D, hD⟩ := hsplit (i + 1) hi
      rw [HashTable.vals_succ, Multiset.add_bind] at hD
      have hB' : B = (((t.tab.buckets i).map Prod.snd : List (Node ν)) : Multiset (Node ν)).bind (nodeOwn vo) +
          (t.buckets ::ₘ (D + A)) := by
        refine add_right_cancel (b := (vals i t.tab.buckets).bind (nodeOwn vo)) ?_
        rw [hB, ← hD]
        simp only [← Multiset.singleton_add]
        abel
      rw [hB']
      refine Spec.use (by simp) ((htDeleteChain_spec hf).conseq ?_)
      rintro - _ rfl
      rw [HashTable.vals_succ, Multiset.add_bind, ← hD]
      simp only [← Multiset.singleton_add]
      abel
    · rintro - B hB
      refine add_right_cancel (b := tabOwn vo t.tab) ?_
      refine hB.trans ?_
      simp only [← Multiset.singleton_add]
      abel
  · rintro - _ rfl
    exact (Spec.free' (by simp)).conseq fun _ _ h => by rw [h, Multiset.erase_cons_head]

/-! ## Parser -/

/-- the table with other values -/
def mapTable (f : ν → μ) (t : Table ν) : Table μ :=
  ⟨t.nBuckets, t.nEntries, fun i => (t.buckets i).map fun e => (e.1, f e.2)⟩

theorem chainGet_map (f : ν → μ) (k : Key) (c : List (Key × ν)) :
    HashTable.chainGet k (c.map fun e => (e.1, f e.2)) = (HashTable.chainGet k c).map f := by
  induction c with
  | nil => rfl
  | cons e rest ih =>
    obtain ⟨k', v⟩ := e
    simp only [List.map_cons, HashTable.chainGet]
    split
    · rfl
    · exact ih

theorem get_map (f : ν → μ) (t : Table ν) (k : Key) :
    HashTable.get (mapTable f t) k = (HashTable.get t k).map f :=
  chainGet_map f k _

theorem chainInsert_map (f : ν → μ) (k : Key) (v : ν) (c : List (Key × ν)) :
    (HashTable.chainInsert k (f v) (c.map fun e => (e.1, f e.2))).1 =
      (HashTable.chainInsert k v c).1.map fun e => (e.1, f e.2) := by
  induction c with
  | nil => rfl
  | cons e rest ih =>
    obtain ⟨k', v'⟩ := e
    simp only [List.map_cons, HashTable.chainInsert]
    split
    · rfl
    · simp only [List.map_cons, ih]

theorem insert_map (f : ν → μ) (t : Table ν) (k : Key) (v : ν) :
    (HashTable.insert (mapTable f t) k (f v)).1 = mapTable f (HashTable.insert t k v).1 := by
  have h1 := chainInsert_map f k v (t.buckets (HashTable.index t k))
  have h2 : (HashTable.chainInsert k (f v) ((t.buckets (HashTable.index t k)).map fun e => (e.1, f e.2))).2 =
      (HashTable.chainInsert k v (t.buckets (HashTable.index t k))).2.map f := by
    rw [HashTable.chainInsert_ret, HashTable.chainInsert_ret, chainGet_map]
  have hidx : HashTable.index (mapTable f t) k = HashTable.index t k := rfl
  unfold HashTable.insert
  rw [hidx]
  generalize HashTable.index t k = j at h1 h2
  simp only [mapTable, Table.mk.injEq, true_and]
  refine ⟨by simp only [h2, Option.isSome_map], funext fun i => ?_⟩
  by_cases hi : i = j
  · subst hi
    simp only [Function.update_self, h1]
  · simp only [Function.update_of_ne hi]

/-- blocks of a value list -/
def Val.own (v : Val) : Multiset Res := v.self ::ₘ ((v.strs.map fun s => s.1 : List Res) : Multiset Res)

/-- the table without the addresses -/
def absTable (t : Table (Node Val)) : Table (List Token) := mapTable (fun nd => nd.val.toks) t

theorem appendValues_spec {ts : List Token} : ∀ {v : Val} {A : Multiset Res},
    v.strs.length + ts.length ≤ 1024 →
    Spec F (v.own + A) (appendValues v ts) (fun v' B =>
      v'.toks = v.toks ++ ts ∧ v'.self = v.self ∧ B = v'.own + A) := by
  induction ts with
  | nil => exact fun _ => Spec.pure ⟨by simp, rfl, rfl⟩
  | cons t ts ih =>
    intro v A h
    rw [List.length_cons] at h
    rw [appendValues, if_pos (by omega)]
    refine Spec.use (by simp [Val.own]) (Spec.alloc fun s => Spec.uses (by simp [Val.own]) ?_)
    refine (Spec.of_eq ?_ (ih (v := ⟨v.self, v.strs ++ [(s, t)]⟩) (A := A) ?_)).conseq ?_
    · rw [Val.own, Val.own, List.map_append, ← Multiset.coe_add]
      simp only [List.map_cons, List.map_nil, Multiset.coe_singleton, ← Multiset.singleton_add]
      abel
    · simp only [List.length_append, List.length_cons, List.length_nil]
      omega
    · rintro v' B ⟨h1, h2, h3⟩
      refine ⟨?_, h2, h3⟩
      rw [h1]
      simp [Val.toks]

theorem appendValues_undef {ts : List Token} : ∀ {v : Val} {A : Multiset Res},
    ts ≠ [] ∨ v.strs.length ≤ 1024 → 1024 < v.strs.length + ts.length →
    Undef F (v.own + A) (appendValues v ts) := by
  induction ts with
  | nil =>
    rintro v A (h | h) h'
    · exact absurd rfl h
    · simp only [List.length_nil] at h'
      omega
  | cons t ts ih =>
    rintro v A - h
    rw [List.length_cons] at h
    rw [appendValues]
    split
    · refine Spec.bind_undef (Spec.use' (by simp [Val.own])) ?_
      rintro - _ rfl
      refine Spec.bind_undef Spec.alloc' ?_
      rintro s _ rfl
      refine Spec.bind_undef (Spec.uses' (by simp [Val.own])) ?_
      rintro - _ rfl
      have := ih (v := ⟨v.self, v.strs ++ [(s, t)]⟩) (A := A) (Or.inr (by simp; omega)) (by simp; omega)
      refine Undef.of_eq ?_ this
      rw [Val.own, Val.own, List.map_append, ← Multiset.coe_add]
      simp only [List.map_cons, List.map_nil, Multiset.coe_singleton, ← Multiset.singleton_add]
      abel
    · exact Undef.ub

theorem freeValueList_spec (v : Val) (A : Multiset Res) :
    Spec F (v.own + A) (freeValueList v) (fun _ B => B = A) := by
  refine Spec.use (by simp [Val.own]) ?_
  have e : v.own + A = ((v.strs.map fun s => s.1 : List Res) : Multiset Res) + v.self ::ₘ A := by
    simp only [Val.own, ← Multiset.singleton_add]
    abel
  rw [e]
  refine Spec.bind Spec.frees' ?_
  rintro - _ rfl
  exact (Spec.free' (by simp)).conseq fun _ _ h => by rw [h, Multiset.erase_cons_head]

/-- a table of the parser -/
def TableOf (t : HT Val) (T : Table (List Token)) : Prop := absTable t.tab = T ∧ 0 < t.tab.nBuckets

theorem TableOf.get {t : HT Val} {T : Table (List Token)} (h : TableOf t T) (k : Key) :
    HashTable.get T k = (HashTable.get t.tab k).map fun nd => nd.val.toks := by
  rw [← h.1, absTable, get_map]

/-- what has to be shown about a step of the parser: it is defined exactly if the model without
memory is, with the same table -/
def Refines (F : Prop) (A : Multiset Res) (t : HT Val) (m : Mem (HT Val))
    (r : Option (Table (List Token))) : Prop :=
  (∀ T, r = some T → Spec F (t.own Val.own + A) m (fun t' B => TableOf t' T ∧ B = t'.own Val.own + A)) ∧
  (r = none → Undef F (t.own Val.own + A) m)

theorem addLine_refines {t : HT Val} {T : Table (List Token)} (ht : TableOf t T) (buf : List UInt8) :
    Refines F A t (addLine t buf) (Params.addLine T buf) := by
  unfold addLine Params.addLine
  generalize Params.lineTokens buf = toks
  rcases toks with _ | ⟨name, _ | ⟨v, vs⟩⟩
  · exact ⟨fun T' hT => by cases hT; exact Spec.pure ⟨ht, rfl⟩, fun h => by cases h⟩
  · exact ⟨fun T' hT => by cases hT; exact Spec.pure ⟨ht, rfl⟩, fun h => by cases h⟩
  simp only
  rw [ht.get]
  cases hg : HashTable.get t.tab name with
  | none =>
    simp only [Option.map_none, Params.appendValues, List.length_nil, zero_add, List.nil_append]
    constructor
    · intro T' hT
      split at hT
      · rename_i hlen
        simp only [Option.map_some, Option.some.injEq] at hT
        subst hT
        refine Spec.bind (htFind_spec ht.2) ?_
        rintro r _ ⟨rfl, rfl⟩
        rw [hg]
        refine Spec.alloc fun self => ?_
        refine Spec.bind (Spec.of_eq ?_ (appendValues_spec (v := ⟨self, []⟩)
          (A := t.own Val.own + A) (by simpa using hlen))) ?_
        · simp [Val.own]
        rintro l _ ⟨h1, h2, rfl⟩
        refine Spec.bind (Spec.of_eq ?_ (htInsert_spec (vo := Val.own) (A := A) (key := name) (val := l) ht.2)) ?_
        · abel
        rintro ⟨t', old⟩ _ ⟨g1, g2, ⟨nd, rfl, g4⟩, rfl⟩
        refine Spec.pure ⟨⟨?_, ?_⟩, ?_⟩
        · dsimp only at g4 ⊢
          rw [g4, ← ht.1, absTable, ← insert_map]
          simp only [absTable]
          rw [h1]
          simp [Val.toks]
        · dsimp only at g4 ⊢
          rw [g4]
          exact ht.2
        · dsimp only at g1 ⊢
          rw [g1, hg]
          simp
      · simp at hT
    · intro hT
      split at hT
      · simp at hT
      · rename_i hlen
        refine Spec.bind_undef (htFind_spec ht.2) ?_
        rintro r _ ⟨rfl, rfl⟩
        rw [hg]
        refine Spec.bind_undef Spec.alloc' ?_
        rintro self _ rfl
        refine Undef.bind ?_
        have := appendValues_undef (F := F) (ts := v :: vs) (v := ⟨self, []⟩) (A := t.own Val.own + A)
          (Or.inr (by simp)) (by simp at hlen ⊢; omega)
        refine Undef.of_eq ?_ this
        simp [Val.own]
  | some nd =>
    obtain ⟨R, hR⟩ := get_own (vo := Val.own) ht.2 hg
    have e : t.own Val.own + A = nd.val.own + (nd.entry ::ₘ nd.key ::ₘ t.buckets ::ₘ (R + A)) := by
      rw [HT.own, hR, nodeOwn]
      simp only [← Multiset.singleton_add]
      abel
    have hlt : nd.val.toks.length = nd.val.strs.length := by simp [Val.toks]
    simp only [Option.map_some, Params.appendValues, hlt]
    constructor
    · intro T' hT
      split at hT
      · rename_i hlen
        simp only [Option.map_some, Option.some.injEq] at hT
        subst hT
        refine Spec.bind (htFind_spec ht.2) ?_
        rintro r _ ⟨rfl, rfl⟩
        rw [hg]
        refine Spec.bind (Spec.of_eq e (appendValues_spec hlen)) ?_
        rintro l _ ⟨h1, h2, rfl⟩
        have hins := tabOwn_insert (vo := Val.own) ht.2 name { nd with val := l }
        rw [hg, hR] at hins
        refine Spec.pure ⟨⟨?_, ht.2⟩, ?_⟩
        · show absTable (HashTable.insert t.tab name { nd with val := l }).1 = _
          rw [← ht.1, absTable, ← insert_map]
          simp only [absTable]
          rw [h1]
        · have h' : tabOwn Val.own (HashTable.insert t.tab name { nd with val := l }).1 =
              nodeOwn Val.own { nd with val := l } + R := by
            refine add_right_cancel (b := nodeOwn Val.own nd) ?_
            rw [show tabOwn Val.own (HashTable.insert t.tab name { nd with val := l }).1 + nodeOwn Val.own nd =
              nodeOwn Val.own nd + R + nodeOwn Val.own { nd with val := l } from hins]
            abel
          rw [HT.own, h', nodeOwn]
          simp only [← Multiset.singleton_add]
          abel
      · simp at hT
    · intro hT
      split at hT
      · simp at hT
      · rename_i hlen
        refine Spec.bind_undef (htFind_spec ht.2) ?_
        rintro r _ ⟨rfl, rfl⟩
        rw [hg]
        refine Undef.bind ?_
        rw [e]
        exact appendValues_undef (Or.inl (by simp)) (by omega)

theorem readLoop_refines {fd : Res} (hfd : fd ∈ A) (lines : List (List UInt8)) :
    ∀ {t : HT Val} {T : Table (List Token)}, TableOf t T →
      Refines F A t (readLoop fd lines t) (lines.foldlM Params.addLine T) := by
  induction lines with
  | nil =>
    intro t T ht
    refine ⟨fun T' hT => ?_, fun h => by cases h⟩
    cases hT
    exact Spec.use (by simp [hfd]) (Spec.pure ⟨ht, rfl⟩)
  | cons l ls ih =>
    intro t T ht
    rw [List.foldlM_cons]
    have hl := addLine_refines (F := F) (A := A) ht l
    cases hT1 : Params.addLine T l with
    | none =>
      refine ⟨fun T' hT => (by cases hT), fun _ => ?_⟩
      refine Spec.bind_undef (Spec.use' (by simp [hfd])) ?_
      rintro - _ rfl
      exact Undef.bind (hl.2 hT1)
    | some T1 =>
      constructor
      · intro T' hT
        refine Spec.use (by simp [hfd]) (Spec.bind (hl.1 T1 hT1) ?_)
        rintro t' _ ⟨ht', rfl⟩
        exact (ih ht').1 T' hT
      · intro hT
        refine Spec.bind_undef (Spec.use' (by simp [hfd])) ?_
        rintro - _ rfl
        refine Spec.bind_undef (hl.1 T1 hT1) ?_
        rintro t' _ ⟨ht', rfl⟩
        exact (ih ht').2 hT

theorem lookup_same {t : HT Val} {key : Key} (h : 0 < t.tab.nBuckets) :
    Same F (t.own Val.own + A) (lookup t key) := by
  refine Spec.bind (htGet_spec h) ?_
  rintro r _ ⟨rfl, rfl⟩
  cases hg : HashTable.get t.tab key with
  | none => exact Spec.pure rfl
  | some nd =>
    obtain ⟨R, hR⟩ := get_own (vo := Val.own) h hg
    refine Spec.uses' fun q hq => ?_
    have : q ∈ nd.val.own := by
      rw [Val.own, Multiset.mem_cons, Multiset.mem_coe]
      exact List.mem_cons.1 hq
    simp [HT.own, hR, nodeOwn, this]

theorem lookups_same {t : HT Val} (h : 0 < t.tab.nBuckets) (ns : List String) :
    Same F (t.own Val.own + A) (lookups t ns) := by
  induction ns with
  | nil => exact Spec.pure rfl
  | cons n ns ih => exact Same.bind (lookup_same h) fun _ => ih

variable {𝔽 : Type} [Zero 𝔽]

/-- values of the status -/
def StatusOk (r : ℤ × SimParams 𝔽) : Prop := r.1 = 0 ∨ r.1 = -2 ∨ r.1 = -3

omit [Zero 𝔽] in
theorem StatusOk.ite {c : Prop} [Decidable c] {p : SimParams 𝔽} {r : ℤ × SimParams 𝔽} (h : StatusOk r) :
    StatusOk (if c then (-3, p) else r) := by
  split
  · exact Or.inr (Or.inr rfl)
  · exact h

theorem interpret_status (cv : Conv 𝔽) (get : Key → Option (List Token)) (p : SimParams 𝔽) :
    StatusOk (Params.interpret cv get p) := by
  unfold Params.interpret
  split
  · exact Or.inr (Or.inl rfl)
  · extract_lets
    split
    · exact Or.inr (Or.inl rfl)
    · repeat refine StatusOk.ite ?_
      exact Or.inl rfl

/-- `ParseParameterFile`: status and parameters are those of the model without memory.  With status 0
the arrays of the parameters are left and nothing else; after an error on a file that can be opened
blocks are lost. -/
theorem parse_spec {cv : Conv 𝔽} {file : Option (List UInt8)} {p : SimParams 𝔽} {r : ℤ × SimParams 𝔽}
    (h : Params.parse cv file p = some r) :
    Spec F A (parse cv file p) (fun o B => o.status = r.1 ∧ o.params = r.2 ∧
      (r.1 = 0 ∨ r.1 < 0) ∧
      (r.1 = 0 → ∃ pp, o.ptrs = some pp ∧ B = (pp.list : Multiset Res) + A) ∧
      (r.1 < 0 → file.isSome → ∃ K, B = K + A ∧ 0 < K.card)) := by
  cases file with
  | none =>
    cases h
    exact Spec.duprintf (by simp) (Spec.pure ⟨rfl, rfl, by simp, by simp, by simp⟩)
  | some f =>
    simp only [Params.parse, Option.map_eq_some_iff] at h
    obtain ⟨T, hT, rfl⟩ := h
    refine Spec.openFd fun fd => Spec.bind (htAllocate_spec (vo := Val.own)) ?_
    rintro t _ ⟨ht, rfl⟩
    have ht0 : TableOf t (HashTable.allocate 64) := by
      refine ⟨?_, by rw [ht]; decide⟩
      rw [ht]
      rfl
    refine Spec.bind ((readLoop_refines (A := fd ::ₘ A) (by simp) (Params.readLines f) ht0).1 T hT) ?_
    rintro t' _ ⟨ht', rfl⟩
    rw [Multiset.add_cons]
    refine Spec.free (by simp) ?_
    rw [Multiset.erase_cons_head]
    have hget : (fun k => (HashTable.get t'.tab k).map fun nd => nd.val.toks) = HashTable.get T := by
      funext k
      rw [ht'.get]
    simp only [hget]
    have hst : StatusOk _ := interpret_status cv (HashTable.get T) p
    unfold StatusOk at hst
    generalize Params.interpret cv (HashTable.get T) p = r at hst
    refine Same.bind (lookup_same ht'.2) fun _ => ?_
    have hpos : 0 < (t'.own Val.own).card := by simp [HT.own]
    split
    · rename_i h2
      exact Spec.pure ⟨rfl, rfl, by omega, fun h0 => by omega, fun _ _ => ⟨_, rfl, hpos⟩⟩
    refine Spec.bind allocateParams_spec ?_
    rintro pp _ rfl
    rw [show (pp.list : Multiset Res) + (t'.own Val.own + A) = t'.own Val.own + ((pp.list : Multiset Res) + A) by
      abel]
    refine Same.bind (lookups_same ht'.2 _) fun _ => ?_
    refine Spec.uses (fun q hq => ?_) ?_
    · have : q ∈ pp.list := hq
      simp [this]
    split
    · rename_i h3
      refine Spec.pure ⟨rfl, rfl, by omega, fun h0 => absurd h0 h3, fun _ _ =>
        ⟨t'.own Val.own + (pp.list : Multiset Res), by rw [add_assoc], ?_⟩⟩
      rw [Multiset.card_add]
      omega
    · rename_i h3
      have h3' : r.1 = 0 := by simpa using h3
      refine Spec.bind (htDelete_spec freeValueList_spec) ?_
      rintro - _ rfl
      exact Spec.pure ⟨rfl, rfl, by omega, fun _ => ⟨pp, rfl, rfl⟩, fun h _ => by omega⟩

/-- the parser with memory is undefined exactly if the parser without memory is -/
theorem parse_undef {cv : Conv 𝔽} {file : Option (List UInt8)} {p : SimParams 𝔽}
    (h : Params.parse cv file p = none) : Undef F A (parse cv file p) := by
  cases file with
  | none => cases h
  | some f =>
    simp only [Params.parse, Option.map_eq_none_iff] at h
    refine Spec.bind_undef (R := fun fd B => B = fd ::ₘ A) ?_ ?_
    · intro w hw hA hF
      exact ⟨_, _, rfl, hw.cons rfl, by rw [← hA], hF⟩
    rintro fd _ rfl
    refine Spec.bind_undef (htAllocate_spec (vo := Val.own)) ?_
    rintro t _ ⟨ht, rfl⟩
    have ht0 : TableOf t (HashTable.allocate 64) := by
      refine ⟨?_, by rw [ht]; decide⟩
      rw [ht]
      rfl
    exact Undef.bind ((readLoop_refines (A := fd ::ₘ A) (by simp) (Params.readLines f) ht0).2 h)

/-! ## Profiler -/

theorem profileStep_spec {t : HT Res} (h : 0 < t.tab.nBuckets) (c : Profiler.Call) (k : Key) :
    Spec F (t.own (fun p => {p}) + A) (profileStep t c k) (fun t' B =>
      0 < t'.tab.nBuckets ∧ B = t'.own (fun p => {p}) + A) := by
  refine Spec.bind (htGet_spec h) ?_
  rintro r _ ⟨rfl, rfl⟩
  cases hg : HashTable.get t.tab k with
  | none =>
    cases c with
    | leave => exact Spec.pure ⟨h, rfl⟩
    | enter =>
      refine Spec.alloc fun p => ?_
      refine Spec.bind (Spec.of_eq ?_ (htInsert_spec (vo := fun p => {p}) (A := A) (key := k) (val := p) h)) ?_
      · simp only [← Multiset.singleton_add]
        abel
      rintro ⟨t', old⟩ _ ⟨g1, g2, ⟨nd, g3, g4⟩, rfl⟩
      dsimp only at g1 g2 g4 ⊢
      rw [g1, hg]
      simp only [Option.map_none, Option.elim_none, zero_add]
      have hins := tabOwn_insert (vo := fun p : Res => ({p} : Multiset Res)) h k nd
      rw [hg] at hins
      refine Spec.use ?_ (Spec.pure ⟨?_, rfl⟩)
      · rw [HT.own, g4]
        simp only [Option.elim_none, add_zero] at hins
        rw [hins]
        simp [nodeOwn, g3]
      · rw [g4]
        exact h
  | some nd =>
    obtain ⟨R, hR⟩ := get_own (vo := fun p : Res => ({p} : Multiset Res)) h hg
    exact Spec.use (by simp [HT.own, hR, nodeOwn]) (Spec.pure ⟨h, rfl⟩)

theorem profileRun_spec (calls : List (Profiler.Call × Key)) : ∀ {t : HT Res}, 0 < t.tab.nBuckets →
    Spec F (t.own (fun p => {p}) + A) (profileRun t calls) (fun t' B =>
      0 < t'.tab.nBuckets ∧ B = t'.own (fun p => {p}) + A) := by
  induction calls with
  | nil => exact fun h => Spec.pure ⟨h, rfl⟩
  | cons c rest ih =>
    intro t h
    refine Spec.bind (profileStep_spec h c.1 c.2) ?_
    rintro t' _ ⟨h', rfl⟩
    exact ih h'

theorem profileReport_same {entries : Res} (he : entries ∈ A) {c : List (Key × Node Res)}
    (h : ∀ e ∈ c, ∀ q ∈ nodeOwn (fun p => {p}) e.2, q ∈ A) : Same F A (profileReport entries c) := by
  induction c with
  | nil => exact Spec.pure rfl
  | cons e rest ih =>
    obtain ⟨k, nd⟩ := e
    have h0 := h (k, nd) (by simp)
    refine Spec.uses ?_ (ih fun e he => h e (by simp [he]))
    simp only [List.mem_cons, List.not_mem_nil, or_false, forall_eq_or_imp, forall_eq]
    exact ⟨he, h0 _ (by simp [nodeOwn]), h0 _ (by simp [nodeOwn]), h0 _ (by simp [nodeOwn])⟩

theorem profileStop_spec {lg : Option Res} (hl : ∀ f ∈ lg, f ∈ A) {t : HT Res} :
    Spec F (t.own (fun p => {p}) + A) (profileStop lg t) (fun _ B => B = A) := by
  refine Spec.alloc fun entries => Spec.use (by simp [HT.own]) ?_
  refine Same.bind (profileReport_same (by simp) fun e he q hq => ?_) fun _ => ?_
  · obtain ⟨i, hi, he'⟩ := List.mem_flatMap.1 he
    have := bucket_live (vo := fun p : Res => ({p} : Multiset Res)) (List.mem_range.1 hi) he' hq
    simp [HT.own, this]
  refine Spec.duprintf (log_cons (log_add_left hl _) _) (Spec.free (by simp) ?_)
  rw [Multiset.erase_cons_head]
  exact htDelete_spec fun v A => (Spec.free' (by simp)).conseq fun _ _ h => by
    rw [h, Multiset.singleton_add, Multiset.erase_cons_head]

end Verif.Heap
