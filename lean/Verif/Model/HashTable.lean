import Mathlib.Data.List.Basic
import Mathlib.Data.Nat.Notation
import Mathlib.Data.Int.Notation
import Mathlib.Logic.Function.Basic

set_option autoImplicit false

/-!
# Model of `src/hash_table.c`

A bucket (linked list of `ht_entry_t`) is a list of key/value pairs in chain order.  Keys are C
strings, i.e. lists of non-zero bytes.  A value is a non-NULL pointer, modelled by an arbitrary
type; the NULL returned for "not found" is `none`.
-/

namespace Verif.HashTable

/-- C string: bytes before the terminating zero. -/
abbrev Key := List UInt8

/-- Sign extension of a `char` to 32 bits (x86 `char` is signed), as happens in `hash ^ (*key)`
(hash_table.c:53). -/
def signExt (c : UInt8) : BitVec 32 := c.toBitVec.signExtend 32

/-- `FNV1a` (hash_table.c:48-57) -/
def fnv1a (key : Key) : BitVec 32 :=
  key.foldl (fun hash c => (hash ^^^ signExt c) * 16777619#32) 2166136261#32

/-- `hash_table_t` (include/hash_table.h:23-29) with values in `ν`. -/
structure Table (ν : Type) where
  nBuckets : ℕ
  nEntries : ℤ
  buckets : ℕ → List (Key × ν)

variable {ν : Type}

/-- `AllocateHashTable` (hash_table.c:11-17) -/
def allocate (n : ℕ) : Table ν := ⟨n, 0, fun _ => []⟩

/-- bucket index (hash_table.c:68, 105, 127); `n_buckets = 0` would be a remainder by zero. -/
def index (t : Table ν) (key : Key) : ℕ := (fnv1a key).toNat % t.nBuckets

/-- walk of `HashTableInsert` along a chain (hash_table.c:70-91): the new chain and the old value -/
def chainInsert (key : Key) (val : ν) : List (Key × ν) → List (Key × ν) × Option ν
  | [] => ([(key, val)], none)
  | (k, v) :: rest =>
    if key = k then ((k, val) :: rest, some v)
    else
      let r := chainInsert key val rest
      ((k, v) :: r.1, r.2)

/-- `HashTableInsert` (hash_table.c:65-95) -/
def insert (t : Table ν) (key : Key) (val : ν) : Table ν × Option ν :=
  let i := index t key
  let r := chainInsert key val (t.buckets i)
  (⟨t.nBuckets, if r.2.isSome then t.nEntries else t.nEntries + 1,
    Function.update t.buckets i r.1⟩, r.2)

/-- walk of `HashTableGet` along a chain (hash_table.c:108-116) -/
def chainGet (key : Key) : List (Key × ν) → Option ν
  | [] => none
  | (k, v) :: rest => if key = k then some v else chainGet key rest

/-- `HashTableGet` (hash_table.c:102-117) -/
def get (t : Table ν) (key : Key) : Option ν := chainGet key (t.buckets (index t key))

/-- walk of `HashTableRemove` along a chain (hash_table.c:129-150) -/
def chainRemove (key : Key) : List (Key × ν) → List (Key × ν) × Option ν
  | [] => ([], none)
  | (k, v) :: rest =>
    if key = k then (rest, some v)
    else
      let r := chainRemove key rest
      ((k, v) :: r.1, r.2)

/-- `HashTableRemove` (hash_table.c:124-151) -/
def remove (t : Table ν) (key : Key) : Table ν × Option ν :=
  let i := index t key
  let r := chainRemove key (t.buckets i)
  (⟨t.nBuckets, if r.2.isSome then t.nEntries - 1 else t.nEntries,
    Function.update t.buckets i r.1⟩, r.2)

/-- `DeleteHashTable` (hash_table.c:24-41): the entries visited, in order; for each of them the key
and the entry are released and `free_func` is called on the value. -/
def delete (t : Table ν) : List (Key × ν) :=
  (List.range t.nBuckets).flatMap t.buckets

/-- the calls a client can make -/
inductive Op (ν : Type) where
  | insert (key : Key) (val : ν)
  | get (key : Key)
  | remove (key : Key)

/-- one call: new table and returned pointer -/
def step (t : Table ν) : Op ν → Table ν × Option ν
  | .insert k v => insert t k v
  | .get k => (t, get t k)
  | .remove k => remove t k

/-- a sequence of calls: final table and the returned pointers in order -/
def run (t : Table ν) : List (Op ν) → Table ν × List (Option ν)
  | [] => (t, [])
  | op :: ops =>
    let r := step t op
    let r' := run r.1 ops
    (r'.1, r.2 :: r'.2)

end Verif.HashTable
