import Verif.Model.HashTable
import Mathlib.Data.Nat.Digits.Defs

set_option autoImplicit false

/-!
# Model of `src/profiler.c`

The file is compiled with `-DPROFILE_ENABLE`; without it all calls are empty.  A call of `Profile_Begin`
or `Profile_End` is one step, since its effect is inside a critical section; `tick` is the value which
`GetTicks` returns there.  A history is a list of such steps of any threads.

The table holds pointers to entries which are changed in place.  Every entry is known to the table only,
so the table here holds the entries themselves, and a change in place is an insertion under the same key,
which keeps place and number of the entries.
-/

namespace Verif.Profiler

open Verif.HashTable

/-- `profile_entry_t` (profiler.c:10-16) -/
structure Entry where
  start : BitVec 64
  calls : ℤ
  total : BitVec 64
deriving DecidableEq

/-- a new entry (profiler.c:60) -/
def Entry.zero : Entry := ⟨0, 0, 0⟩

/-- the two functions -/
inductive Call
  | enter
  | leave
deriving DecidableEq

/-- a call with its thread, name and time -/
structure Event where
  thread : ℕ
  call : Call
  name : Key
  tick : BitVec 64

/-- `%d` of a positive number -/
def decimal (n : ℕ) : Key := ((Nat.digits 10 n).map fun d => UInt8.ofNat (48 + d)).reverse

/-- the name under which a thread has its entry (profiler.c:44-50, 81-87); `none` if `name2` is too
short -/
def keyOf (thread : ℕ) (name : Key) : Option Key :=
  if thread > 0 then
    let k := name ++ 45 :: decimal thread
    if k.length < 128 then some k else none
  else some name

/-- change of an entry by `Profile_Begin` (profiler.c:64-69); `none` if `calls` overflows -/
def enterEntry (p : Entry) (tick : BitVec 64) : Option Entry :=
  if p.start = 0 then
    if p.calls < 2 ^ 31 - 1 then some { p with calls := p.calls + 1, start := tick } else none
  else some p

/-- change of an entry by `Profile_End` (profiler.c:97-98) -/
def leaveEntry (p : Entry) (tick : BitVec 64) : Entry :=
  { p with total := p.total + (tick - p.start), start := 0 }

/-- the critical section of `Profile_Begin` (profiler.c:53-70) -/
def enter (t : Table Entry) (key : Key) (tick : BitVec 64) : Option (Table Entry) :=
  match get t key with
  | none => (enterEntry Entry.zero tick).map fun p => (insert (insert t key Entry.zero).1 key p).1
  | some p => (enterEntry p tick).map fun p => (insert t key p).1

/-- the critical section of `Profile_End` (profiler.c:90-100) -/
def leave (t : Table Entry) (key : Key) (tick : BitVec 64) : Table Entry :=
  match get t key with
  | none => t
  | some p => (insert t key (leaveEntry p tick)).1

/-- `Profile_Begin` (profiler.c:41-71) and `Profile_End` (profiler.c:78-101) -/
def step (t : Table Entry) (e : Event) : Option (Table Entry) := do
  let key ← keyOf e.thread e.name
  match e.call with
  | .enter => enter t key e.tick
  | .leave => some (leave t key e.tick)

/-- `Profile_Start` (profiler.c:29-34) -/
def start : Table Entry := allocate 32

/-- the calls up to the end of the program -/
def run (evs : List Event) : Option (Table Entry) := evs.foldlM step start

/-- `strcmp` of two names is at most 0: lexicographic order of the bytes as `unsigned char` -/
def nameLE (a b : Key) : Bool := Decidable.decide (a.map UInt8.toNat ≤ b.map UInt8.toNat)

/-- the entries in the order of the report of `Profile_Stop` (profiler.c:139-148); `qsort` is taken to
be a correct sort -/
def report (t : Table Entry) : List (Key × Entry) :=
  (delete t).mergeSort fun a b => nameLE a.1 b.1

end Verif.Profiler
