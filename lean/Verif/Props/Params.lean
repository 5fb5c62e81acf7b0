import Verif.Model.Params
import Verif.Props.HashTable
import Mathlib.Data.List.Flatten
import Mathlib.Tactic.Linarith

set_option autoImplicit false

/-! # Properties C08–C11: parameter files -/

namespace Verif.Params

open Verif.HashTable (Key Table)

variable {F : Type}

/-! ## C08: specification of a parameter file -/

/-- Specification: words of a text, i.e. the non-empty pieces between delimiters. -/
def words (text : List UInt8) : List Token := (text.splitOnP isDelim).filter (fun w => w != [])

/-- Specification: the meaningful part of a line: up to `#` (or a zero byte). -/
def content (line : List UInt8) : List UInt8 := line.takeWhile (fun c => c != 0 && c != 35)

/-- Specification: the values a line gives to a name: the words after the first one if the first
word is the name. -/
def valuesOn (name : Token) (line : List UInt8) : List Token :=
  match words (content line) with
  | [] => []
  | w :: ws => if w = name then ws else []

/-- Specification: the values of a name in a file: the values on all its lines, in order. -/
def valuesIn (name : Token) (file : List UInt8) : List Token :=
  (file.splitOnP (fun c => c == 10)).flatMap (valuesOn name)

theorem strtokAll_eq (l : List UInt8) (cur : Token) :
    strtokAll l cur = ((l.splitOnP isDelim).modifyHead (cur ++ ·)).filter (fun w => w != []) := by
  induction l generalizing cur with
  | nil =>
    by_cases h : cur = [] <;> simp [strtokAll, h]
  | cons c cs ih =>
    rw [List.splitOnP_cons_eq_if_modifyHead, strtokAll]
    by_cases hc : isDelim c
    · simp only [hc, if_true]
      by_cases h : cur = []
      · subst h
        simp only [if_true, List.modifyHead_cons, List.append_nil]
        rw [ih]
        simp only [List.nil_append, List.filter_cons]
        simp [show (fun w : List UInt8 => w) = id from rfl]
      · simp only [h, if_false, List.modifyHead_cons, List.append_nil]
        rw [ih, List.filter_cons]
        simp [h, show (fun w : List UInt8 => w) = id from rfl]
    · simp only [hc, if_false, Bool.false_eq_true]
      rw [ih, List.modifyHead_modifyHead]
      congr 2
      funext w
      simp

theorem takeWhile_takeWhile' {α : Type} (p q : α → Bool) (l : List α) :
    (l.takeWhile p).takeWhile q = l.takeWhile (fun a => p a && q a) := by
  induction l with
  | nil => rfl
  | cons a l ih =>
    by_cases hp : p a
    · by_cases hq : q a
      · simp [hp, hq, ih]
      · simp [hp, hq]
    · simp [hp]

theorem lineTokens_eq (buf : List UInt8) : lineTokens buf = words (content buf) := by
  unfold lineTokens words stripComment cstr content
  rw [strtokAll_eq, takeWhile_takeWhile']
  simp only [List.nil_append]
  rw [show (fun w : List UInt8 => w) = id from rfl, List.modifyHead_id]
  rfl

theorem fgets_line (n : ℕ) (a rest : List UInt8) (ha : ∀ c ∈ a, c ≠ 10) (hn : a.length < n) :
    fgets n (a ++ 10 :: rest) = (a ++ [10], rest) := by
  induction a generalizing n with
  | nil =>
    obtain ⟨n, rfl⟩ := Nat.exists_eq_succ_of_ne_zero (show n ≠ 0 by simp at hn; omega)
    simp [fgets]
  | cons c cs ih =>
    obtain ⟨n, rfl⟩ := Nat.exists_eq_succ_of_ne_zero (show n ≠ 0 by omega)
    have hc : c ≠ 10 := ha c (by simp)
    rw [List.cons_append, Nat.succ_eq_add_one, fgets, if_neg hc,
      ih n (fun c hc => ha c (by simp [hc])) (by simp at hn; omega)]
    rfl

theorem fgets_last (n : ℕ) (a : List UInt8) (ha : ∀ c ∈ a, c ≠ 10) (hn : a.length ≤ n) :
    fgets n a = (a, []) := by
  induction a generalizing n with
  | nil => cases n <;> simp [fgets]
  | cons c cs ih =>
    obtain ⟨n, rfl⟩ := Nat.exists_eq_succ_of_ne_zero (show n ≠ 0 by simp at hn; omega)
    have hc : c ≠ 10 := ha c (by simp)
    rw [Nat.succ_eq_add_one, fgets, if_neg hc,
      ih n (fun c hc => ha c (by simp [hc])) (by simp at hn; omega)]

theorem fgets_full (n : ℕ) (a rest : List UInt8) (ha : ∀ c ∈ a, c ≠ 10) (hn : a.length = n) :
    fgets n (a ++ rest) = (a, rest) := by
  induction a generalizing n with
  | nil => simp at hn; subst hn; simp [fgets]
  | cons c cs ih =>
    obtain ⟨n, rfl⟩ := Nat.exists_eq_succ_of_ne_zero (show n ≠ 0 by simp at hn; omega)
    have hc : c ≠ 10 := ha c (by simp)
    rw [List.cons_append, Nat.succ_eq_add_one, fgets, if_neg hc,
      ih n (fun c hc => ha c (by simp [hc])) (by simp at hn; omega)]

theorem readLines_ne (file : List UInt8) (h : file ≠ []) :
    readLines file = (fgets 1023 file).1 :: readLines (fgets 1023 file).2 := by
  cases file with
  | nil => exact absurd rfl h
  | cons c cs => rw [readLines]

/-- a final newline does not change the words of a line -/
theorem content_newline (a : List UInt8) :
    words (content (a ++ [10])) = words (content a) := by
  have hw : ∀ l : List UInt8, words (l ++ [10]) = words l := by
    intro l
    unfold words
    rw [List.splitOnP_append_cons]
    · rw [List.filter_append]; simp
    · decide
  unfold content
  rw [List.takeWhile_append]
  split
  · have h10 : ((10 : UInt8) != 0 && (10 : UInt8) != 35) = true := by decide
    rename_i hlen
    rw [List.takeWhile_cons, if_pos h10, List.takeWhile_nil, hw]
    congr 1
    exact ((List.takeWhile_prefix _).eq_of_length hlen).symm
  · rfl

theorem valuesOn_newline (name : Token) (a : List UInt8) :
    valuesOn name (a ++ [10]) = valuesOn name a := by
  unfold valuesOn; rw [content_newline]

/-- Lines that fit into the buffer: at most 1022 characters before the newline. -/
def ShortLines (file : List UInt8) : Prop :=
  ∀ line ∈ file.splitOnP (fun c => c == 10), line.length ≤ 1022

theorem split_first (file : List UInt8) :
    (∀ c ∈ file, c ≠ 10) ∨ ∃ a rest, file = a ++ 10 :: rest ∧ ∀ c ∈ a, c ≠ 10 := by
  by_cases h : (10 : UInt8) ∈ file
  · right
    obtain ⟨a, rest, hf, ha⟩ := List.eq_append_cons_of_mem h
    exact ⟨a, rest, hf, fun c hc hc' => ha (hc' ▸ hc)⟩
  · left
    exact fun c hc hc' => h (hc' ▸ hc)

theorem readLines_values (name : Token) (n : ℕ) : ∀ file : List UInt8, file.length ≤ n →
    ShortLines file → (readLines file).flatMap (valuesOn name) = valuesIn name file := by
  induction n with
  | zero =>
    intro file hn _
    have : file = [] := List.length_eq_zero_iff.1 (by omega)
    subst this
    simp [readLines, valuesIn, valuesOn, content, words]
  | succ n ih =>
    intro file hn hs
    by_cases h0 : file = []
    · subst h0
      simp [readLines, valuesIn, valuesOn, content, words]
    rw [readLines_ne _ h0]
    rcases split_first file with hnl | ⟨a, rest, rfl, ha⟩
    · have hsp : file.splitOnP (fun c => c == 10) = [file] :=
        List.splitOnP_eq_singleton (fun c hc => by simpa using hnl c hc)
      have hlen : file.length ≤ 1022 := hs file (by rw [hsp]; simp)
      rw [fgets_last 1023 file hnl (by omega)]
      simp [readLines, valuesIn, hsp]
    · have hsp : (a ++ 10 :: rest).splitOnP (fun c => c == 10)
          = a :: rest.splitOnP (fun c => c == 10) :=
        List.splitOnP_append_cons_of_forall_mem (fun c hc => by simpa using ha c hc) 10 (by decide) _
      have hlen : a.length ≤ 1022 := hs a (by rw [hsp]; simp)
      rw [fgets_line 1023 a rest ha (by omega)]
      have hs' : ShortLines rest := fun line hl => hs line (by rw [hsp]; exact List.mem_cons_of_mem _ hl)
      have hn' : rest.length ≤ n := by simp at hn; omega
      rw [List.flatMap_cons, ih rest hn' hs', valuesOn_newline]
      simp [valuesIn, hsp]

/-- how a value list is found in the table -/
def rep (v : List Token) : Option (List Token) := if v = [] then none else some v

theorem addLine_spec (t : Table (List Token)) (vals : Token → List Token)
    (ht : ∀ name, HashTable.get t name = rep (vals name)) (buf : List UInt8)
    (hc : ∀ name, (vals name ++ valuesOn name buf).length ≤ 1024) :
    ∃ t', addLine t buf = some t' ∧
      ∀ name, HashTable.get t' name = rep (vals name ++ valuesOn name buf) := by
  unfold addLine
  rw [lineTokens_eq]
  unfold valuesOn at hc ⊢
  cases hw : words (content buf) with
  | nil => exact ⟨t, rfl, by simpa using ht⟩
  | cons w ws =>
    rw [hw] at hc
    cases ws with
    | nil => exact ⟨t, rfl, by simpa using ht⟩
    | cons v vs =>
      have hlen := hc w
      simp only [if_true] at hlen
      have hins : ∀ l, l = vals w ++ v :: vs → ∀ name,
          HashTable.get (HashTable.insert t w l).1 name
            = rep (vals name ++ if w = name then v :: vs else []) := by
        intro l hl name
        rw [HashTable.get_insert]
        by_cases h : name = w
        · subst h
          have : vals name ++ v :: vs ≠ [] := by simp
          simp only [if_true, rep, hl, this, if_false]
        · rw [if_neg h, if_neg (fun h' => h h'.symm), List.append_nil, ht]
      have hwv := ht w
      by_cases h0 : vals w = []
      · rw [h0] at hwv hlen
        simp only [rep, if_true] at hwv
        simp only [hwv, appendValues]
        rw [if_pos (by simpa using hlen)]
        exact ⟨_, rfl, hins _ (by rw [h0])⟩
      · simp only [rep, h0, if_false] at hwv
        simp only [hwv, appendValues]
        rw [if_pos (by simpa using hlen)]
        exact ⟨_, rfl, hins _ rfl⟩

theorem foldl_addLine_spec (ls : List (List UInt8)) : ∀ (t : Table (List Token))
    (vals : Token → List Token), (∀ name, HashTable.get t name = rep (vals name)) →
    (∀ name, (vals name ++ ls.flatMap (valuesOn name)).length ≤ 1024) →
    ∃ t', ls.foldlM addLine t = some t' ∧
      ∀ name, HashTable.get t' name = rep (vals name ++ ls.flatMap (valuesOn name)) := by
  induction ls with
  | nil => intro t vals ht _; exact ⟨t, rfl, by simpa using ht⟩
  | cons l ls ih =>
    intro t vals ht hc
    obtain ⟨t1, h1, h2⟩ := addLine_spec t vals ht l (fun name => by
      have := hc name
      rw [List.flatMap_cons, ← List.append_assoc, List.length_append] at this
      omega)
    obtain ⟨t', h3, h4⟩ := ih t1 (fun name => vals name ++ valuesOn name l) h2 (fun name => by
      have := hc name
      rwa [List.flatMap_cons, ← List.append_assoc] at this)
    refine ⟨t', ?_, fun name => ?_⟩
    · rw [List.foldlM_cons, h1]; exact h3
    · rw [h4, List.flatMap_cons, List.append_assoc]

/-- C08_partial: for a file whose lines fit into the line buffer and which gives no more than 1024
values to any name, the table built by `ParseParameterFile` associates with every name exactly the
values given on the lines starting with this name, in file order; names without values are absent
(and all lists are non-empty, so `value->str[0]` exists).
Missing for the full property: lines longer than 1022 characters and more than 1024 values, for
which it is false (`readTable_long_comment`, `readTable_overflow`). -/
theorem readTable_spec_partial (file : List UInt8) (hs : ShortLines file)
    (hc : ∀ name, (valuesIn name file).length ≤ 1024) :
    ∃ t, readTable file = some t ∧ ∀ name, HashTable.get t name =
      if valuesIn name file = [] then none else some (valuesIn name file) := by
  have hv := fun name => readLines_values name file.length file le_rfl hs
  obtain ⟨t, h1, h2⟩ := foldl_addLine_spec (readLines file) (HashTable.allocate 64) (fun _ => [])
    (fun name => rfl) (fun name => by rw [List.nil_append, hv]; exact hc name)
  refine ⟨t, h1, fun name => ?_⟩
  rw [h2, List.nil_append, hv]; rfl

/-- text as bytes -/
def ascii (s : String) : List UInt8 := nm s

/-- non-vacuity: comments, several delimiters, repeated names -/
example :
    let f := ascii "Norb = 2\nU: 1.5, 2 # comment U 7\n\n# U 9\nU;3\nmu\n"
    ShortLines f ∧ valuesIn (ascii "U") f = [ascii "1.5", ascii "2", ascii "3"] ∧
      valuesIn (ascii "mu") f = [] ∧ valuesIn (ascii "Norb") f = [ascii "2"] := by
  refine ⟨?_, ?_, ?_, ?_⟩
  · unfold ShortLines; decide +kernel
  · decide +kernel
  · decide +kernel
  · decide +kernel

/-- C08 is false for long lines: a comment line of 1029 characters is split by `fgets`, and its tail
"Norb 5" is read as a parameter although everything after `#` should be ignored. -/
theorem readTable_long_comment :
    let file := 35 :: (List.replicate 1022 120 ++ ascii "Norb 5\n")
    valuesIn (ascii "Norb") file = [] ∧
    ∃ t, readTable file = some t ∧ HashTable.get t (ascii "Norb") = some [ascii "5"] := by
  have hlen : (List.replicate 1022 120 : List UInt8).length = 1022 := List.length_replicate
  have hmem : ∀ c ∈ (List.replicate 1022 120 : List UInt8), c = 120 :=
    fun c hc => List.eq_of_mem_replicate hc
  generalize (List.replicate 1022 120 : List UInt8) = xs at hlen hmem
  intro file
  have hfile : file = (35 :: xs) ++ ascii "Norb 5\n" := rfl
  have hx : ∀ c ∈ (35 :: xs : List UInt8), c ≠ 10 := by
    intro c hc
    rcases List.mem_cons.1 hc with rfl | hc
    · decide
    · rw [hmem c hc]; decide
  have hcont : ∀ l : List UInt8, words (content (35 :: l)) = [] := by
    intro l
    unfold content
    rw [List.takeWhile_cons]
    simp [words]
  constructor
  · have hsp : file.splitOnP (fun c => c == 10)
        = [(35 :: xs) ++ ascii "Norb 5", []] := by
      have h1 : file = ((35 :: xs) ++ ascii "Norb 5") ++ 10 :: [] := by
        rw [hfile, List.append_assoc]; rfl
      rw [h1, List.splitOnP_append_cons_of_forall_mem _ 10 (by decide)]
      · rfl
      · intro c hc
        rcases List.mem_append.1 hc with hc | hc
        · simpa using hx c hc
        · have : ∀ c ∈ ascii "Norb 5", (c == 10) = false := by decide +kernel
          exact this c hc
    unfold valuesIn
    rw [hsp]
    simp only [List.flatMap_cons, List.flatMap_nil, valuesOn]
    rw [List.cons_append, hcont]
    simp [content, words]
  · have hl : readLines file = [35 :: xs, ascii "Norb 5\n"] := by
      rw [readLines_ne _ (by rw [hfile]; simp), hfile, fgets_full 1023 _ _ hx (by simp [hlen])]
      have h2 : fgets 1023 (ascii "Norb 5\n") = (ascii "Norb 5\n", []) := by
        have : ascii "Norb 5\n" = ascii "Norb 5" ++ 10 :: [] := by decide +kernel
        rw [this, fgets_line 1023 _ _ (by decide +kernel) (by decide +kernel)]
      simp only
      rw [readLines_ne _ (by decide +kernel), h2]
      simp [readLines]
    obtain ⟨t, h1, h2⟩ := foldl_addLine_spec (readLines file) (HashTable.allocate 64) (fun _ => [])
      (fun name => rfl) (fun name => by
        rw [hl]
        simp only [List.flatMap_cons, List.flatMap_nil, valuesOn, hcont]
        have : words (content (ascii "Norb 5\n")) = [ascii "Norb", ascii "5"] := by decide +kernel
        rw [this]
        simp only
        split <;> simp)
    refine ⟨t, h1, ?_⟩
    rw [h2, hl]
    simp only [List.flatMap_cons, List.flatMap_nil, valuesOn, hcont]
    have : words (content (ascii "Norb 5\n")) = [ascii "Norb", ascii "5"] := by decide +kernel
    rw [this]
    simp [rep]

/-- a fold that fails in the middle fails -/
theorem foldlM_none {α β : Type} (f : β → α → Option β) (ls ls' : List α) (b : β)
    (h : ls.foldlM f b = none) : (ls ++ ls').foldlM f b = none := by
  rw [List.foldlM_append, h]; rfl

theorem addLine_overflow (t : Table (List Token)) (vals : Token → List Token)
    (ht : ∀ name, HashTable.get t name = rep (vals name)) (buf : List UInt8) (name : Token)
    (hv : (vals name).length ≤ 1024)
    (hc : 1024 < (vals name ++ valuesOn name buf).length) : addLine t buf = none := by
  unfold addLine
  rw [lineTokens_eq]
  unfold valuesOn at hc
  cases hw : words (content buf) with
  | nil => rw [hw] at hc; simp at hc; omega
  | cons w ws =>
    rw [hw] at hc
    simp only at hc
    by_cases hwn : w = name
    · subst hwn
      simp only [if_true] at hc
      cases ws with
      | nil => simp at hc; omega
      | cons v vs =>
        have hwv := ht w
        by_cases h0 : vals w = []
        · rw [h0] at hwv hc
          simp only [rep, if_true] at hwv
          simp only [hwv, appendValues]
          rw [if_neg (by simp at hc ⊢; omega)]; rfl
        · simp only [rep, h0, if_false] at hwv
          simp only [hwv, appendValues]
          rw [if_neg (by simpa using hc)]; rfl
    · rw [if_neg hwn] at hc
      simp at hc; omega

theorem foldl_addLine_overflow (ls : List (List UInt8)) (name : Token) :
    ∀ (t : Table (List Token)) (vals : Token → List Token),
    (∀ name, HashTable.get t name = rep (vals name)) → (∀ name, (vals name).length ≤ 1024) →
    1024 < (vals name ++ ls.flatMap (valuesOn name)).length → ls.foldlM addLine t = none := by
  induction ls with
  | nil => intro t vals _ hv hc; have := hv name; simp at hc; omega
  | cons l ls ih =>
    intro t vals ht hv hc
    rw [List.foldlM_cons]
    by_cases hall : ∀ n, (vals n ++ valuesOn n l).length ≤ 1024
    · obtain ⟨t1, h1, h2⟩ := addLine_spec t vals ht l hall
      rw [h1]
      exact ih t1 _ h2 hall (by rwa [List.flatMap_cons, ← List.append_assoc] at hc)
    · push Not at hall
      obtain ⟨n, hn⟩ := hall
      rw [addLine_overflow t vals ht l n (hv n) hn]; rfl

/-- C08 is false for long value lists: if some name gets more than 1024 values, reading the file
writes past the end of the value array. -/
theorem readTable_overflow (file : List UInt8) (hs : ShortLines file) (name : Token)
    (hc : 1024 < (valuesIn name file).length) : readTable file = none := by
  apply foldl_addLine_overflow (readLines file) name _ (fun _ => []) (fun _ => rfl) (by simp)
  rw [List.nil_append, readLines_values name file.length file le_rfl hs]
  exact hc

/-- non-vacuity: the hypothesis of `readTable_overflow` is met by 1025 lines "U 1" -/
example : let line := ascii "U 1"
    let file := (List.replicate 1025 (line ++ [10])).flatten
    ShortLines file ∧ 1024 < (valuesIn (ascii "U") file).length := by
  intro line file
  have hsp : ∀ n, ((List.replicate n (line ++ [10])).flatten).splitOnP (fun c => c == 10)
      = List.replicate n line ++ [[]] := by
    intro n
    induction n with
    | zero => simp
    | succ n ih =>
      rw [List.replicate_succ, List.flatten_cons, List.append_assoc, List.singleton_append,
        List.splitOnP_append_cons_of_forall_mem (by decide +kernel) 10 (by decide), ih,
        List.replicate_succ, List.cons_append]
  constructor
  · intro l hl
    rw [hsp] at hl
    rcases List.mem_append.1 hl with hl | hl
    · rw [List.eq_of_mem_replicate hl]; decide +kernel
    · rw [List.mem_singleton.1 hl]; simp
  · have h1 : valuesOn (ascii "U") line = [ascii "1"] := by decide +kernel
    have h2 : valuesOn (ascii "U") [] = [] := by decide +kernel
    have h3 : ∀ n, ((List.replicate n line).flatMap (valuesOn (ascii "U"))).length = n := by
      intro n
      induction n with
      | zero => simp
      | succ n ih => rw [List.replicate_succ, List.flatMap_cons, h1, List.length_append, ih]; simp; omega
    unfold valuesIn
    rw [hsp, List.flatMap_append, List.length_append, h3]
    simp [h2]

end Verif.Params
