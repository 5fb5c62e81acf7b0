import Verif.Props.Decimal
import Mathlib.Data.Finset.Sort
import Mathlib.Order.Interval.Finset.Basic
import Mathlib.Data.Int.Interval

set_option autoImplicit false

/-!
# C102: which parameters can be given by a file

Every set of parameters consisting of `int`s and finite doubles can be given by a file, except that a list of hoppings
has at most 341 non-zero entries and that other lists have at most 1024 entries; these limits cannot be exceeded by any
file.
-/

namespace Verif.Params

open Verif.HashTable (Key Table)
open Verif.Decimal

/-! ## Files with one value on each line -/

/-- a word: no delimiter, comment sign or zero byte -/
def Clean (w : List UInt8) : Prop := w ≠ [] ∧ ∀ c ∈ w, isDelim c = false ∧ c ≠ 0 ∧ c ≠ 35

/-- one line `name value` for each pair -/
def fileOf (l : List (Key × Token)) : List UInt8 := l.flatMap fun x => (x.1 ++ 32 :: x.2) ++ [10]

theorem takeWhile_all {α : Type} {q : α → Bool} {l : List α} (h : ∀ a ∈ l, q a = true) : l.takeWhile q = l := by
  induction l with
  | nil => rfl
  | cons a l ih => rw [List.takeWhile_cons, if_pos (h a (by simp)), ih fun b hb => h b (by simp [hb])]

theorem words_line {n t : List UInt8} (hn : Clean n) (ht : Clean t) : words (content (n ++ 32 :: t)) = [n, t] := by
  have h1 : content (n ++ 32 :: t) = n ++ 32 :: t := by
    unfold content
    refine takeWhile_all ?_
    intro c hc
    rcases List.mem_append.1 hc with hc | hc
    · have := hn.2 c hc; simp [this.2]
    · rcases List.mem_cons.1 hc with rfl | hc
      · decide
      · have := ht.2 c hc; simp [this.2]
  rw [h1, words, List.splitOnP_append_cons_of_forall_mem (fun c hc => by simp [(hn.2 c hc).1]) 32 (by decide),
    List.splitOnP_eq_singleton (fun c hc => by simp [(ht.2 c hc).1])]
  simp [hn.1, ht.1]

theorem split_fileOf (l : List (Key × Token)) (h : ∀ x ∈ l, Clean x.1 ∧ Clean x.2) :
    (fileOf l).splitOnP (fun c => c == 10) = l.map (fun x => x.1 ++ 32 :: x.2) ++ [[]] := by
  induction l with
  | nil => simp [fileOf]
  | cons x l ih =>
    have hx := h x (by simp)
    have ih := ih fun y hy => h y (by simp [hy])
    have e : fileOf (x :: l) = (x.1 ++ 32 :: x.2) ++ 10 :: fileOf l := by simp [fileOf]
    have h10 : ∀ {w : List UInt8}, Clean w → ∀ c ∈ w, (c == 10) = false := by
      intro w hw c hc
      have := (hw.2 c hc).1
      by_contra hne
      have : c = 10 := by simpa using hne
      subst this
      revert this
      have := (hw.2 10 hc).1
      revert this
      decide
    rw [e, List.splitOnP_append_cons_of_forall_mem _ 10 (by decide), ih]
    · simp
    · intro c hc
      rcases List.mem_append.1 hc with hc | hc
      · simp [h10 hx.1 c hc]
      · rcases List.mem_cons.1 hc with rfl | hc
        · decide
        · simp [h10 hx.2 c hc]

theorem valuesIn_fileOf (l : List (Key × Token)) (h : ∀ x ∈ l, Clean x.1 ∧ Clean x.2) (name : Key) :
    valuesIn name (fileOf l) = l.flatMap fun x => if x.1 = name then [x.2] else [] := by
  unfold valuesIn
  rw [split_fileOf l h, List.flatMap_append, List.flatMap_map]
  have h0 : valuesOn name [] = [] := by simp [valuesOn, content, words]
  simp only [List.flatMap_cons, List.flatMap_nil, h0, List.append_nil]
  have key : ∀ x ∈ l, valuesOn name (x.1 ++ 32 :: x.2) = if x.1 = name then [x.2] else [] := by
    intro x hx
    rw [valuesOn, words_line (h x hx).1 (h x hx).2]
  clear h0
  induction l with
  | nil => rfl
  | cons x l ih =>
    rw [List.flatMap_cons, List.flatMap_cons, key x (by simp),
      ih (fun y hy => h y (by simp [hy])) fun y hy => key y (by simp [hy])]

theorem short_fileOf (l : List (Key × Token)) (h : ∀ x ∈ l, Clean x.1 ∧ Clean x.2)
    (hl : ∀ x ∈ l, x.1.length + x.2.length ≤ 1021) : ShortLines (fileOf l) := by
  intro line hline
  rw [split_fileOf l h] at hline
  rcases List.mem_append.1 hline with hm | hm
  · obtain ⟨x, hx, rfl⟩ := List.mem_map.1 hm
    have := hl x hx
    simp only [List.length_append, List.length_cons]
    omega
  · rw [List.mem_singleton.1 hm]; simp

/-- lines for lists of values -/
def linesOf (es : List (Key × List Token)) : List (Key × Token) :=
  es.flatMap fun e => e.2.map fun t => (e.1, t)

theorem values_linesOf (es : List (Key × List Token)) (hn : (es.map Prod.fst).Nodup) (name : Key) :
    ((linesOf es).flatMap fun x => if x.1 = name then [x.2] else []) =
      ((es.find? fun e => e.1 = name).map Prod.snd).getD [] := by
  induction es with
  | nil => rfl
  | cons e es ih =>
    obtain ⟨k, ts⟩ := e
    rw [List.map_cons, List.nodup_cons] at hn
    have hsplit : linesOf ((k, ts) :: es) = (ts.map fun t => (k, t)) ++ linesOf es := rfl
    rw [hsplit, List.flatMap_append, ih hn.2, List.flatMap_map]
    by_cases hk : k = name
    · subst hk
      have hnone : es.find? (fun e => e.1 = k) = none := by
        rw [List.find?_eq_none]
        intro x hx hxk
        have hxk : x.1 = k := by simpa using hxk
        exact hn.1 (List.mem_map.2 ⟨x, hx, hxk⟩)
      simp [hnone]
    · simp [hk]

theorem find_key {es : List (Key × List Token)} (hn : (es.map Prod.fst).Nodup) {k : Key} {ts : List Token}
    (h : (k, ts) ∈ es) : ((es.find? fun e => e.1 = k).map Prod.snd).getD [] = ts := by
  induction es with
  | nil => cases h
  | cons e es ih =>
    rw [List.map_cons, List.nodup_cons] at hn
    rcases List.mem_cons.1 h with rfl | h
    · simp
    · have : e.1 ≠ k := by
        rintro rfl
        exact hn.1 (List.mem_map.2 ⟨_, h, rfl⟩)
      simp only [List.find?_cons, this, decide_false]
      exact ih hn.2 h

/-- the values of all names in a file made of lists -/
theorem table_linesOf (es : List (Key × List Token)) (hn : (es.map Prod.fst).Nodup)
    (hk : ∀ e ∈ es, Clean e.1 ∧ e.1.length ≤ 30) (ht : ∀ e ∈ es, ∀ t ∈ e.2, Clean t ∧ t.length ≤ 900)
    (hl : ∀ e ∈ es, e.2.length ≤ 1024) :
    ShortLines (fileOf (linesOf es)) ∧ (∀ name, (valuesIn name (fileOf (linesOf es))).length ≤ 1024) ∧
    ∀ k ts, (k, ts) ∈ es → valuesIn k (fileOf (linesOf es)) = ts := by
  have hm : ∀ x ∈ linesOf es, ∃ e ∈ es, x.1 = e.1 ∧ x.2 ∈ e.2 := by
    intro x hx
    obtain ⟨e, he, hx⟩ := List.mem_flatMap.1 hx
    obtain ⟨t, ht, rfl⟩ := List.mem_map.1 hx
    exact ⟨e, he, rfl, ht⟩
  have hclean : ∀ x ∈ linesOf es, Clean x.1 ∧ Clean x.2 := by
    intro x hx
    obtain ⟨e, he, h1, h2⟩ := hm x hx
    exact ⟨h1 ▸ (hk e he).1, (ht e he _ h2).1⟩
  have hv : ∀ name, valuesIn name (fileOf (linesOf es)) =
      ((es.find? fun e => e.1 = name).map Prod.snd).getD [] := fun name => by
    rw [valuesIn_fileOf _ hclean, values_linesOf es hn]
  refine ⟨short_fileOf _ hclean fun x hx => ?_, fun name => ?_, fun k ts h => ?_⟩
  · obtain ⟨e, he, h1, h2⟩ := hm x hx
    have := (hk e he).2
    have := (ht e he _ h2).2
    rw [h1]
    omega
  · rw [hv]
    cases h : es.find? fun e => e.1 = name with
    | none => simp
    | some e => exact hl e (List.mem_of_find?_eq_some h)
  · rw [hv, find_key hn h]

/-! ## The file for given parameters -/

theorem clean_plain {w : List UInt8} (h0 : w ≠ []) (h : ∀ c ∈ w, plain c = true) : Clean w := by
  refine ⟨h0, fun c hc => ?_⟩
  have := h c hc
  simp only [plain, Bool.or_eq_true, beq_iff_eq] at this
  rcases this with ((((h | rfl) | rfl) | rfl) | rfl) | rfl
  · rw [isDigit_iff] at h
    refine ⟨?_, ?_, ?_⟩
    · by_contra hd
      rw [Bool.not_eq_false] at hd
      simp only [isDelim, Bool.or_eq_true, beq_iff_eq] at hd
      rcases hd with ((((((rfl | rfl) | rfl) | rfl) | rfl) | rfl) | rfl) | rfl <;> (revert h; decide)
    · rintro rfl; revert h; decide
    · rintro rfl; revert h; decide
  all_goals decide

theorem intText_clean (n : ℤ) : Clean (intText n) := by
  refine clean_plain ?_ ?_
  · intro h
    exact dec_ne n.natAbs (List.append_eq_nil_iff.1 h).2
  · intro c hc
    rcases List.mem_append.1 hc with hc | hc
    · exact plain_signText _ c hc
    · exact plain_digits (dec_digits _) c hc

theorem intText_length {n : ℤ} (h1 : -2 ^ 63 ≤ n) (h2 : n < 2 ^ 63) : (intText n).length ≤ 900 := by
  have h := dec_length (n := n.natAbs) (k := 20) (by norm_num) (by omega)
  have : (signText (if n < 0 then some true else none)).length ≤ 1 := by split <;> simp [signText]
  rw [intText, List.length_append]
  omega

open Classical in
/-- a text that is read as the given number -/
noncomputable def realText (cv : Conv ℝ) (x : ℝ) : Token :=
  if h : ∃ s : Token, cv.atof s = x ∧ s ≠ [] ∧ s.length ≤ 810 ∧ ∀ c ∈ s, plain c = true then h.choose else [48]

theorem realText_spec {rnd : ℝ → ℝ} (hr : Random.RoundsToNearest rnd) {cv : Conv ℝ} (hcv : Std rnd cv) {x : ℝ}
    (h : IsDouble x) : cv.atof (realText cv x) = x := by
  have := atof_complete hr hcv h
  rw [realText, dif_pos this]
  exact this.choose_spec.1

theorem realText_clean (cv : Conv ℝ) (x : ℝ) : Clean (realText cv x) ∧ (realText cv x).length ≤ 900 := by
  unfold realText
  split
  · rename_i h
    exact ⟨clean_plain h.choose_spec.2.1 h.choose_spec.2.2.2, h.choose_spec.2.2.1.trans (by norm_num)⟩
  · exact ⟨clean_plain (by simp) (by decide), by simp⟩

open Classical in
/-- non-zero entries of a matrix -/
noncomputable def support (Norb : ℤ) (t : ℤ → ℝ) : Finset ℤ := (Finset.Ico 0 (Norb * Norb)).filter fun k => t k ≠ 0

/-- triples for the non-zero entries -/
noncomputable def hopTokens (cv : Conv ℝ) (Norb : ℤ) (t : ℤ → ℝ) (ks : List ℤ) : List Token :=
  ks.flatMap fun k => [intText (k % Norb), intText (k / Norb), realText cv (t k)]

theorem hopTokens_length (cv : Conv ℝ) (Norb : ℤ) (t : ℤ → ℝ) (ks : List ℤ) :
    (hopTokens cv Norb t ks).length = 3 * ks.length := by
  induction ks with
  | nil => rfl
  | cons k ks ih =>
    have : hopTokens cv Norb t (k :: ks) =
      intText (k % Norb) :: intText (k / Norb) :: realText cv (t k) :: hopTokens cv Norb t ks := rfl
    rw [this]
    simp only [List.length_cons, ih]
    ring

theorem index_split {Norb k : ℤ} (h0 : 0 ≤ k) (h1 : k < Norb * Norb) :
    0 < Norb ∧ 0 ≤ k % Norb ∧ k % Norb < Norb ∧ 0 ≤ k / Norb ∧ k / Norb < Norb ∨ Norb ≤ 0 := by
  rcases le_or_gt Norb 0 with h | h
  · exact Or.inr h
  · exact Or.inl ⟨h, Int.emod_nonneg _ (by omega), Int.emod_lt_of_pos _ h, Int.ediv_nonneg h0 h.le,
      Int.ediv_lt_of_lt_mul h h1⟩

open Classical in
theorem readHopLoop_tokens {rnd : ℝ → ℝ} (hr : Random.RoundsToNearest rnd) {cv : Conv ℝ} (hcv : Std rnd cv) {Norb : ℤ}
    (hN : 0 < Norb) (hN' : Norb < 2 ^ 31) (t : ℤ → ℝ) (ht : ∀ k, IsDouble (t k)) (ks : List ℤ)
    (hks : ∀ k ∈ ks, 0 ≤ k ∧ k < Norb * Norb) (t0 : ℤ → ℝ) :
    readHopLoop cv Norb (hopTokens cv Norb t ks) t0 = (0, fun j => if j ∈ ks then t j else t0 j) := by
  induction ks generalizing t0 with
  | nil => simp [hopTokens, readHopLoop]
  | cons k ks ih =>
    obtain ⟨h0, h1⟩ := hks k (by simp)
    obtain ⟨-, a1, a2, b1, b2⟩ := (index_split h0 h1).resolve_right (by omega)
    have e : hopTokens cv Norb t (k :: ks) =
      intText (k % Norb) :: intText (k / Norb) :: realText cv (t k) :: hopTokens cv Norb t ks := rfl
    rw [e, readHopLoop]
    rw [hcv.atoi _ _ (atoi_intText (by omega) (by omega)), hcv.atoi _ _ (atoi_intText (by omega) (by omega)),
      realText_spec hr hcv (ht k), if_neg (by omega), ih fun j hj => hks j (by simp [hj])]
    congr 1
    funext j
    rw [Int.emod_add_mul_ediv]
    by_cases hj : j ∈ ks
    · simp [hj]
    · by_cases hk : j = k
      · subst hk; simp [hj]
      · simp [hj, hk]

open Classical in
/-- a matrix of hoppings is read back -/
theorem hop_read {rnd : ℝ → ℝ} (hr : Random.RoundsToNearest rnd) {cv : Conv ℝ} (hcv : Std rnd cv) {Norb : ℤ}
    (hN : 0 < Norb) (hN' : Norb < 2 ^ 31) (t : ℤ → ℝ) (ht : ∀ k, IsDouble (t k))
    (h0 : ∀ k, ¬ (0 ≤ k ∧ k < Norb * Norb) → t k = 0) :
    optList (rep (hopTokens cv Norb t (support Norb t).toList)) (readHoppings cv Norb) (fun _ => 0) = (0, t) := by
  have hval : (fun j => if j ∈ (support Norb t).toList then t j else (0 : ℝ)) = t := by
    funext j
    split
    · rfl
    · rename_i hj
      by_contra hne
      refine hj ?_
      rw [Finset.mem_toList, support, Finset.mem_filter, Finset.mem_Ico]
      refine ⟨?_, fun h => hne h.symm⟩
      by_contra hb
      exact hne (h0 j hb).symm
  have hloop := readHopLoop_tokens hr hcv hN hN' t ht (support Norb t).toList (fun k hk => by
    rw [Finset.mem_toList, support, Finset.mem_filter, Finset.mem_Ico] at hk
    exact hk.1) (fun _ => 0)
  rw [hval] at hloop
  unfold rep
  split
  · rename_i he
    rw [he] at hloop
    simpa [optList, readHopLoop] using hloop
  · show readHoppings cv Norb _ _ = _
    rw [readHoppings, if_neg (by rw [hopTokens_length]; omega), hloop]

open Classical in
/-- values for all orbitals, unless all are zero -/
noncomputable def listTokens (cv : Conv ℝ) (Norb : ℤ) (u : ℤ → ℝ) : List Token :=
  if ∀ k, u k = 0 then [] else (List.range Norb.toNat).map fun k : ℕ => realText cv (u k)

theorem list_read {rnd : ℝ → ℝ} (hr : Random.RoundsToNearest rnd) {cv : Conv ℝ} (hcv : Std rnd cv) {Norb : ℤ}
    (hN : 0 < Norb) (u : ℤ → ℝ) (hu : ∀ k, IsDouble (u k)) (h0 : ∀ k, ¬ (0 ≤ k ∧ k < Norb) → u k = 0) :
    optList (rep (listTokens cv Norb u)) (readList cv Norb) (fun _ => 0) = (0, u) := by
  unfold listTokens
  split
  · rename_i h
    simp only [rep, if_true, optList]
    congr 1
    funext k
    exact (h k).symm
  · have hne : (List.range Norb.toNat).map (fun k : ℕ => realText cv (u k)) ≠ [] := by
      intro h
      have := congrArg List.length h
      simp at this
      omega
    rw [rep, if_neg hne]
    show readList cv Norb _ _ = _
    have hlen : (((List.range Norb.toNat).map fun k : ℕ => realText cv (u k)).length : ℤ) = Norb := by
      simp only [List.length_map, List.length_range]
      omega
    rw [readList, if_neg (by rw [hlen]; simp)]
    congr 1
    funext k
    split
    · rename_i h
      rw [List.getElem_map, List.getElem_range, realText_spec hr hcv (hu _), Int.toNat_of_nonneg h.1]
    · rename_i h
      refine (h0 k fun hk => h ⟨hk.1, ?_⟩).symm
      simp only [List.length_map, List.length_range]
      omega

/-- an `int` -/
def IsInt (n : ℤ) : Prop := -2 ^ 31 ≤ n ∧ n < 2 ^ 31

/-- an `Norb × Norb` array of doubles with at most 341 non-zero entries (the model continues arrays by zero) -/
structure HopArray (Norb : ℤ) (t : ℤ → ℝ) : Prop where
  double : ∀ k, IsDouble (t k)
  outside : ∀ k, ¬ (0 ≤ k ∧ k < Norb * Norb) → t k = 0
  few : {k | t k ≠ 0}.ncard ≤ 341

/-- an array of doubles with `Norb` entries; if one is not zero, there are at most 1024 -/
structure OrbArray (Norb : ℤ) (u : ℤ → ℝ) : Prop where
  double : ∀ k, IsDouble (u k)
  outside : ∀ k, ¬ (0 ≤ k ∧ k < Norb) → u k = 0
  few : Norb ≤ 1024 ∨ ∀ k, u k = 0

/-- parameters made of `int`s and finite doubles, with at most 341 non-zero hoppings of each kind and at most 1024
orbitals with individual values -/
structure Writable (p : SimParams ℝ) : Prop where
  pos : 0 < p.Norb
  ints : ∀ n ∈ [p.Norb, p.Nx, p.Ny, p.pbcShift, p.phonon.nLocalUpdates, p.phonon.nBlockUpdates, p.L, p.prodBlen,
    p.nwraps, p.nequil, p.nsampl, p.neqlt, p.nuneqlt, p.maxTime], IsInt n
  doubles : ∀ x ∈ [p.mu, p.phonon.localBoxWidth, p.phonon.blockBoxWidth, p.dt], IsDouble x
  hops : ∀ t ∈ [p.t.aa, p.t.ab, p.t.ac, p.t.ad, p.t.bc], HopArray p.Norb t
  orbs : ∀ u ∈ [p.U, p.eps, p.phonon.omega, p.phonon.g], OrbArray p.Norb u

/-- names and values of all parameters -/
noncomputable def entries (cv : Conv ℝ) (p : SimParams ℝ) : List (Key × List Token) :=
  let hop := fun t => hopTokens cv p.Norb t (support p.Norb t).toList
  let orb := fun u => listTokens cv p.Norb u
  [(nm "Norb", [intText p.Norb]), (nm "Nx", [intText p.Nx]), (nm "Ny", [intText p.Ny]),
    (nm "pbc_shift", [intText p.pbcShift]),
    (nm "t_aa", hop p.t.aa), (nm "t_ab", hop p.t.ab), (nm "t_ac", hop p.t.ac), (nm "t_ad", hop p.t.ad),
    (nm "t_bc", hop p.t.bc), (nm "U", orb p.U), (nm "eps", orb p.eps), (nm "mu", [realText cv p.mu]),
    (nm "use_phonons", [if p.usePhonons then nm "true" else nm "false"]),
    (nm "phonon_omega", orb p.phonon.omega), (nm "phonon_g", orb p.phonon.g),
    (nm "phonon_local_box_width", [realText cv p.phonon.localBoxWidth]),
    (nm "phonon_n_local_updates", [intText p.phonon.nLocalUpdates]),
    (nm "phonon_block_box_width", [realText cv p.phonon.blockBoxWidth]),
    (nm "phonon_n_block_updates", [intText p.phonon.nBlockUpdates]),
    (nm "dt", [realText cv p.dt]), (nm "L", [intText p.L]), (nm "prodBlen", [intText p.prodBlen]),
    (nm "nwraps", [intText p.nwraps]), (nm "nequil", [intText p.nequil]), (nm "nsampl", [intText p.nsampl]),
    (nm "neqlt", [intText p.neqlt]), (nm "nuneqlt", [intText p.nuneqlt]),
    (nm "itime", [intText p.itime.toInt]), (nm "max_time", [intText p.maxTime])]

/-- names of all parameters -/
def keys : List Key :=
  ["Norb", "Nx", "Ny", "pbc_shift", "t_aa", "t_ab", "t_ac", "t_ad", "t_bc", "U", "eps", "mu", "use_phonons",
    "phonon_omega", "phonon_g", "phonon_local_box_width", "phonon_n_local_updates", "phonon_block_box_width",
    "phonon_n_block_updates", "dt", "L", "prodBlen", "nwraps", "nequil", "nsampl", "neqlt", "nuneqlt", "itime",
    "max_time"].map nm

theorem entries_keys (cv : Conv ℝ) (p : SimParams ℝ) : (entries cv p).map Prod.fst = keys := rfl

theorem keys_nodup : keys.Nodup := by decide +kernel

instance (w : List UInt8) : Decidable (Clean w) := by unfold Clean; infer_instance

theorem keys_clean : ∀ k ∈ keys, Clean k ∧ k.length ≤ 30 := by decide +kernel

/-- a list of values that fits the reader -/
def Good (ts : List Token) : Prop := (∀ t ∈ ts, Clean t ∧ t.length ≤ 900) ∧ ts.length ≤ 1024

/-- entries obey the limits of the reader -/
theorem entries_ok {cv : Conv ℝ} {p : SimParams ℝ} (hp : Writable p) :
    (∀ e ∈ entries cv p, ∀ t ∈ e.2, Clean t ∧ t.length ≤ 900) ∧ ∀ e ∈ entries cv p, e.2.length ≤ 1024 := by
  have hint : ∀ n, IsInt n → Good [intText n] := by
    intro n hn
    refine ⟨fun t ht => ?_, by simp⟩
    rw [List.mem_singleton.1 ht]
    exact ⟨intText_clean n, intText_length (by have := hn.1; omega) (by have := hn.2; omega)⟩
  have hreal : ∀ x, Good [realText cv x] := by
    intro x
    refine ⟨fun t ht => ?_, by simp⟩
    rw [List.mem_singleton.1 ht]
    exact realText_clean cv x
  have hNorb := hp.ints p.Norb (by simp)
  have hpos := hp.pos
  have hhop : ∀ t, HopArray p.Norb t → Good (hopTokens cv p.Norb t (support p.Norb t).toList) := by
    intro t ht
    constructor
    · intro s hs
      obtain ⟨k, hk, hs⟩ := List.mem_flatMap.1 hs
      rw [Finset.mem_toList, support, Finset.mem_filter, Finset.mem_Ico] at hk
      obtain ⟨-, a1, a2, b1, b2⟩ := (index_split hk.1.1 hk.1.2).resolve_right (by omega)
      have := hNorb.2
      simp only [List.mem_cons, List.not_mem_nil, or_false] at hs
      rcases hs with rfl | rfl | rfl
      · exact ⟨intText_clean _, intText_length (by omega) (by omega)⟩
      · exact ⟨intText_clean _, intText_length (by omega) (by omega)⟩
      · exact realText_clean cv _
    · rw [hopTokens_length, Finset.length_toList]
      have h1 : ((support p.Norb t : Finset ℤ) : Set ℤ) = {k | t k ≠ 0} := by
        ext k
        simp only [support, Finset.coe_filter, Finset.mem_Ico, Set.mem_ofPred_eq]
        refine ⟨fun h => h.2, fun h => ⟨?_, h⟩⟩
        by_contra hb
        exact h (ht.outside k hb)
      have h2 := ht.few
      rw [← h1, Set.ncard_coe_finset] at h2
      omega
  have horb : ∀ u, OrbArray p.Norb u → Good (listTokens cv p.Norb u) := by
    intro u hu
    unfold listTokens
    split
    · simp [Good]
    · rename_i h
      constructor
      · intro s hs
        obtain ⟨k, -, rfl⟩ := List.mem_map.1 hs
        exact realText_clean cv _
      · have := hu.few.resolve_right h
        simp only [List.length_map, List.length_range]
        omega
  have hitime : Good [intText p.itime.toInt] := by
    refine ⟨fun t ht => ?_, by simp⟩
    rw [List.mem_singleton.1 ht]
    have h1 := BitVec.le_toInt p.itime
    have h2 := BitVec.toInt_lt (x := p.itime)
    exact ⟨intText_clean _, intText_length h1 h2⟩
  have hbool : Good [if p.usePhonons then nm "true" else nm "false"] := by
    refine ⟨fun t ht => ?_, by simp⟩
    rw [List.mem_singleton.1 ht]
    split <;> decide +kernel
  have hall : ∀ e ∈ entries cv p, Good e.2 := by
    have hi := hp.ints
    have hh := hp.hops
    have ho := hp.orbs
    simp only [List.forall_mem_cons] at hi hh ho
    unfold entries
    simp only [List.forall_mem_cons]
    refine ⟨hint _ hi.1, hint _ hi.2.1, hint _ hi.2.2.1, hint _ hi.2.2.2.1, hhop _ hh.1, hhop _ hh.2.1,
      hhop _ hh.2.2.1, hhop _ hh.2.2.2.1, hhop _ hh.2.2.2.2.1, horb _ ho.1, horb _ ho.2.1, hreal _, hbool,
      horb _ ho.2.2.1, horb _ ho.2.2.2.1, hreal _, hint _ hi.2.2.2.2.1, hreal _, hint _ hi.2.2.2.2.2.1, hreal _,
      hint _ hi.2.2.2.2.2.2.1, hint _ hi.2.2.2.2.2.2.2.1, hint _ hi.2.2.2.2.2.2.2.2.1, hint _ hi.2.2.2.2.2.2.2.2.2.1,
      hint _ hi.2.2.2.2.2.2.2.2.2.2.1, hint _ hi.2.2.2.2.2.2.2.2.2.2.2.1, hint _ hi.2.2.2.2.2.2.2.2.2.2.2.2.1,
      hitime, hint _ hi.2.2.2.2.2.2.2.2.2.2.2.2.2.1, ?_⟩
    intro x hx; cases hx
  exact ⟨fun e he => (hall e he).1, fun e he => (hall e he).2⟩

/-- C102: every set of parameters made of `int`s and finite doubles, with at most 341 non-zero hoppings of each kind
and at most 1024 orbitals with individual values, is given by some file, whatever the parameters were before. -/
theorem parse_complete {rnd : ℝ → ℝ} (hr : Random.RoundsToNearest rnd) {cv : Conv ℝ} (hcv : Std rnd cv)
    (p : SimParams ℝ) (hp : Writable p) : ∃ file : List UInt8, ∀ p0, parse cv (some file) p0 = some (0, p) := by
  obtain ⟨ht, hl⟩ := entries_ok (cv := cv) hp
  obtain ⟨h1, h2, h3⟩ := table_linesOf (entries cv p) (by rw [entries_keys]; exact keys_nodup)
    (fun e he => keys_clean e.1 (by rw [← entries_keys cv p]; exact List.mem_map_of_mem he)) ht hl
  refine ⟨fileOf (linesOf (entries cv p)), fun p0 => ?_⟩
  obtain ⟨t, h4, h5⟩ := readTable_spec_partial _ h1 h2
  simp only [parse, h4, Option.map_some]
  have hget : ∀ k ts, (k, ts) ∈ entries cv p → HashTable.get t k = rep ts := by
    intro k ts hk
    rw [h5, h3 k ts hk]; rfl
  have hint : ∀ n, IsInt n → cv.atoi (first [intText n]) = n := fun n hn => hcv.atoi _ _ (atoi_intText hn.1 hn.2)
  have hreal : ∀ x, IsDouble x → cv.atof (first [realText cv x]) = x := fun x hx => realText_spec hr hcv hx
  have hi := hp.ints
  have hd := hp.doubles
  have hh := hp.hops
  have ho := hp.orbs
  have hpos := hp.pos
  simp only [List.forall_mem_cons] at hi hd hh ho
  obtain ⟨i1, i2, i3, i4, i5, i6, i7, i8, i9, i10, i11, i12, i13, i14, -⟩ := hi
  obtain ⟨d1, d2, d3, d4, -⟩ := hd
  obtain ⟨t1, t2, t3, t4, t5, -⟩ := hh
  obtain ⟨o1, o2, o3, o4, -⟩ := ho
  have hhop : ∀ a, HopArray p.Norb a → optList (rep (hopTokens cv p.Norb a (support p.Norb a).toList))
      (readHoppings cv p.Norb) (fun _ => 0) = (0, a) :=
    fun a ha => hop_read hr hcv hpos i1.2 a ha.double ha.outside
  have horb : ∀ u, OrbArray p.Norb u → optList (rep (listTokens cv p.Norb u)) (readList cv p.Norb) (fun _ => 0)
      = (0, u) := fun u hu => list_read hr hcv hpos u hu.double hu.outside
  have hrep : ∀ a : Token, rep [a] = some [a] := fun a => by simp [rep]
  have hitime : BitVec.ofInt 64 (cv.atoll (first [intText p.itime.toInt])) = p.itime := by
    show BitVec.ofInt 64 (cv.atoll (intText p.itime.toInt)) = p.itime
    rw [hcv.atoll _ _ (atoll_intText (BitVec.le_toInt p.itime) (BitVec.toInt_lt (x := p.itime))), BitVec.ofInt_toInt]
  have hbool : ∀ old, readBool (some [if p.usePhonons then nm "true" else nm "false"]) old = p.usePhonons := by
    intro old
    have e1 : nm "false" ≠ nm "true" := by decide +kernel
    have e2 : nm "false" ≠ nm "1" := by decide +kernel
    cases p.usePhonons <;> simp [readBool, first, e1, e2]
  have mem : ∀ e, e ∈ entries cv p → HashTable.get t e.1 = rep e.2 := fun e he => hget e.1 e.2 he
  unfold entries at mem
  simp only [List.forall_mem_cons] at mem
  obtain ⟨g1, g2, g3, g4, g5, g6, g7, g8, g9, g10, g11, g12, g13, g14, g15, g16, g17, g18, g19, g20, g21, g22, g23, g24,
    g25, g26, g27, g28, g29, -⟩ := mem
  unfold interpret
  simp only [g1, g2, g3, g4, g5, g6, g7, g8, g9, g10, g11, g12, g13, g14, g15, g16, g17, g18, g19, g20, g21, g22, g23,
    g24, g25, g26, g27, g28, g29, hrep, hint _ i1, not_le.2 hpos, if_false, allocateParams, hhop _ t1, hhop _ t2,
    hhop _ t3, hhop _ t4, hhop _ t5, horb _ o1, horb _ o2, horb _ o3, horb _ o4, scalar, hint _ i2, hint _ i3,
    hint _ i4, hint _ i5, hint _ i6, hint _ i7, hint _ i8, hint _ i9, hint _ i10, hint _ i11, hint _ i12, hint _ i13,
    hint _ i14, hreal _ d1, hreal _ d2, hreal _ d3, hreal _ d4, hitime, hbool, ne_eq, not_true_eq_false]

/-! ## The limits -/

/-- no list of the table has more than 1024 values -/
theorem addLine_limit {t t' : Table (List Token)} {buf : List UInt8} (h : addLine t buf = some t')
    (ht : ∀ k l, HashTable.get t k = some l → l.length ≤ 1024) :
    ∀ k l, HashTable.get t' k = some l → l.length ≤ 1024 := by
  have hins : ∀ (w : Key) (a b : List Token) (t' : Table (List Token)),
      ((appendValues a b).map fun l => (HashTable.insert t w l).1) = some t' →
      ∀ k l, HashTable.get t' k = some l → l.length ≤ 1024 := by
    intro w a b t' h k l hk
    unfold appendValues at h
    split at h
    · rename_i hlen
      simp only [Option.map_some, Option.some.injEq] at h
      subst h
      rw [HashTable.get_insert] at hk
      split at hk
      · obtain rfl := Option.some.inj hk
        rwa [List.length_append]
      · exact ht k l hk
    · cases h
  unfold addLine at h
  split at h
  · obtain rfl := Option.some.inj h; exact ht
  · obtain rfl := Option.some.inj h; exact ht
  · split at h
    · exact hins _ _ _ _ h
    · exact hins _ _ _ _ h

theorem readTable_limit {file : List UInt8} {t : Table (List Token)} (h : readTable file = some t) :
    ∀ k l, HashTable.get t k = some l → l.length ≤ 1024 := by
  have gen : ∀ (ls : List (List UInt8)) (t0 t : Table (List Token)), ls.foldlM addLine t0 = some t →
      (∀ k l, HashTable.get t0 k = some l → l.length ≤ 1024) →
      ∀ k l, HashTable.get t k = some l → l.length ≤ 1024 := by
    intro ls
    induction ls with
    | nil => intro t0 t h h0; obtain rfl := Option.some.inj h; exact h0
    | cons b ls ih =>
      intro t0 t h h0
      rw [List.foldlM_cons] at h
      cases h1 : addLine t0 b with
      | none => rw [h1] at h; cases h
      | some t1 =>
        rw [h1] at h
        exact ih t1 t h (addLine_limit h1 h0)
  exact gen _ _ _ h fun k l hk => by cases hk

variable {F : Type}

/-- a list of `3 m` values sets at most `m` entries -/
theorem readHopLoop_limit [Zero F] (cv : Conv F) (Norb : ℤ) (m : ℕ) : ∀ (list : List Token) (t : ℤ → F) (S : Finset ℤ),
    list.length ≤ 3 * m + 2 → (∀ k, k ∉ S → t k = 0) →
    ∃ S' : Finset ℤ, S'.card ≤ S.card + m ∧ ∀ k, k ∉ S' → (readHopLoop cv Norb list t).2 k = 0 := by
  induction m with
  | zero =>
    intro list t S hl hS
    refine ⟨S, by simp, ?_⟩
    match list with
    | [] => simpa [readHopLoop] using hS
    | [_] => simpa [readHopLoop] using hS
    | [_, _] => simpa [readHopLoop] using hS
    | _ :: _ :: _ :: _ => simp at hl
  | succ m ih =>
    intro list t S hl hS
    match list with
    | [] => exact ⟨S, by simp, by simpa [readHopLoop] using hS⟩
    | [_] => exact ⟨S, by simp, by simpa [readHopLoop] using hS⟩
    | [_, _] => exact ⟨S, by simp, by simpa [readHopLoop] using hS⟩
    | a :: b :: v :: rest =>
      rw [readHopLoop]
      split
      · exact ⟨S, by omega, hS⟩
      · obtain ⟨S', h1, h2⟩ := ih rest (Function.update t (cv.atoi a + Norb * cv.atoi b) (cv.atof v))
          (insert (cv.atoi a + Norb * cv.atoi b) S) (by simp at hl; omega) (fun k hk => by
            rw [Finset.mem_insert, not_or] at hk
            rw [Function.update_of_ne hk.1]
            exact hS k hk.2)
        exact ⟨S', h1.trans (by have := Finset.card_insert_le (cv.atoi a + Norb * cv.atoi b) S; omega), h2⟩

theorem hop_limit [Zero F] (cv : Conv F) (Norb : ℤ) (o : Option (List Token)) (ho : ∀ l, o = some l → l.length ≤ 1024) :
    {k | (optList o (readHoppings cv Norb) (fun _ => (0 : F))).2 k ≠ 0}.ncard ≤ 341 := by
  have key : ∃ S : Finset ℤ, S.card ≤ 341 ∧
      ∀ k, k ∉ S → (optList o (readHoppings cv Norb) (fun _ => (0 : F))).2 k = 0 := by
    match o, ho with
    | none, _ => exact ⟨∅, by simp, fun _ _ => rfl⟩
    | some l, ho =>
      have hl := ho l rfl
      simp only [optList, readHoppings]
      split
      · exact ⟨∅, by simp, fun _ _ => rfl⟩
      · rename_i h3
        obtain ⟨S, h1, h2⟩ := readHopLoop_limit cv Norb 341 l (fun _ => (0 : F)) ∅ (by omega) (fun _ _ => rfl)
        exact ⟨S, by simpa using h1, h2⟩
  obtain ⟨S, h1, h2⟩ := key
  have hsub : {k | (optList o (readHoppings cv Norb) (fun _ => (0 : F))).2 k ≠ 0} ⊆ (S : Set ℤ) := by
    intro k hk
    by_contra hn
    exact hk (h2 k hn)
  exact (Set.ncard_le_ncard hsub S.finite_toSet).trans (by rw [Set.ncard_coe_finset]; exact h1)

theorem orb_limit [Zero F] (cv : Conv F) (Norb : ℤ) (o : Option (List Token)) (ho : ∀ l, o = some l → l.length ≤ 1024) :
    Norb ≤ 1024 ∨ ∀ k, (optList o (readList cv Norb) (fun _ => (0 : F))).2 k = 0 := by
  match o, ho with
  | none, _ => exact Or.inr fun _ => rfl
  | some l, ho =>
    have hl := ho l rfl
    simp only [optList, readList]
    split
    · exact Or.inr fun _ => rfl
    · left; omega

/-- C102: whatever the file and the conversions: parameters that have been read have at most 341 non-zero hoppings of
each kind, and with more than 1024 orbitals `U`, `eps`, `phonon_omega` and `phonon_g` are zero. -/
theorem parse_limits [Zero F] (cv : Conv F) (file : List UInt8) (p0 p : SimParams F)
    (h : parse cv (some file) p0 = some (0, p)) :
    (∀ t ∈ [p.t.aa, p.t.ab, p.t.ac, p.t.ad, p.t.bc], {k | t k ≠ 0}.ncard ≤ 341) ∧
    ∀ u ∈ [p.U, p.eps, p.phonon.omega, p.phonon.g], p.Norb ≤ 1024 ∨ ∀ k, u k = 0 := by
  unfold parse at h
  cases ht : readTable file with
  | none => simp [ht] at h
  | some t =>
    simp only [ht, Option.map_some, Option.some.injEq] at h
    have hlim := readTable_limit ht
    generalize hg : HashTable.get t = get at h hlim
    have hop := fun Norb n => hop_limit cv Norb (get n) (hlim n)
    have orb := fun Norb n => orb_limit cv Norb (get n) (hlim n)
    unfold interpret at h
    split at h
    · cases h
    · rename_i l hl
      generalize cv.atoi (first l) = Norb at h
      simp only [allocateParams] at h
      have drop : ∀ {c : Prop} [Decidable c] {x : ℤ} {a : SimParams F} {y : ℤ × SimParams F},
          (if c then (x, a) else y) = (0, p) → x ≠ 0 → y = (0, p) := by
        intro c _ x a y h hx
        split at h
        · exact absurd (Prod.ext_iff.1 h).1 hx
        · exact h
      replace h := drop h (by norm_num)
      repeat replace h := drop h (by norm_num)
      obtain rfl := (Prod.ext_iff.1 h).2
      simp only [List.forall_mem_cons]
      refine ⟨⟨hop _ _, hop _ _, hop _ _, hop _ _, hop _ _, ?_⟩, orb _ _, orb _ _, orb _ _, orb _ _, ?_⟩
      · intro x hx; cases hx
      · intro x hx; cases hx

/-! ## Errors that are not reported -/

/-- C102: a word for `mu` that does not start like a number (and is not "inf…", "nan…") is accepted and read as zero.
(The same holds for all other real parameters, and for integers by `strtol_junk`.) -/
theorem junk_accepted {rnd : ℝ → ℝ} (hr : Random.RoundsToNearest rnd) {cv : Conv ℝ} (hcv : Std rnd cv)
    (file : List UInt8) (hs : ShortLines file) (hc : ∀ name, (valuesIn name file).length ≤ 1024) (w : Token)
    (hw : (valuesIn (ascii "mu") file).head? = some w)
    (hj : ∀ c ∈ w.head?, isDigit c = false ∧ isSpace c = false ∧ c ≠ 45 ∧ c ≠ 43 ∧ c ≠ 46 ∧ lower c ≠ 105 ∧ lower c ≠ 110)
    (p0 p : SimParams ℝ) (h : parse cv (some file) p0 = some (0, p)) : p.mu = 0 := by
  obtain ⟨-, st, q, h1, -, h3⟩ := parse_spec cv file p0 hs hc
  rw [h] at h1
  obtain ⟨rfl, rfl⟩ := Prod.ext_iff.1 (Option.some.inj h1)
  have hmu := (h3 rfl).mu
  have h0 : (0 : ℝ) ∈ Random.Binary64 := ⟨0, 0, by norm_num, by norm_num, by simp⟩
  have hz : cv.atof w = 0 := by
    rw [hcv.atof w 0 (strtod_junk w hj) (by
      rw [Rat.cast_zero, abs_zero, sub_pos]
      exact pow_lt_pow_right₀ (by norm_num) (by norm_num)), Rat.cast_zero, Random.rnd_self hr h0]
  simp only at hmu
  rw [hmu, orOld, hw, Option.map_some, Option.getD_some, hz]

/-- integers in scientific notation are cut at the letter, fractions at the point: "1e4" measurement steps are one -/
example : atoi (ascii "1e4") = some 1 ∧ atoi (ascii "4.7") = some 4 ∧ atoi (ascii "six") = some 0 ∧
    atoi (ascii "2147483648") = none ∧ atoll (ascii "-17") = some (-17) := by decide +kernel

/-- numbers as in the sample input -/
example : strtod (ascii "1.0") = some 1 ∧ strtod (ascii "0.05") = some (1 / 20) ∧ strtod (ascii "-1.13") = some (-113 / 100) ∧
    strtod (ascii "4") = some 4 ∧ strtod (ascii "2.5e-3") = some (1 / 400) ∧ strtod (ascii ".5E+1") = some 5 ∧
    strtod (ascii "abc") = some 0 ∧ strtod (ascii "infinity") = none ∧ strtod (ascii "1e") = some 1 := by
  decide +kernel

/-! ## The hypotheses can be met -/

/-- non-vacuity: the C library of the model -/
theorem std_exists (rnd : ℝ → ℝ) : ∃ cv : Conv ℝ, Std rnd cv :=
  ⟨⟨fun s => (atoi s).getD 0, fun s => (atoll s).getD 0, fun s => ((strtod s).map fun q => rnd q).getD 0⟩,
    fun s n h => by simp [h], fun s n h => by simp [h], fun s q h _ => by simp [h]⟩

theorem isDouble_nat {n : ℕ} (h : n < 2 ^ 53) : IsDouble n := by
  refine ⟨⟨n, 0, by rw [abs_of_nonneg (by omega)]; exact_mod_cast h, by norm_num, by simp⟩, ?_⟩
  rw [abs_of_nonneg (by positivity)]
  have h1 : (n : ℝ) < 2 ^ 53 := by exact_mod_cast h
  exact h1.trans (pow_lt_pow_right₀ (by norm_num) (by norm_num))

/-- non-vacuity: parameters of two orbitals with interaction, hopping and phonons -/
example : ∃ p : SimParams ℝ, Writable p ∧ p.Norb = 2 ∧ p.U 1 = 5 ∧ p.t.ab (0 + 2 * 1) = 3 ∧ p.usePhonons = true := by
  have hd : ∀ (n : ℕ), n < 2 ^ 53 → ∀ (a k : ℤ), IsDouble (if k = a then (n : ℝ) else 0) := by
    intro n hn a k
    split
    · exact isDouble_nat hn
    · have := isDouble_nat (n := 0) (by norm_num)
      simpa using this
  have hz : IsDouble 0 := by simpa using isDouble_nat (n := 0) (by norm_num)
  have hhop : ∀ (n : ℕ) (a : ℤ), n < 2 ^ 53 → 0 ≤ a → a < 4 → HopArray 2 (fun k => if k = a then (n : ℝ) else 0) := by
    intro n a hn h0 h4
    refine ⟨hd n hn a, fun k hk => if_neg (by rintro rfl; omega), ?_⟩
    have hsub : {k | (if k = a then (n : ℝ) else 0) ≠ 0} ⊆ {a} := by
      intro k hk
      by_contra hne
      exact hk (if_neg hne)
    exact (Set.ncard_le_ncard hsub (Set.finite_singleton a)).trans (by rw [Set.ncard_singleton]; norm_num)
  have horb : ∀ (n : ℕ) (a : ℤ), n < 2 ^ 53 → 0 ≤ a → a < 2 → OrbArray 2 (fun k => if k = a then (n : ℝ) else 0) :=
    fun n a hn h0 h2 => ⟨hd n hn a, fun k hk => if_neg (by rintro rfl; omega), Or.inl (by norm_num)⟩
  refine ⟨⟨2, 4, 4, 0, ⟨fun k => if k = 1 then (1 : ℕ) else 0, fun k => if k = 2 then (3 : ℕ) else 0,
      fun k => if k = 2 then (3 : ℕ) else 0, fun k => if k = 0 then (0 : ℕ) else 0, fun k => if k = 0 then (0 : ℕ) else 0⟩,
      fun k => if k = 1 then (5 : ℕ) else 0, fun k => if k = 0 then (2 : ℕ) else 0, 0, true,
      ⟨fun k => if k = 1 then (1 : ℕ) else 0, fun k => if k = 1 then (2 : ℕ) else 0, 0, 8, 0, 8⟩, 0, 8, 4, 4, 10, 10, 8, 0,
      1, 0⟩, ⟨by norm_num, ?_, ?_, ?_, ?_⟩, rfl, by norm_num, by norm_num, rfl⟩
  · simp only [List.forall_mem_cons]
    refine ⟨?_, ?_, ?_, ?_, ?_, ?_, ?_, ?_, ?_, ?_, ?_, ?_, ?_, ?_, ?_⟩
    all_goals first | exact ⟨by norm_num, by norm_num⟩ | (intro x hx; cases hx)
  · simp only [List.forall_mem_cons]
    refine ⟨hz, hz, hz, hz, ?_⟩
    intro x hx; cases hx
  · simp only [List.forall_mem_cons]
    refine ⟨hhop _ _ ?_ ?_ ?_, hhop _ _ ?_ ?_ ?_, hhop _ _ ?_ ?_ ?_, hhop _ _ ?_ ?_ ?_, hhop _ _ ?_ ?_ ?_, ?_⟩
    all_goals norm_num
  · simp only [List.forall_mem_cons]
    refine ⟨horb _ _ ?_ ?_ ?_, horb _ _ ?_ ?_ ?_, horb _ _ ?_ ?_ ?_, horb _ _ ?_ ?_ ?_, ?_⟩
    all_goals norm_num

end Verif.Params
