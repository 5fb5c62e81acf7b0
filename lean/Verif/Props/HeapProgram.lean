import Verif.Props.HeapParams

/-!
# C94: memory and files of the whole program

For every parameter file, every result of the decisions that depend on numbers, time, signals and
stored files, and every pattern of failing library functions, `main` releases nothing twice, and
accesses neither released nor unallocated resources.  If no library function fails, all that is left
at the end is one block per measurement of the phonons.
-/

set_option autoImplicit false

namespace Verif.Heap

open Verif.HashTable (Key Table)
open Verif.Params (SimParams Conv Token Admissible)

variable {F : Prop} {A : Multiset Res} {𝔽 : Type} [Zero 𝔽]

/-- `program`: with parameters `r` from the file -/
theorem program_spec [DecidableEq 𝔽] {cv : Conv 𝔽} {dbg : Bool} {file : Option (List UInt8)}
    {p₀ : SimParams 𝔽} {r : ℤ × SimParams 𝔽} (h : Params.parse cv file p₀ = some r)
    (hn : r.1 = 0 → Admissible r.2 → r.2.usePhonons = true → r.2.neqlt ≠ 0) :
    Spec F A (program cv dbg false file p₀) (fun o B =>
      (r.1 < 0 → o.code = -1) ∧ (r.1 = 0 → ¬ Admissible r.2 → o.code = -2) ∧
      (r.1 = 0 → Admissible r.2 → F → o.code = -6 ∨ o.code = 0 ∨ o.code = 1) ∧
      (0 ≤ o.code → o.first ≤ o.last ∧ o.last ≤ max o.first (r.2.nequil + r.2.nsampl) ∧
        ∃ K, B = A + K ∧ (F → K.card = phononMeasurements r.2 o.first o.last))) := by
  refine Spec.duprintf (by simp) (Spec.bind (parse_spec h) ?_)
  rintro o B ⟨h1, h2, h3, h4, -⟩
  rw [h1]
  split
  · rename_i hr
    refine Spec.duprintf (by simp) (Spec.pure ⟨fun _ => rfl, ?_, ?_, ?_⟩)
    · intro h; omega
    · intro h; omega
    · intro h
      dsimp only at h
      omega
  rename_i hr
  have hr0 : r.1 = 0 := by omega
  obtain ⟨pp, hpp, rfl⟩ := h4 hr0
  refine Spec.deref hpp (Spec.use (by simp [ParamPtrs.list]) ?_)
  rw [h2]
  have hv := Params.validate_iff r.2
  split
  · rename_i hneg
    refine Spec.duprintf (by simp) (Spec.pure ⟨fun h => by omega, fun _ _ => rfl, fun _ ha => ?_, ?_⟩)
    · rw [hv.1.2 ha] at hneg
      omega
    · intro h
      dsimp only at h
      omega
  rename_i hneg
  have ha : Admissible r.2 := by
    by_contra hc
    rw [hv.2 hc] at hneg
    omega
  refine Spec.duprintf (by simp) (Spec.fails (fun hF => ?_) ?_)
  · simp only [if_true]
    refine Spec.duprintf (by simp) (Spec.pure ⟨fun h => by omega, fun _ hc => absurd ha hc,
      fun _ _ h => absurd h hF, ?_⟩)
    intro h
    dsimp only at h
    omega
  · simp only [Bool.false_eq_true, if_false]
    refine Spec.openFd fun l => ?_
    refine (setup_spec ⟨?_, ?_, ?_⟩ (hn hr0 ha)).conseq ?_
    · have := ha.l
      omega
    · have := ha.prodBlen
      omega
    · have h1 := ha.l
      have h2 := ha.prodBlen
      have h3 := ha.dvdL
      rw [← Int.toNat_of_nonneg h1.le, ← Int.toNat_of_nonneg h2.le] at h3
      exact_mod_cast h3
    · rintro o' B ⟨g1, g2⟩
      exact ⟨fun h => by omega, fun _ hc => absurd ha hc, fun _ _ hF => g1 hF, g2⟩

/-- start of the program: nothing has been allocated -/
def start (orc : ℕ → ℤ) (lib : ℕ → Bool) : World := ⟨0, 0, orc, lib⟩

theorem start_fresh (orc : ℕ → ℤ) (lib : ℕ → Bool) : (start orc lib).Fresh :=
  ⟨Multiset.nodup_zero, fun r hr => absurd hr (Multiset.notMem_zero r)⟩

/-- **C94, no misuse of memory**: every run of the program that reads a parameter file without an overlong
list of values is defined, that is, without double release, use after release and use of unallocated
memory, whatever fails. -/
theorem program_defined [DecidableEq 𝔽] {cv : Conv 𝔽} {dbg : Bool} {file : Option (List UInt8)}
    {p₀ : SimParams 𝔽} {r : ℤ × SimParams 𝔽} (h : Params.parse cv file p₀ = some r)
    (hn : r.1 = 0 → Admissible r.2 → r.2.usePhonons = true → r.2.neqlt ≠ 0) (orc : ℕ → ℤ) (lib : ℕ → Bool) :
    ∃ o w, program cv dbg false file p₀ (start orc lib) = some (o, w) ∧
      (r.1 < 0 → o.code = -1) ∧ (r.1 = 0 → ¬ Admissible r.2 → o.code = -2) := by
  obtain ⟨o, w, h1, -, h2, -⟩ := program_spec (F := False) (dbg := dbg) h hn (start orc lib)
    (start_fresh orc lib) rfl False.elim
  exact ⟨o, w, h1, h2.1, h2.2.1⟩

/-- **C94, balance**: if no library function fails, then a run that reaches the end has released
everything except one block for each time slice at which phonons were measured. -/
theorem program_balance [DecidableEq 𝔽] {cv : Conv 𝔽} {dbg : Bool} {file : Option (List UInt8)}
    {p₀ : SimParams 𝔽} {r : ℤ × SimParams 𝔽} (h : Params.parse cv file p₀ = some r)
    (hn : r.1 = 0 → Admissible r.2 → r.2.usePhonons = true → r.2.neqlt ≠ 0) {orc : ℕ → ℤ} {lib : ℕ → Bool}
    (hl : ∀ n, lib n = false) {o : Out} {w : World}
    (hrun : program cv dbg false file p₀ (start orc lib) = some (o, w)) :
    (r.1 = 0 → Admissible r.2 → o.code = -6 ∨ o.code = 0 ∨ o.code = 1) ∧
    (0 ≤ o.code → o.first ≤ o.last ∧ o.last ≤ max o.first (r.2.nequil + r.2.nsampl) ∧
      w.live.card = phononMeasurements r.2 o.first o.last) := by
  obtain ⟨o', w', h1, -, ⟨-, -, h2, h3⟩, -⟩ := program_spec (F := True) (dbg := dbg) h hn (start orc lib)
    (start_fresh orc lib) rfl (fun _ => hl)
  rw [hrun] at h1
  cases h1
  refine ⟨fun a b => h2 a b trivial, fun h => ?_⟩
  obtain ⟨a, b, K, hB, hK⟩ := h3 h
  refine ⟨a, b, ?_⟩
  rw [hB]
  show (0 + K).card = _
  rw [zero_add, hK trivial]

/-- **C94, no leak without phonons** -/
theorem program_noLeak [DecidableEq 𝔽] {cv : Conv 𝔽} {dbg : Bool} {file : Option (List UInt8)}
    {p₀ : SimParams 𝔽} {r : ℤ × SimParams 𝔽} (h : Params.parse cv file p₀ = some r)
    (hp : r.2.usePhonons = false) {orc : ℕ → ℤ} {lib : ℕ → Bool} (hl : ∀ n, lib n = false) {o : Out} {w : World}
    (hrun : program cv dbg false file p₀ (start orc lib) = some (o, w)) (ho : 0 ≤ o.code) : w.live = 0 := by
  have := ((program_balance h (fun _ _ hc => by rw [hp] at hc; cases hc) hl hrun).2 ho).2.2
  rw [phononMeasurements, hp] at this
  exact Multiset.card_eq_zero.1 this

/-- **C94, the leak with phonons**: a run from the start to the end of the iterations with phonons
loses `nsampl * (L / neqlt)` blocks. -/
theorem program_phonon_leak [DecidableEq 𝔽] {cv : Conv 𝔽} {dbg : Bool} {file : Option (List UInt8)}
    {p₀ : SimParams 𝔽} {r : ℤ × SimParams 𝔽} (h : Params.parse cv file p₀ = some r)
    (hp : r.2.usePhonons = true) (hq : 0 < r.2.neqlt) (he : 0 ≤ r.2.nequil) (hs : 0 ≤ r.2.nsampl)
    {orc : ℕ → ℤ} {lib : ℕ → Bool} (hl : ∀ n, lib n = false) {o : Out} {w : World}
    (hrun : program cv dbg false file p₀ (start orc lib) = some (o, w)) (ho : 0 ≤ o.code)
    (h0 : o.first = 0) (h1 : o.last = r.2.nequil + r.2.nsampl) :
    w.live.card = r.2.nsampl.toNat * (r.2.L.toNat / r.2.neqlt.toNat) := by
  have := ((program_balance h (fun _ _ _ => by omega) hl hrun).2 ho).2.2
  rw [this, phononMeasurements, hp, if_pos rfl, slicesMeasured, if_pos hq, h0, h1]
  congr 1
  omega

/-- C94: the overflow of a list of values in the parser makes the run undefined -/
theorem program_undef [DecidableEq 𝔽] {cv : Conv 𝔽} {dbg late : Bool} {file : Option (List UInt8)}
    {p₀ : SimParams 𝔽} (h : Params.parse cv file p₀ = none) (orc : ℕ → ℤ) (lib : ℕ → Bool) :
    program cv dbg late file p₀ (start orc lib) = none := by
  have : Undef False 0 (program cv dbg late file p₀) :=
    Spec.bind_undef (R := fun _ B => B = 0) (Spec.duprintf' (by simp)) (by
      rintro - _ rfl
      exact Undef.bind (parse_undef h))
  exact this _ (start_fresh orc lib) rfl False.elim

/-! ## Signals after the log file has been closed -/

variable {α β : Type}

/-- every defined outcome meets `P` -/
def Post (A : Multiset Res) (m : Mem α) (P : α → Prop) : Prop :=
  ∀ w : World, w.Fresh → w.live = A → ∀ a w', m w = some (a, w') → P a

theorem Spec.post {R : β → Multiset Res → Prop} {m : Mem β} {k : β → Mem α} {P : α → Prop}
    (hm : Spec False A m R) (hk : ∀ a B, R a B → Post B (k a) P) : Post A (m >>= k) P := by
  intro w hw hA a w' h
  obtain ⟨b, w₁, h1, h2, h3, -⟩ := hm w hw hA False.elim
  have h' : (m w).bind (fun r => k r.1 r.2) = some (a, w') := h
  rw [h1] at h'
  exact hk b w₁.live h3 w₁ h2 rfl a w' h'

theorem Post.pure {P : α → Prop} {a : α} (h : P a) : Post A (pure a : Mem α) P := by
  intro w _ _ b w' hb
  cases hb
  exact h

theorem Post.of_eq {B : Multiset Res} {P : α → Prop} {m : Mem α} (h : A = B) (hm : Post B m P) : Post A m P :=
  h ▸ hm

theorem Undef.post {P : α → Prop} {m : Mem α} (h : Undef False A m) : Post A m P := by
  intro w hw hA a w' hm
  rw [h w hw hA False.elim] at hm
  cases hm

omit [Zero 𝔽] in
theorem cleanup_late {l s : Res} {p : SimParams 𝔽} {pp : ParamPtrs} {m : Data} {f : Option Phon}
    {R : Multiset Res} (hr : Ready p m) :
    Undef False (held l s m f pp R) (cleanup l true p pp m s f) := by
  have hl : ∀ R, ∀ g ∈ some l, g ∈ held l s m f pp R := fun R g hg => by
    rw [← Option.some_injective _ hg]
    simp [held]
  have heq : ∀ R, Has (held l s m f pp R) m.eq.list := fun R q hq => by simp [held, hq]
  refine Spec.bind_undef (writeAll_quiet (hl _) (eqFiles_live (heq _))) ?_
  rintro - _ ⟨K, rfl, -⟩
  rw [zero_add, held_add]
  refine Spec.bind_undef (R := fun _ B => ∃ K', B = held l s m f pp (R + K + K')) (withUneq_spec hr
    (fun _ => ⟨0, by simp⟩) fun mu hmu => (writeAll_quiet (F := False) (hl _) (uneqFiles_live ?_)).conseq ?_) ?_
  · intro q hq
    simp [held, hmu, uneqOwn, hq]
  · rintro - _ ⟨K', rfl, -⟩
    exact ⟨K', by rw [zero_add, held_add]⟩
  rintro - _ ⟨K', rfl⟩
  refine Spec.bind_undef (R := fun _ B => ∃ K'', B = held l s m f pp (R + K + K' + K'')) (withPh_spec hr
    (fun _ => ⟨0, by simp⟩) fun mp hmp => (writeAll_quiet (F := False) (hl _) (phFiles_live ?_)).conseq ?_) ?_
  · intro q hq
    simp [held, hmp, phOwn, hq]
  · rintro - _ ⟨K'', rfl, -⟩
    exact ⟨K'', by rw [zero_add, held_add]⟩
  rintro - _ ⟨K'', rfl⟩
  refine Spec.bind_undef (Spec.duprintf' (hl _)) ?_
  rintro - _ rfl
  intro w hw hA _
  have hn : l ∉ (held l s m f pp (R + K + K' + K'')).erase l := (hA ▸ hw.1).notMem_erase
  refine Spec.bind_undef (F := False) (Spec.free' (hl _ _ rfl)) ?_ w hw hA False.elim
  rintro - _ rfl
  exact Undef.use hn

omit [Zero 𝔽] in
theorem run_late {l : Res} {dbg : Bool} {p : SimParams 𝔽} {pp : ParamPtrs} {m : Data} {R : Multiset Res}
    (hs : Slices p) (hr : Ready p m) :
    Post (phOwn m.ph + (uneqOwn m.uneq + ((m.eq.list : Multiset Res) + (l ::ₘ
      ((pp.list : Multiset Res) + R))))) (run l dbg true p pp m) (fun o => o.code < 0) := by
  refine Spec.post Spec.alloc' ?_
  rintro s _ rfl
  set A : Multiset Res := s ::ₘ (phOwn m.ph + (uneqOwn m.uneq + ((m.eq.list : Multiset Res) + (l ::ₘ
      ((pp.list : Multiset Res) + R))))) with hA
  have hl : ∀ g ∈ some l, g ∈ A := fun g hg => by
    rw [← Option.some_injective _ hg]
    simp [hA]
  have hsA : s ∈ A := by simp [hA]
  have hm : Has A m.eq.list := fun q hq => by simp [hA, hq]
  have hpp : Has A pp.list := fun q hq => by simp [hA, hq]
  have hu : ∀ q ∈ uneqOwn m.uneq, q ∈ A := fun q hq => by simp [hA, hq]
  have hp : ∀ q ∈ phOwn m.ph, q ∈ A := fun q hq => by simp [hA, hq]
  refine Spec.post (startup_spec hl hr hsA hm hu) ?_
  rintro ⟨st, it⟩ _ ⟨⟨K, rfl, -⟩, -, -⟩
  dsimp only
  split
  · exact Post.pure ‹_›
  refine Spec.post (phononField_spec (hpp.add _)) ?_
  rintro f _ ⟨rfl, hf, hfl⟩
  have hl' : ∀ g ∈ some l, g ∈ fieldOwn f + (A + K) := log_add_left (log_add hl _) _
  have hu' : ∀ q ∈ uneqOwn m.uneq, q ∈ fieldOwn f + (A + K) := fun q hq => by simp [hu q hq]
  have hp' : ∀ q ∈ phOwn m.ph, q ∈ fieldOwn f + (A + K) := fun q hq => by simp [hp q hq]
  refine Spec.post (simulate_spec (it := it) hl' hs hr hf ((hpp.add _).add_left _) (by simp [hsA]) hfl
    ((hm.add _).add_left _) hu' hp') ?_
  rintro it' _ ⟨-, K', rfl, -⟩
  have hl'' := log_add hl' K'
  refine Spec.post (Spec.signalPoint' hl'') ?_
  rintro - _ rfl
  refine Spec.post (summarize_same hl'' hr (((hm.add _).add_left _).add _)
    (fun q hq => Multiset.mem_add.2 (Or.inl (hu' q hq))) (fun q hq => Multiset.mem_add.2 (Or.inl (hp' q hq)))) ?_
  rintro - _ rfl
  refine Spec.post (Spec.duprintf' hl'') ?_
  rintro - _ rfl
  refine Spec.post (saveCheckpoint_spec hl'' (by simp [hsA])) ?_
  rintro sv _ ⟨⟨K'', rfl, -⟩, -⟩
  split
  · refine Spec.post (Spec.duprintf' (log_add hl'' _)) ?_
    rintro - _ rfl
    exact Post.pure (show (-7 : ℤ) < 0 by decide)
  refine Spec.post (Spec.duprintf' (log_add hl'' _)) ?_
  rintro - _ rfl
  refine Undef.post (Undef.bind (Undef.of_eq ?_ (cleanup_late (l := l) (pp := pp) (s := s) (f := f)
    (R := R + (K + K' + K'')) hr)))
  rw [hA]
  simp only [held, ← Multiset.singleton_add]
  abel

omit [Zero 𝔽] in
theorem setup_late {l : Res} {dbg : Bool} {p : SimParams 𝔽} {pp : ParamPtrs} {R : Multiset Res}
    (hs : Slices p) (hn : p.usePhonons = true → p.neqlt ≠ 0) :
    Post (l ::ₘ ((pp.list : Multiset Res) + R)) (setup l dbg true p pp) (fun o => o.code < 0) := by
  refine Spec.post allocEq_spec ?_
  rintro eq _ rfl
  refine Spec.post (R := fun un B => (∃ K, B = uneqOwn un.2 + ((eq.list : Multiset Res) + (l ::ₘ
    ((pp.list : Multiset Res) + R)) + K)) ∧
    (un.1 = true → un.2.isSome = decide (p.nuneqlt > 0))) ?_ ?_
  · unfold allocUneqIf
    split
    · refine Spec.bind allocUneq_keeps ?_
      rintro r B ⟨⟨K, rfl, hK⟩, h⟩
      refine Spec.pure ⟨⟨K, rfl⟩, fun h' => ?_⟩
      rw [decide_eq_true ‹_›]
      exact h'
    · exact Spec.pure ⟨⟨0, by simp [uneqOwn]⟩, fun _ => by rw [decide_eq_false ‹_›]; rfl⟩
  rintro ⟨ok, un⟩ _ ⟨⟨K, rfl⟩, h2⟩
  dsimp only at h2 ⊢
  split
  · refine Spec.post (R := fun _ _ => True) ((Spec.duprintf' (fun g hg => ?_)).conseq fun _ _ _ => trivial)
      fun _ _ _ => Post.pure (by decide)
    rw [← Option.some_injective _ hg]
    simp
  rename_i hok
  have h2' := h2 (by simpa using hok)
  refine Spec.post (R := fun ph B => B = phOwn ph + (uneqOwn un + ((eq.list : Multiset Res) + (l ::ₘ
    ((pp.list : Multiset Res) + R)) + K)) ∧ ph.isSome = p.usePhonons) ?_ ?_
  · unfold allocPhIf
    split
    · rename_i hp
      rw [if_neg (hn hp)]
      refine Spec.bind allocPh_spec ?_
      rintro r _ rfl
      exact Spec.pure ⟨rfl, by rw [hp]; rfl⟩
    · rename_i hp
      exact Spec.pure ⟨by simp [phOwn], by simpa using hp⟩
  rintro ph _ ⟨rfl, h3⟩
  have := run_late (l := l) (dbg := dbg) (pp := pp) (R := R + K) (m := ⟨eq, un, ph⟩) hs ⟨h2', h3⟩
  refine Post.of_eq ?_ this
  simp only [← Multiset.singleton_add]
  abel

/-- **C94, signals**: the log file is closed (main.c:275) but the global variable `fd_log` keeps the
pointer and the signal handlers stay installed.  With a signal between the closing of the file and the
end, no run reaches the end in a defined way. -/
theorem program_late [DecidableEq 𝔽] {cv : Conv 𝔽} {dbg : Bool} {file : Option (List UInt8)}
    {p₀ : SimParams 𝔽} {r : ℤ × SimParams 𝔽} (h : Params.parse cv file p₀ = some r)
    (hn : r.1 = 0 → Admissible r.2 → r.2.usePhonons = true → r.2.neqlt ≠ 0) {orc : ℕ → ℤ} {lib : ℕ → Bool}
    {o : Out} {w : World} (hrun : program cv dbg true file p₀ (start orc lib) = some (o, w)) : o.code < 0 := by
  have key : Post 0 (program cv dbg true file p₀) (fun o => o.code < 0) := by
    refine Spec.post (Spec.duprintf' (by simp)) ?_
    rintro - _ rfl
    refine Spec.post (parse_spec h) ?_
    rintro o B ⟨h1, h2, h3, h4, -⟩
    rw [h1]
    split
    · refine Spec.post (Spec.duprintf' (by simp)) fun _ _ _ => Post.pure (by decide)
    rename_i hr
    have hr0 : r.1 = 0 := by omega
    obtain ⟨pp, hpp, rfl⟩ := h4 hr0
    rw [hpp]
    refine Spec.post (R := fun a B => a = pp ∧ B = (pp.list : Multiset Res) + 0) (Spec.pure ⟨rfl, rfl⟩) ?_
    rintro pp' _ ⟨hpp', rfl⟩
    rw [hpp']
    refine Spec.post (Spec.use' (by simp [ParamPtrs.list])) ?_
    rintro - _ rfl
    rw [h2]
    have hv := Params.validate_iff r.2
    split
    · refine Spec.post (Spec.duprintf' (by simp)) fun _ _ _ => Post.pure (by decide)
    rename_i hneg
    have ha : Admissible r.2 := by
      by_contra hc
      rw [hv.2 hc] at hneg
      omega
    refine Spec.post (Spec.duprintf' (by simp)) ?_
    rintro - _ rfl
    refine Spec.post Spec.fails' ?_
    rintro b _ rfl
    cases b with
    | true => exact Spec.post (Spec.duprintf' (by simp)) fun _ _ _ => Post.pure (by decide)
    | false =>
      simp only [Bool.false_eq_true, if_false]
      refine Spec.post Spec.openFd' ?_
      rintro l _ rfl
      refine setup_late ⟨?_, ?_, ?_⟩ (hn hr0 ha)
      · have := ha.l
        omega
      · have := ha.prodBlen
        omega
      · have h1 := ha.l
        have h2 := ha.prodBlen
        have h3 := ha.dvdL
        rw [← Int.toNat_of_nonneg h1.le, ← Int.toNat_of_nonneg h2.le] at h3
        exact_mod_cast h3
  exact key _ (start_fresh orc lib) rfl _ _ hrun

/-! ## What is lost when a library function fails -/

/-- C94: if the diagonalisation fails, `MatrixExp` (linalg.c:57-63) returns without releasing its two
blocks -/
theorem matrixExp_leak {M ret : Res} {w : World} (h1 : M ∈ w.live) (hf : w.lib 0 = true) :
    ∃ w', matrixExp none M ret w = some (1, w') ∧ w'.live.card = w.live.card + 2 := by
  refine ⟨_, by simp [matrixExp, alloc, uses, use, fails, duprintf, h1, hf, bind, pure]; rfl, ?_⟩
  simp

/-- C94: if the size of a file cannot be determined or is wrong, `ReadData` (util.c:26-31) leaves the
file open -/
theorem readData_leak {d : Option Res} {w : World} (h0 : w.lib 0 = false) (h1 : w.lib 1 = true) :
    ∃ w', readData none d w = some (-2, w') ∧ w'.live.card = w.live.card + 1 := by
  refine ⟨_, by simp [readData, openFd, use, fails, duprintf, h0, h1, bind, pure]; rfl, ?_⟩
  simp

/-- C94: after an error in the contents of the parameter file the hash table stays allocated -/
theorem parse_leak {cv : Conv 𝔽} {file : List UInt8} {p : SimParams 𝔽} {r : ℤ × SimParams 𝔽}
    (h : Params.parse cv (some file) p = some r) (hr : r.1 < 0) (orc : ℕ → ℤ) (lib : ℕ → Bool) :
    ∃ o w, parse cv (some file) p (start orc lib) = some (o, w) ∧ o.status = r.1 ∧ 0 < w.live.card := by
  obtain ⟨o, w, h1, -, ⟨h2, -, -, -, h5⟩, -⟩ := parse_spec (F := False) h (start orc lib)
    (start_fresh orc lib) rfl False.elim
  obtain ⟨K, hK, hc⟩ := h5 hr rfl
  refine ⟨o, w, h1, h2, ?_⟩
  rw [hK]
  show 0 < (K + 0).card
  rwa [add_zero]

/-! ## Profiler -/

/-- **C94, profiler**: `Profile_Start`, any sequence of `Profile_Begin` and `Profile_End` with any names,
and `Profile_Stop` leave memory as it was. -/
theorem profiler_same {lg : Option Res} (hl : ∀ f ∈ lg, f ∈ A) (calls : List (Profiler.Call × Key)) :
    Same F A (do let t ← profileStart; let t ← profileRun t calls; profileStop lg t : Mem Unit) := by
  refine Spec.bind (htAllocate_spec (vo := fun p => {p})) ?_
  rintro t _ ⟨ht, rfl⟩
  refine Spec.bind (profileRun_spec calls (by rw [ht]; decide)) ?_
  rintro t' _ ⟨-, rfl⟩
  exact profileStop_spec hl

/-! ## Examples -/

/-- a parameter file; what is not in it is as in `Params.exParams` -/
def exFile (phonons : String) : List UInt8 :=
  Params.ascii ("Norb 1\nL 4\nprodBlen 2\nnwraps 4\nnequil 1\nnsampl 2\nneqlt 2\nuse_phonons " ++ phonons)

/-- a machine on which nothing fails and no checkpoint is found -/
def exStart : World := start (fun _ => 2) fun _ => false

/-- summary of a run: code, first and last iteration, number of resources left and obtained -/
def report (r : Option (Out × World)) : Option (ℤ × ℤ × ℤ × ℕ × ℕ) :=
  r.map fun r => (r.1.code, r.1.first, r.1.last, r.2.live.card, r.2.next)

/-- non-vacuity: a run of three iterations obtains 298 resources and releases all of them -/
example : report (program Params.exConv false false (some (exFile "false")) Params.exParams exStart) =
    some (0, 0, 3, 0, 298) := by
  decide +kernel

/-- non-vacuity: the same with phonons; two of the iterations measure two time slices each -/
example : report (program Params.exConv false false (some (exFile "true")) Params.exParams exStart) =
    some (0, 0, 3, 4, 329) := by
  decide +kernel

/-- non-vacuity: the same with a signal after the log file has been closed -/
example : report (program Params.exConv false true (some (exFile "false")) Params.exParams exStart) =
    none := by
  decide +kernel

/-- non-vacuity of `program_defined`, `program_balance`, `program_phonon_leak`: the parameters -/
example : (Params.parse Params.exConv (some (exFile "true")) Params.exParams).map (fun r =>
    [r.1, Params.validate r.2, if r.2.usePhonons then 1 else 0, r.2.neqlt, r.2.nequil, r.2.nsampl, r.2.L]) =
    some [0, 0, 1, 2, 1, 2, 4] := by
  decide +kernel

/-- double release, use after release and use of memory that was never obtained are undefined -/
example : (do let p ← alloc; free p; free p : Mem Unit) exStart = none := by decide +kernel
example : (do let p ← alloc; free p; use p : Mem Unit) exStart = none := by decide +kernel
example : (do let p ← alloc; let q ← elem p [] 0; use q : Mem Unit) exStart = none := by decide +kernel

end Verif.Heap
