import Verif.Lemmas.RngMap
import Verif.Lemmas.PhononDefined
import Verif.Props.Period

/-!
# Simulations whose generator is in a non-zero state

The retry loops of the generator end in every state with a non-zero word (`boundedUint_terminates`),
and such states are never left.  The generator restricted to these states is a generator whose
operations are always defined; simulations with it are simulations with the full generator.
-/

set_option autoImplicit false

namespace Verif.MonteCarlo

open Matrix Verif.Lapack Verif.TimeFlow Verif.Greens Verif.Stratonovich Verif.Random Verif.Files

variable {σ : Type} {N : ℕ} {M : Type}

/-- the states `P` are never left -/
structure Rng.Keeps (R : Rng σ) (P : σ → Prop) : Prop where
  uniform : ∀ a, P a → P (R.uniform a).2
  shuffle : ∀ N a r, P a → R.shuffle N a = some r → P r.2
  site : ∀ N a r, P a → R.site N a = some r → P r.2

/-- a result with its proof -/
def withProof {α : Type} {P : σ → Prop} : (o : Option (α × σ)) → (∀ r, o = some r → P r.2) →
    Option (α × {a : σ // P a})
  | none, _ => none
  | some r, h => some (r.1, ⟨r.2, h r rfl⟩)

theorem withProof_map {α : Type} {P : σ → Prop} (o : Option (α × σ)) (h : ∀ r, o = some r → P r.2) :
    (withProof o h).map (fun r => (r.1, r.2.1)) = o := by
  cases o <;> rfl

theorem withProof_none {α : Type} {P : σ → Prop} (o : Option (α × σ)) (h : ∀ r, o = some r → P r.2)
    (h0 : withProof o h = none) : o = none := by
  cases o with
  | none => rfl
  | some r => cases h0

/-- the generator restricted to some of its states -/
def Rng.restrict (R : Rng σ) {P : σ → Prop} (h : R.Keeps P) : Rng {a : σ // P a} where
  uniform a := ((R.uniform a.1).1, ⟨(R.uniform a.1).2, h.uniform a.1 a.2⟩)
  shuffle N a := withProof (R.shuffle N a.1) (fun r hr => h.shuffle N a.1 r a.2 hr)
  site N a := withProof (R.site N a.1) (fun r hr => h.site N a.1 r a.2 hr)

theorem Rng.restrict_maps (R : Rng σ) {P : σ → Prop} (h : R.Keeps P) :
    (R.restrict h).Maps R Subtype.val where
  uniform _ := rfl
  shuffle _ _ := (withProof_map _ _).symm
  site _ _ := (withProof_map _ _).symm

theorem Rng.restrict_lawful {R : Rng σ} {P : σ → Prop} (h : R.Keeps P) (hl : R.Lawful N) :
    (R.restrict h).Lawful N where
  uniform_pos a := hl.uniform_pos a.1
  uniform_le a := hl.uniform_le a.1
  perm a l a' hs := by
    refine hl.perm a.1 l a'.1 ?_
    have := (R.restrict_maps h).shuffle N a
    rw [hs] at this
    exact this

/-! ## The generator of random.c -/

theorem xorshift_keeps (rnd : ℝ → ℝ) (junk : ℕ → ℤ) : (xorshift rnd junk).Keeps Seed.NonZero where
  uniform a ha := stateAt_nonZero ha 1
  shuffle N a r ha hr := by
    unfold xorshift at hr
    simp only [Option.bind_eq_bind] at hr
    obtain ⟨q, h1, h2⟩ := Option.bind_eq_some_iff.1 hr
    obtain ⟨l, -, h3⟩ := Option.bind_eq_some_iff.1 h2
    obtain rfl := Option.some.inj h3
    have key : ∀ (k i : ℕ) (sd : Seed) (seq : ℕ → ℤ) (q : (ℕ → ℤ) × Seed), sd.NonZero →
        shuffleLoop k i sd seq = some q → q.2.NonZero := by
      intro k
      induction k with
      | zero =>
        intro i sd seq q h hq
        obtain rfl := Option.some.inj hq
        exact h
      | succ k ih =>
        intro i sd seq q h hq
        unfold shuffleLoop at hq
        simp only [Option.bind_eq_bind] at hq
        obtain ⟨b, b1, b2⟩ := Option.bind_eq_some_iff.1 hq
        exact ih _ _ _ _ (boundedUint_nonZero h b1) b2
    exact key _ _ _ _ _ ha h1
  site N a r ha hr := by
    unfold xorshift at hr
    simp only [Option.bind_eq_bind] at hr
    obtain ⟨q, h1, h2⟩ := Option.bind_eq_some_iff.1 hr
    obtain ⟨l, -, h3⟩ := Option.bind_eq_some_iff.1 h2
    obtain rfl := Option.some.inj h3
    exact boundedUint_nonZero ha h1

theorem xorshift_shuffle {rnd : ℝ → ℝ} (h : RoundsToNearest rnd) (junk : ℕ → ℤ) (hN : N < 2 ^ 31)
    (a : Seed) (ha : a.NonZero) : (xorshift rnd junk).shuffle N a ≠ none := by
  intro h0
  obtain ⟨q, sd, hq, -⟩ := shuffle_terminates ha N hN junk
  rw [((xorshift_lawful rnd h junk N hN).2 a).1 h0] at hq
  cases hq

theorem xorshift_site (rnd : ℝ → ℝ) (junk : ℕ → ℤ) (hN : N < 2 ^ 31) [NeZero N]
    (a : Seed) (ha : a.NonZero) : (xorshift rnd junk).site N a ≠ none := by
  have h31 : (2 : ℕ) ^ 31 < 2 ^ 64 := by norm_num
  have hN0 : N ≠ 0 := NeZero.ne N
  obtain ⟨r, sd, h1, h2⟩ := boundedUint_terminates (BitVec.ofNat 64 N) (by
    intro h0
    have := congrArg BitVec.toNat h0
    rw [BitVec.toNat_ofNat, Nat.mod_eq_of_lt (by omega)] at this
    exact hN0 this) ha
  rw [BitVec.lt_def, BitVec.toNat_ofNat, Nat.mod_eq_of_lt (by omega)] at h2
  unfold xorshift
  simp only [h1, Option.bind_eq_bind, Option.bind_some]
  unfold toSite
  rw [dif_pos ⟨by omega, by exact_mod_cast h2⟩]
  simp

/-! ## Simulations -/

variable {sys : Sys Seed N M} {ph : Phonon} {cfg : Cfg} {rnd : ℝ → ℝ} {junk : ℕ → ℤ}

theorem withRng_ok {σ' : Type} {R : Rng σ'} {sys : Sys σ N M} {len : ℕ} (hok : sys.Ok len)
    (h : R.Lawful N) : (sys.withRng R).Ok len :=
  ⟨hok.expK, hok.hs, h, hok.dvd⟩

theorem atRest_mapRng {σ' : Type} {R : Rng σ'} {f : σ' → σ} {sys : Sys σ N M} {cfg : Cfg} {ph : Phonon}
    {st : State σ' N M} (h : AtRest (sys.withRng R) ph cfg st) : AtRest sys ph cfg (st.mapRng f) := by
  unfold AtRest at h ⊢
  split at h
  · rename_i hp
    rw [if_pos hp]
    exact ⟨⟨h.inv.up, h.inv.down⟩, h.coh⟩
  · rename_i hp
    rw [if_neg hp]
    exact ⟨h.up, h.down⟩

/-- `simulate_defined` for states that are never left -/
theorem simulate_live [NeZero N] {sys : Sys σ N M} {P : σ → Prop} (hk : sys.rng.Keeps P)
    (hok : sys.Ok cfg.prodBlen) (hL : 0 < cfg.L)
    (hd : cfg.prodBlen ∣ cfg.L) (hp : cfg.usePhonons = false) (stop : ℤ → Bool) (it : ℤ) (rng : σ)
    (hrng : P rng) (s : ℕ → Fin N → Fin 2) (X expX : ℕ → Fin N → ℝ) (cnt : Counters) (meas : M)
    (hw : sys.weight cfg.L s (fun _ _ => 1) ≠ 0) (hsh : ∀ r, P r → sys.rng.shuffle N r ≠ none)
    (hme : ∀ gu gd m, sys.meas.eq gu gd m ≠ none)
    (hmu : cfg.nuneqlt > 0 → ∀ st : State σ N M, AtRest sys ph cfg st →
      sys.meas.uneq (st.Gu.sgndet * st.Gd.sgndet) st.tsmU st.tsmD st.meas ≠ none) :
    ∃ r, simulate sys ph cfg stop it rng s X expX cnt meas = some r ∧ P r.state.rng := by
  obtain ⟨r, hr⟩ := simulate_defined (sys := sys.withRng (sys.rng.restrict hk)) (ph := ph)
    (withRng_ok hok (Rng.restrict_lawful hk hok.rng)) hL hd hp stop it ⟨rng, hrng⟩ s X expX cnt meas hw
    (fun a h0 => hsh a.1 a.2 (withProof_none _ _ h0)) hme
    (fun hn st hst => hmu hn (st.mapRng Subtype.val) (atRest_mapRng hst))
  have hm := simulate_mapRng (sys := sys.withRng (sys.rng.restrict hk)) (R' := sys.rng)
    (sys.rng.restrict_maps hk) cfg ph stop it ⟨rng, hrng⟩ s X expX cnt meas
  rw [hr] at hm
  exact ⟨_, hm, r.state.rng.2⟩

/-- `simulate_defined_ph` for states that are never left -/
theorem simulate_live_ph [NeZero N] {sys : Sys σ N M} {P : σ → Prop} (hk : sys.rng.Keeps P)
    (hok : sys.Ok cfg.prodBlen) (hL : 0 < cfg.L)
    (hd : cfg.prodBlen ∣ cfg.L) (hp : cfg.usePhonons = true) (stop : ℤ → Bool) (it : ℤ) (rng : σ)
    (hrng : P rng) (s : ℕ → Fin N → Fin 2) (X expX : ℕ → Fin N → ℝ) (cnt : Counters) (meas : M)
    (hX : ∀ l < cfg.L, ∀ i, expX l i = sys.expOf ph X l i)
    (hw : ∀ s X, sys.weight cfg.L s (sys.expOf ph X) ≠ 0) (hsh : ∀ r, P r → sys.rng.shuffle N r ≠ none)
    (hsite : ∀ r, P r → sys.rng.site N r ≠ none) {Q : ℕ → M → Prop} (hQ : Budget sys cfg.L Q)
    (hmono : ∀ n m, Q (n + 1) m → Q n m)
    (hq : Q ((cfg.nequil + cfg.nsampl - max it cfg.nequil).toNat * (cfg.L / cfg.neqlt.toNat)) meas)
    (hmu : cfg.nuneqlt > 0 → ∀ (st : State σ N M) n, AtRest sys ph cfg st → Q n st.meas →
      ∃ m, sys.meas.uneq (st.Gu.sgndet * st.Gd.sgndet) st.tsmU st.tsmD st.meas = some m ∧ Q n m) :
    ∃ r, simulate sys ph cfg stop it rng s X expX cnt meas = some r ∧ P r.state.rng := by
  obtain ⟨r, hr⟩ := simulate_defined_ph (sys := sys.withRng (sys.rng.restrict hk)) (ph := ph)
    (withRng_ok hok (Rng.restrict_lawful hk hok.rng)) hL hd hp stop it ⟨rng, hrng⟩ s X expX cnt meas hX hw
    (fun a h0 => hsh a.1 a.2 (withProof_none _ _ h0)) (fun a h0 => hsite a.1 a.2 (withProof_none _ _ h0))
    (Q := Q) ⟨hQ.eq, hQ.phonon⟩ hmono hq
    (fun hn st n hst => hmu hn (st.mapRng Subtype.val) n (atRest_mapRng hst))
  have hm := simulate_mapRng (sys := sys.withRng (sys.rng.restrict hk)) (R' := sys.rng)
    (sys.rng.restrict_maps hk) cfg ph stop it ⟨rng, hrng⟩ s X expX cnt meas
  rw [hr] at hm
  exact ⟨_, hm, r.state.rng.2⟩

end Verif.MonteCarlo
