import Verif.Props.SimulationInv

/-! # Simulations with phonons are defined (C12) -/

set_option autoImplicit false

namespace Verif.MonteCarlo

open Matrix Verif.Lapack Verif.TimeFlow Verif.Greens Verif.Stratonovich Verif.Progress

variable {σ : Type} {N : ℕ} {M : Type} {sys : Sys σ N M} {ph : Phonon} {L len l : ℕ}
  {st : State σ N M}

/-- `Q n m`: at least `n` more phonon samples can be added to the data `m` -/
structure Budget (sys : Sys σ N M) (L : ℕ) (Q : ℕ → M → Prop) : Prop where
  eq : ∀ n gu gd m, Q n m → ∃ m', sys.meas.eq gu gd m = some m' ∧ Q n m'
  phonon : ∀ n gu gd l X m, l < L → Q (n + 1) m → ∃ m', sys.meas.phonon gu gd l X m = some m' ∧ Q n m'

/-- the Green's functions of a configuration can be constructed unless its weight is zero -/
theorem construct_defined [NeZero N] (hL : 0 < L) (hd : len ∣ L) (expV : Fin 2 → ℕ → ℝ)
    (s : ℕ → Fin N → Fin 2) (expX : ℕ → Fin N → ℝ)
    (hne : (1 + cyclicProd (sys.fieldB expV s expX) L 0).det ≠ 0) :
    ∃ g, greenConstruct sys.lp (initWith (sys.phB expV s expX) (sys.phInvB expV s expX) sys.W0
      (allocate L len sys.junk)) 0 = some g := by
  obtain ⟨hB, hF, hD, h1, -, -⟩ := initWith_spec
    (sys.phB expV s expX) (sys.phInvB expV s expX) sys.W0
    (allocate L len sys.junk) (allocate_dims L len hL hd sys.junk)
  have hc : cyclicProd (initWith (sys.phB expV s expX)
      (sys.phInvB expV s expX) sys.W0 (allocate L len sys.junk)).B L 0
      = cyclicProd (sys.fieldB expV s expX) L 0 := by
    refine prodSeq_congr fun k hk => ?_
    exact ((hB ((0 + k) % L) (Nat.mod_lt _ hL)).1).trans (fieldB_eq_phonon sys expV s expX _)
  have h1' : (initWith (sys.phB expV s expX)
      (sys.phInvB expV s expX) sys.W0 (allocate L len sys.junk)).L = L := h1
  obtain ⟨g, hg, -⟩ := greenConstruct_cyclic sys.lp _ hD hF 0 (dvd_zero _) (by rw [h1', hc]; exact hne)
  exact ⟨g, hg⟩

theorem flow_congr (expV : Fin 2 → ℕ → ℝ) (s : ℕ → Fin N → Fin 2) (hL : 0 < L)
    {E E' : ℕ → Fin N → ℝ} (h : ∀ k < L, E k = E' k) :
    cyclicProd (sys.fieldB expV s E) L 0 = cyclicProd (sys.fieldB expV s E') L 0 := by
  refine prodSeq_congr fun k hk => ?_
  unfold Sys.fieldB
  rw [h _ (Nat.mod_lt _ hL)]

theorem decide_defined [NeZero N] (kind : Kind) (i : Fin N) (x y f : ℕ → ℝ) (dE : ℝ)
    (h : PhInv sys ph L len 0 st)
    (hw : sys.weight L st.s (sys.expOf ph (movePath L st.X i f)) ≠ 0) (r : σ) :
    ∃ st', MonteCarlo.decide sys ph kind i x y dE (moveX sys ph L i f { st with rng := r })
      = some st' := by
  have hL0 : 0 < L := by
    rw [← h.inv.up.td.hL, h.inv.up.td.dims.mul]
    exact Nat.mul_pos h.inv.up.td.dims.num h.inv.up.td.dims.len
  have hd : len ∣ L := h.inv.up.td.dvd
  have hcoh : ∀ k < L, (moveX sys ph L i f { st with rng := r }).expX k
      = sys.expOf ph (moveX sys ph L i f { st with rng := r }).X k := by
    intro k hk
    funext j
    have := h.coh k hk j
    unfold Sys.expOf at this ⊢
    simp only [moveX]
    by_cases hj : j = i
    · subst hj; simp only [hk, and_self, if_true]
    · simp only [hj, and_false, if_false, this]
  have hw' : sys.weight L (moveX sys ph L i f { st with rng := r }).s
      (sys.expOf ph (moveX sys ph L i f { st with rng := r }).X) ≠ 0 := hw
  unfold Sys.weight Sys.flow at hw'
  obtain ⟨gu, eu⟩ := construct_defined (sys := sys) (len := len) hL0 hd sys.hs.expVu
    (moveX sys ph L i f { st with rng := r }).s (moveX sys ph L i f { st with rng := r }).expX (by
      rw [flow_congr _ _ hL0 hcoh]
      intro h0; apply hw'; rw [h0]; simp)
  obtain ⟨gd, ed⟩ := construct_defined (sys := sys) (len := len) hL0 hd sys.hs.expVd
    (moveX sys ph L i f { st with rng := r }).s (moveX sys ph L i f { st with rng := r }).expX (by
      rw [flow_congr _ _ hL0 hcoh]
      intro h0; apply hw'; rw [h0]; simp)
  unfold MonteCarlo.decide
  have hUL : (moveX sys ph L i f { st with rng := r }).tsmU.L = L := h.inv.up.td.hL
  have hUlen : (moveX sys ph L i f { st with rng := r }).tsmU.prodBlen = len := h.inv.up.td.hlen
  have hDlen : (moveX sys ph L i f { st with rng := r }).tsmD.prodBlen = len := h.inv.down.td.hlen
  simp only [hUL, hUlen, hDlen, eu, ed, Option.bind_eq_bind, Option.bind_some]
  split <;> exact ⟨_, rfl⟩

/-- a block update is defined if the proposed configuration does not have weight zero -/
theorem blockUpdate_defined_at [NeZero N] (h : PhInv sys ph L len 0 st) {i : Fin N} {r : σ}
    (hr : sys.rng.site N st.rng = some (i, r))
    (hw : ph.g (sys.orb i) ≠ 0 → sys.weight L st.s (sys.expOf ph
      (movePath L st.X i fun l => st.X l i + ((sys.rng.uniform r).1 - 0.5) * ph.blockBox)) ≠ 0) :
    ∃ st', blockUpdate sys ph st = some st' := by
  unfold blockUpdate
  simp only [hr, Option.bind_eq_bind, Option.bind_some]
  split
  · exact ⟨_, rfl⟩
  · rename_i hg
    rw [h.inv.up.td.hL]
    exact decide_defined _ _ _ _ _ _ h (hw hg) _

/-- a flip update is defined if the proposed configuration does not have weight zero -/
theorem flipUpdate_defined_at [NeZero N] (h : PhInv sys ph L len 0 st) {i : Fin N} {r : σ}
    (hr : sys.rng.site N st.rng = some (i, r))
    (hw : ph.g (sys.orb i) ≠ 0 → sys.weight L st.s (sys.expOf ph
      (movePath L st.X i fun l => 2 * ph.mu / ph.g (sys.orb i) - st.X l i)) ≠ 0) :
    ∃ st', flipUpdate sys ph st = some st' := by
  unfold flipUpdate
  simp only [hr, Option.bind_eq_bind, Option.bind_some]
  split
  · exact ⟨_, rfl⟩
  · rename_i hg
    rw [h.inv.up.td.hL]
    exact decide_defined _ _ _ _ _ _ h (hw hg) _

theorem blockUpdate_defined [NeZero N] (h : PhInv sys ph L len 0 st)
    (hw : ∀ s X, sys.weight L s (sys.expOf ph X) ≠ 0) (hsite : ∀ r, sys.rng.site N r ≠ none) :
    ∃ st', blockUpdate sys ph st = some st' := by
  obtain ⟨a, ha⟩ := Option.ne_none_iff_exists'.1 (hsite st.rng)
  exact blockUpdate_defined_at h ha fun _ => hw _ _

theorem flipUpdate_defined [NeZero N] (h : PhInv sys ph L len 0 st)
    (hw : ∀ s X, sys.weight L s (sys.expOf ph X) ≠ 0) (hsite : ∀ r, sys.rng.site N r ≠ none) :
    ∃ st', flipUpdate sys ph st = some st' := by
  obtain ⟨a, ha⟩ := Option.ne_none_iff_exists'.1 (hsite st.rng)
  exact flipUpdate_defined_at h ha fun _ => hw _ _

theorem iterateM_defined {α : Type} (f : α → Option α) (P : α → Prop)
    (hP : ∀ a, P a → ∃ b, f a = some b ∧ P b) (n : ℕ) (a : α) (ha : P a) :
    ∃ b, iterateM f n a = some b ∧ P b := by
  induction n generalizing a with
  | zero => exact ⟨a, rfl, ha⟩
  | succ n ih =>
    obtain ⟨b, h1, h2⟩ := hP a ha
    obtain ⟨c, h3, h4⟩ := ih b h2
    refine ⟨c, ?_, h4⟩
    unfold iterateM
    rw [h1]
    exact h3

theorem localOrder_defined [NeZero N] (order : List (Fin N)) (h : order.length = N) (n : ℕ) :
    ∃ l, localOrder order n = some l := by
  unfold localOrder
  induction n with
  | zero => exact ⟨[], rfl⟩
  | succ n ih =>
    obtain ⟨l, hl⟩ := ih
    have hlt : n % N < order.length := by
      rw [h]
      exact Nat.mod_lt _ (Nat.pos_of_ne_zero (NeZero.ne N))
    refine ⟨l ++ [order[n % N]], ?_⟩
    rw [List.range_succ, List.mapM_append, hl]
    simp [hlt]

theorem localSlice_defined [NeZero N] (hok : sys.Ok len) (hsh : ∀ r, sys.rng.shuffle N r ≠ none) :
    ∃ st', localSlice sys ph l st = some st' := by
  obtain ⟨a, ha⟩ := Option.ne_none_iff_exists'.1 (hsh st.rng)
  have hlen : a.1.length = N := by
    rw [(hok.rng.perm st.rng a.1 a.2 ha).length_eq, List.length_finRange]
  obtain ⟨ls, hls⟩ := localOrder_defined a.1 hlen ph.nLocal
  unfold localSlice
  simp only [ha, hls, Option.bind_eq_bind, Option.bind_some]
  exact ⟨_, rfl⟩

/-- one time slice with phonons never fails because of a singular matrix -/
theorem phTimeSlice_defined [NeZero N] (hok : sys.Ok len) (hl : l < L) (noHS : Bool) (neqlt n : ℕ)
    {Q : ℕ → M → Prop} (hQ : Budget sys L Q) (h : PhInv sys ph L len l st)
    (hq : Q (n + hit neqlt l) st.meas) (hsh : ∀ r, sys.rng.shuffle N r ≠ none) :
    ∃ st', phTimeSlice sys ph noHS neqlt st l = some st' ∧ Q n st'.meas := by
  have hm : PhMid sys ph L len l (MonteCarlo.wrap l st) := ⟨h.inv.wrap hl, h.coh⟩
  have hstep : ∃ st1, phTimeSlice sys ph noHS neqlt st l = ((localSlice sys ph l st1).bind fun st =>
        (maybeRecompute sys l (updatePhB sys l st)).bind fun st => measurePh sys neqlt l st)
      ∧ PhMid sys ph L len l st1 ∧ st1.meas = st.meas := by
    unfold phTimeSlice
    cases noHS
    · obtain ⟨r, hr⟩ := Option.ne_none_iff_exists'.1 (hsh (MonteCarlo.wrap l st).rng)
      have e1 : hsSlice sys l (MonteCarlo.wrap l st)
          = some (r.1.foldl (MonteCarlo.hsSite sys l) { MonteCarlo.wrap l st with rng := r.2 }) := by
        unfold hsSlice
        rw [hr]
        rfl
      obtain ⟨a, -, -, b⟩ := hm.hsSlice hok hl e1
      refine ⟨_, ?_, a, b⟩
      simp only [Option.bind_eq_bind, Bool.false_eq_true, if_false, e1, Option.bind_some]
    · refine ⟨_, ?_, hm, rfl⟩
      simp only [Option.bind_eq_bind, if_true, Option.bind_some]
  obtain ⟨st1, e1, hm1, hmeas1⟩ := hstep
  obtain ⟨st2, e2⟩ := localSlice_defined (sys := sys) (ph := ph) (l := l) (st := st1) hok hsh
  obtain ⟨hm2, hmeas2⟩ := hm1.localSlice hok hl e2
  have hi := hm2.updatePhB hok hl
  have hmeas3 : (MonteCarlo.updatePhB sys l st2).meas = st.meas := hmeas2.trans hmeas1
  rw [e1, e2, Option.bind_some]
  generalize MonteCarlo.updatePhB sys l st2 = st3 at hi hmeas3
  have e3 : maybeRecompute sys l st3 = some st3 := by
    unfold maybeRecompute
    split
    · rename_i hw
      exact hi.inv.recompute_eq (hok.dvd.trans (Nat.dvd_of_mod_eq_zero hw))
    · rfl
  rw [e3, Option.bind_some]
  unfold measurePh
  split
  · rename_i hc
    have hh : hit neqlt l = 1 := if_pos hc
    rw [hh, ← hmeas3] at hq
    obtain ⟨m1, g1, q1⟩ := hQ.eq _ st3.Gu st3.Gd _ hq
    obtain ⟨m2, g2, q2⟩ := hQ.phonon _ st3.Gu st3.Gd l st3.X _ hl q1
    simp only [g1, g2, Option.bind_eq_bind, Option.bind_some]
    exact ⟨_, rfl, q2⟩
  · rename_i hc
    have hh : hit neqlt l = 0 := if_neg hc
    rw [hh, ← hmeas3] at hq
    exact ⟨_, rfl, hq⟩

/-- an iteration with phonons never fails because of a singular matrix -/
theorem phIteration_defined [NeZero N] (hok : sys.Ok len) (noHS : Bool) (neqlt n : ℕ)
    {Q : ℕ → M → Prop} (hQ : Budget sys L Q) (h : PhInv sys ph L len 0 st)
    (hq : Q (n + L / neqlt) st.meas) (hsh : ∀ r, sys.rng.shuffle N r ≠ none)
    (hsite : ∀ r, sys.rng.site N r ≠ none) (hw : ∀ s X, sys.weight L s (sys.expOf ph X) ≠ 0) :
    ∃ st', phIteration sys ph noHS neqlt st = some st' ∧ Q n st'.meas := by
  have hP : PhMeasInv sys ph L neqlt (fun _ => True) :=
    fun _ _ _ _ _ _ _ _ _ _ _ _ _ _ _ => trivial
  have sweep : ∀ k ≤ L, ∀ n, Q (n + ((List.range k).map (hit neqlt)).sum) st.meas →
      ∃ st', (List.range k).foldlM (phTimeSlice sys ph noHS neqlt) st = some st' ∧ Q n st'.meas := by
    intro k
    induction k with
    | zero => intro _ n hn; exact ⟨st, rfl, hn⟩
    | succ k ih =>
      intro hk n hn
      rw [List.range_succ, List.map_append, List.sum_append] at hn
      simp only [List.map_cons, List.map_nil, List.sum_cons, List.sum_nil, add_zero] at hn
      obtain ⟨st1, e1, q1⟩ := ih (by omega) (n + hit neqlt k) (by
        rw [add_assoc, add_comm (hit neqlt k)]; exact hn)
      obtain ⟨i1, -⟩ := phSweep_inv hok noHS neqlt (fun _ => True) hP h trivial k (by omega) e1
      obtain ⟨st2, e2, q2⟩ := phTimeSlice_defined hok (show k < L by omega) noHS neqlt n hQ i1 q1 hsh
      refine ⟨st2, ?_, q2⟩
      rw [List.range_succ, List.foldlM_append, e1]
      show (List.foldlM (phTimeSlice sys ph noHS neqlt) st1 [k]) = some st2
      rw [List.foldlM_cons, e2]
      rfl
  obtain ⟨st1, e1, q1⟩ := sweep L le_rfl n (by rw [sum_hit]; exact hq)
  obtain ⟨i1, -⟩ := phSweep_inv hok noHS neqlt (fun _ => True) hP h trivial L le_rfl e1
  obtain ⟨st2, e2, i2, q2⟩ := iterateM_defined (blockUpdate sys ph)
    (fun t => PhInv sys ph L len 0 t ∧ Q n t.meas) (fun a ha => by
      obtain ⟨b, hb⟩ := blockUpdate_defined ha.1 hw hsite
      obtain ⟨c1, c2⟩ := blockUpdate_inv hok ha.1 hb
      exact ⟨b, hb, c1, by rw [c2]; exact ha.2⟩) ph.nBlock st1 ⟨i1.next, q1⟩
  obtain ⟨st3, e3, -, q3⟩ := iterateM_defined (flipUpdate sys ph)
    (fun t => PhInv sys ph L len 0 t ∧ Q n t.meas) (fun a ha => by
      obtain ⟨b, hb⟩ := flipUpdate_defined ha.1 hw hsite
      obtain ⟨c1, c2⟩ := flipUpdate_inv hok ha.1 hb
      exact ⟨b, hb, c1, by rw [c2]; exact ha.2⟩) ph.nBlock st2 ⟨i2, q2⟩
  refine ⟨st3, ?_, q3⟩
  unfold phIteration
  rw [h.inv.up.td.hL]
  simp only [e1, e2, e3, Option.bind_eq_bind, Option.bind_some]

/-- a simulation with phonons is defined if no configuration has weight zero -/
theorem simulate_defined_ph [NeZero N] {cfg : Cfg} (hok : sys.Ok cfg.prodBlen) (hL : 0 < cfg.L)
    (hd : cfg.prodBlen ∣ cfg.L) (hp : cfg.usePhonons = true) (stop : ℤ → Bool) (it : ℤ) (rng : σ)
    (s : ℕ → Fin N → Fin 2) (X expX : ℕ → Fin N → ℝ) (cnt : Counters) (meas : M)
    (hX : ∀ l < cfg.L, ∀ i, expX l i = sys.expOf ph X l i)
    (hw : ∀ s X, sys.weight cfg.L s (sys.expOf ph X) ≠ 0) (hsh : ∀ r, sys.rng.shuffle N r ≠ none)
    (hsite : ∀ r, sys.rng.site N r ≠ none) {Q : ℕ → M → Prop} (hQ : Budget sys cfg.L Q)
    (hmono : ∀ n m, Q (n + 1) m → Q n m)
    (hq : Q ((cfg.nequil + cfg.nsampl - max it cfg.nequil).toNat * (cfg.L / cfg.neqlt.toNat)) meas)
    (hmu : cfg.nuneqlt > 0 → ∀ (st : State σ N M) n, AtRest sys ph cfg st → Q n st.meas →
      ∃ m, sys.meas.uneq (st.Gu.sgndet * st.Gd.sgndet) st.tsmU st.tsmD st.meas = some m ∧ Q n m) :
    ∃ r, simulate sys ph cfg stop it rng s X expX cnt meas = some r := by
  have hw0 : sys.weight cfg.L s expX ≠ 0 := by
    have := hw s X
    unfold Sys.weight Sys.flow at this ⊢
    have hc : ∀ k < cfg.L, expX k = sys.expOf ph X k := fun k hk => funext fun i => hX k hk i
    rw [flow_congr _ _ hL hc, flow_congr _ _ hL hc]
    exact this
  obtain ⟨st, e1⟩ := startState_defined_ph hL hd hp rng s X expX cnt meas hw0
  have hi := startState_phInv hok hL hd hp rng s X expX cnt meas hX st e1
  have hmst : st.meas = meas := (startState_frame cfg _ _ _ _ _ _ _ e1).2.1
  unfold simulate
  simp only [e1, Option.bind_eq_bind, Option.bind_some]
  rw [← hmst] at hq
  have hmono' : ∀ k n m, Q (n + k) m → Q n m := by
    intro k
    induction k with
    | zero => exact fun _ _ h => h
    | succ k ih => exact fun n m h => ih n m (hmono _ _ h)
  have hk : ∃ k, (cfg.nequil + cfg.nsampl - it).toNat = k := ⟨_, rfl⟩
  obtain ⟨k, hk⟩ := hk
  rw [hk]
  generalize update it (start cfg.nequil cfg.nsampl) = p
  clear e1 hmst
  induction k generalizing it st p with
  | zero => exact ⟨_, rfl⟩
  | succ k ih =>
    unfold simLoop
    split
    · exact ⟨_, rfl⟩
    · have hat : AtRest sys ph cfg st := by unfold AtRest; rw [hp]; exact hi
      -- samples of this iteration and of the later ones
      have hsplit : (cfg.nequil + cfg.nsampl - max it cfg.nequil).toNat * (cfg.L / cfg.neqlt.toNat)
          = (cfg.nequil + cfg.nsampl - max (it + 1) cfg.nequil).toNat * (cfg.L / cfg.neqlt.toNat)
            + (if cfg.nequil ≤ it ∧ it < cfg.nequil + cfg.nsampl then 1 else 0) *
              (cfg.L / cfg.neqlt.toNat) := by
        rw [← Nat.add_mul]
        congr 1
        split <;> omega
      have hb : ∃ st', simBody sys ph cfg it st = some st' ∧
          Q ((cfg.nequil + cfg.nsampl - max (it + 1) cfg.nequil).toNat * (cfg.L / cfg.neqlt.toNat))
            st'.meas := by
        obtain ⟨st1, f1, q1⟩ := phIteration_defined (ph := ph) hok cfg.noHS (effNeqlt cfg it)
          ((cfg.nequil + cfg.nsampl - max (it + 1) cfg.nequil).toNat * (cfg.L / cfg.neqlt.toNat))
          hQ hi (by
            rw [hsplit] at hq
            unfold effNeqlt
            by_cases hc : it ≥ cfg.nequil
            · rw [if_pos hc]
              rw [if_pos ⟨hc, by omega⟩, one_mul] at hq
              exact hq
            · rw [if_neg hc]
              rw [if_neg (fun h => hc h.1), zero_mul] at hq
              simpa using hq) hsh hsite hw
        have i1 := (phIteration_inv hok cfg.noHS (effNeqlt cfg it) (fun _ => True)
          (fun _ _ _ _ _ _ _ _ _ _ _ _ _ _ _ => trivial) hi trivial f1).1
        unfold simBody
        simp only [hp, if_true, f1, Option.bind_eq_bind, Option.bind_some]
        unfold measureUneq
        split
        · rename_i hc
          obtain ⟨m, hm, qm⟩ := hmu hc.2.1 st1 _ (by unfold AtRest; rw [hp]; exact i1) q1
          rw [hm]
          exact ⟨_, rfl, qm⟩
        · exact ⟨_, rfl, q1⟩
      obtain ⟨st', hb, hq'⟩ := hb
      have h2 := (simBody_inv hok (fun _ => True) ⟨fun _ _ _ _ _ _ _ _ _ _ _ _ _ _ => trivial,
        fun _ _ _ _ _ _ _ _ _ _ _ _ _ _ _ _ _ => trivial, fun _ _ _ _ _ => trivial⟩ it st st' hat
        trivial hb).1
      unfold AtRest at h2
      rw [hp] at h2
      simp only [hb, Option.bind_eq_bind, Option.bind_some]
      exact ih (it + 1) st' hq' (by simpa using h2) (by omega) _

end Verif.MonteCarlo
