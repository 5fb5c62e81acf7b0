import Verif.Props.StationaryPh

/-! # Property C83: the simulation is the textbook Metropolis method

The program never evaluates a weight: it uses ratios from Green's functions which it updates, wraps and recomputes.  The
method below has none of this; every decision compares the weights of two configurations. -/

set_option autoImplicit false

namespace Verif.MonteCarlo

open Verif.Fock Verif.Greens Verif.Metropolis

/-! ## Specification -/

/-- what the textbook method has to know -/
structure Chain (σ : Type) (L N : ℕ) where
  rng : Rng σ
  /-- weight of a configuration -/
  weight : Conf L N → ℝ
  /-- the Hubbard-Stratonovich field is updated -/
  fields : Prop
  /-- there are phonons -/
  phonons : Prop
  /-- sites whose phonons couple to the electrons -/
  coupled : Fin N → Prop
  localWidth : ℝ
  blockWidth : ℝ
  /-- the mirror image of a coordinate `x` at site `i` is `mirrored i - x` -/
  mirrored : Fin N → ℝ
  nLocal : ℕ
  nBlock : ℕ
  /-- equal time measurement after slice `l` of iteration `it` -/
  eqDue : ℤ → ℕ → Prop
  /-- unequal time measurement after iteration `it` -/
  uneqDue : ℤ → Prop

/-- state of the textbook method, with a list of all configurations which have been measured -/
structure Walk (σ : Type) (L N : ℕ) where
  conf : Conf L N
  rng : σ
  cnt : Counters
  /-- slice and configuration of the equal time measurements -/
  eqs : List (ℕ × Conf L N)
  /-- configurations of the unequal time measurements -/
  uneqs : List (Conf L N)

namespace Chain

variable {σ : Type} {L N : ℕ} (c : Chain σ L N)

open Classical in
/-- propose to reverse the entry `(l, i)` of the field -/
noncomputable def reverse (l : ℕ) (w : Walk σ L N) (i : Fin N) : Walk σ L N :=
  let x : Conf L N := (fun k j => if k.val = l ∧ j = i then 1 - w.conf.1 k j else w.conf.1 k j, w.conf.2)
  let r := c.rng.uniform w.rng
  { w with rng := r.2, conf := if r.1 < c.weight x / c.weight w.conf then x else w.conf }

open Classical in
/-- propose to move the coordinate `(l, i)` -/
noncomputable def displace (l : ℕ) (w : Walk σ L N) (i : Fin N) : Walk σ L N :=
  if c.coupled i then
    let r := c.rng.uniform w.rng
    let x : Conf L N := (w.conf.1, fun k j =>
      if k.val = l ∧ j = i then w.conf.2 k j + (r.1 - 1 / 2) * c.localWidth else w.conf.2 k j)
    let q := c.rng.uniform r.2
    if q.1 < c.weight x / c.weight w.conf then
      { w with rng := q.2, conf := x, cnt := { w.cnt with
        localTotal := w.cnt.localTotal + 1, localAccept := w.cnt.localAccept + 1 } }
    else { w with rng := q.2, cnt := { w.cnt with localTotal := w.cnt.localTotal + 1 } }
  else w

open Classical in
/-- propose to move all coordinates of a random site by the same amount -/
noncomputable def shift (w : Walk σ L N) : Option (Walk σ L N) := do
  let (i, r) ← c.rng.site N w.rng
  if c.coupled i then
    let r := c.rng.uniform r
    let x : Conf L N := (w.conf.1, fun k j =>
      if j = i then w.conf.2 k j + (r.1 - 1 / 2) * c.blockWidth else w.conf.2 k j)
    let q := c.rng.uniform r.2
    if q.1 < c.weight x / c.weight w.conf then
      return { w with rng := q.2, conf := x, cnt := { w.cnt with
        blockTotal := w.cnt.blockTotal + 1, blockAccept := w.cnt.blockAccept + 1 } }
    else return { w with rng := q.2, cnt := { w.cnt with blockTotal := w.cnt.blockTotal + 1 } }
  else return { w with rng := r }

open Classical in
/-- propose to mirror all coordinates of a random site -/
noncomputable def reflect (w : Walk σ L N) : Option (Walk σ L N) := do
  let (i, r) ← c.rng.site N w.rng
  if c.coupled i then
    let x : Conf L N := (w.conf.1, fun k j => if j = i then c.mirrored i - w.conf.2 k j else w.conf.2 k j)
    let q := c.rng.uniform r
    if q.1 < c.weight x / c.weight w.conf then
      return { w with rng := q.2, conf := x, cnt := { w.cnt with
        flipTotal := w.cnt.flipTotal + 1, flipAccept := w.cnt.flipAccept + 1 } }
    else return { w with rng := q.2, cnt := { w.cnt with flipTotal := w.cnt.flipTotal + 1 } }
  else return { w with rng := r }

/-- visit sites in random order: the first `n` of a random sequence which is continued periodically -/
noncomputable def visit (n : ℕ) (step : Walk σ L N → Fin N → Walk σ L N) (w : Walk σ L N) : Option (Walk σ L N) := do
  let (order, r) ← c.rng.shuffle N w.rng
  return ((List.range n).filterMap fun j => order[j % N]?).foldl step { w with rng := r }

open Classical in
/-- one slice -/
noncomputable def slice (it : ℤ) (w : Walk σ L N) (l : ℕ) : Option (Walk σ L N) :=
  (if c.fields then c.visit N (c.reverse l) w else some w).bind fun w =>
  (if c.phonons then c.visit c.nLocal (c.displace l) w else some w).bind fun w =>
  some (if c.eqDue it l then { w with eqs := w.eqs ++ [(l, w.conf)] } else w)

open Classical in
/-- one iteration -/
noncomputable def iteration (it : ℤ) (w : Walk σ L N) : Option (Walk σ L N) :=
  ((List.range L).foldlM (c.slice it) w).bind fun w =>
  (if c.phonons then (List.range c.nBlock).foldlM (fun w _ => c.shift w) w else some w).bind fun w =>
  (if c.phonons then (List.range c.nBlock).foldlM (fun w _ => c.reflect w) w else some w).bind fun w =>
  some (if c.uneqDue it then { w with uneqs := w.uneqs ++ [w.conf] } else w)

/-- `m` iterations, beginning with iteration `it` -/
noncomputable def run (it : ℤ) (m : ℕ) (w : Walk σ L N) : Option (Walk σ L N) :=
  (List.range m).foldlM (fun w (j : ℕ) => c.iteration (it + j) w) w

end Chain

variable {σ : Type} {N : ℕ} {M : Type}

/-- the method for the constants of a simulation -/
noncomputable def chainOf (sys : Sys σ N M) (ph : Phonon) (cfg : Cfg) : Chain σ cfg.L N where
  rng := sys.rng
  weight := if cfg.usePhonons then confWeight sys ph cfg.L
    else fun x => sys.weight cfg.L (Fock.extend x.1) fun _ _ => 1
  fields := cfg.usePhonons = false ∨ cfg.noHS = false
  phonons := cfg.usePhonons = true
  coupled := fun i => ph.g (sys.orb i) ≠ 0
  localWidth := ph.localBox
  blockWidth := ph.blockBox
  mirrored := fun i => 2 * ph.mu / ph.g (sys.orb i)
  nLocal := ph.nLocal
  nBlock := ph.nBlock
  eqDue := fun it l => cfg.nequil ≤ it ∧ 0 < cfg.neqlt ∧ cfg.neqlt ∣ (l : ℤ) + 1
  uneqDue := fun it => cfg.nequil ≤ it ∧ 0 < cfg.nuneqlt ∧ cfg.nuneqlt ∣ it

/-- a relation between the measurement data and the recorded configurations which every measurement of a run with
phonons preserves -/
structure RecordsPh (sys : Sys σ N M) (ph : Phonon) (L len : ℕ)
    (R : M → List (ℕ × Conf L N) → List (Conf L N) → Prop) : Prop where
  eq : ∀ (s : ℕ → Fin N → Fin 2) (X : ℕ → Fin N → ℝ) (l : ℕ) (Gu Gd : GreensFn N) (m m1 m2 : M) a b, l < L →
    Exact sys L (sys.expOf ph X) s (l + 1) Gu Gd → sys.meas.eq Gu Gd m = some m1 →
    sys.meas.phonon Gu Gd l X m1 = some m2 → R m a b → R m2 (a ++ [(l, (fieldOf L s, pathsOf L X))]) b
  uneq : ∀ (st : State σ N M) (m' : M) a b, PhInv sys ph L len 0 st →
    sys.meas.uneq (st.Gu.sgndet * st.Gd.sgndet) st.tsmU st.tsmD st.meas = some m' →
    R st.meas a b → R m' a (b ++ [(fieldOf L st.s, pathsOf L st.X)])

/-- the same for runs without phonons -/
structure Records (sys : Sys σ N M) (L len : ℕ) (R : M → List (ℕ × Conf L N) → List (Conf L N) → Prop) : Prop where
  eq : ∀ (s : ℕ → Fin N → Fin 2) (x : Conf L N) (l : ℕ) (Gu Gd : GreensFn N) (m m' : M) a b, l < L →
    Exact sys L (fun _ _ => 1) s (l + 1) Gu Gd → fieldOf L s = x.1 → sys.meas.eq Gu Gd m = some m' →
    R m a b → R m' (a ++ [(l, x)]) b
  uneq : ∀ (st : State σ N M) (x : Conf L N) (m' : M) a b, Inv sys (fun _ _ => 1) L len 0 st → fieldOf L st.s = x.1 →
    sys.meas.uneq (st.Gu.sgndet * st.Gd.sgndet) st.tsmU st.tsmD st.meas = some m' →
    R st.meas a b → R m' a (b ++ [x])

/-! ## Proofs -/

section steps

variable {sys : Sys σ N M} {ph : Phonon} {cfg : Cfg} {len l : ℕ} {st st' : State σ N M} {w w' : Walk σ cfg.L N}

/-- the program and the method are in the same state -/
structure Same {L : ℕ} (st : State σ N M) (w : Walk σ L N) : Prop where
  field : fieldOf L st.s = w.conf.1
  path : pathsOf L st.X = w.conf.2
  rng : st.rng = w.rng
  cnt : st.cnt = w.cnt

theorem Same.view {L : ℕ} {w : Walk σ L N} (h : Same st w) : viewPh L st = (w.conf, w.rng) := by
  unfold viewPh
  rw [h.field, h.path, h.rng]

theorem Same.of_view {L : ℕ} {w : Walk σ L N} (h : viewPh L st = (w.conf, w.rng)) (hc : st.cnt = w.cnt) : Same st w := by
  have h1 := (Prod.mk.inj h).1
  exact ⟨by rw [← h1], by rw [← h1], (Prod.mk.inj h).2, hc⟩

theorem flipAt_apply {L : ℕ} (l : ℕ) (i : Fin N) (x : Field L N) :
    flipAt l i x = fun k j => if k.val = l ∧ j = i then 1 - x k j else x k j := by
  funext k j
  unfold flipAt fieldOf flipField
  by_cases hk : k.val = l
  · subst hk
    rw [Function.update_self]
    by_cases hj : j = i
    · subst hj
      rw [Function.update_self, if_pos ⟨rfl, rfl⟩]
      simp [Fock.extend]
    · rw [Function.update_of_ne hj, if_neg fun h => hj h.2]
      simp [Fock.extend]
  · rw [Function.update_of_ne hk, if_neg fun h => hk h.1]
    simp [Fock.extend]

theorem half : (0.5 : ℝ) = 1 / 2 := by norm_num

theorem spike_apply {L : ℕ} (l : ℕ) (i : Fin N) (d : ℝ) (x : Paths L N) :
    x + spike l i d = fun k j => if k.val = l ∧ j = i then x k j + d else x k j := by
  funext k j
  show x k j + spike l i d k j = _
  unfold spike
  split <;> simp

theorem column_apply {L : ℕ} (i : Fin N) (d : ℝ) (x : Paths L N) :
    x + column i d = fun k j => if j = i then x k j + d else x k j := by
  funext k j
  show x k j + column i d k j = _
  unfold column
  split <;> simp

theorem hsSite_cnt (l : ℕ) (st : State σ N M) (i : Fin N) : (hsSite sys l st i).cnt = st.cnt := by
  unfold hsSite
  simp only
  split <;> rfl

theorem Same.hsSite_ph (hs : Same st w) (hp : cfg.usePhonons = true) (h : PhMid sys ph cfg.L len l st) (hok : sys.Ok len)
    (hl : l < cfg.L) (i : Fin N) : Same (hsSite sys l st i) ((chainOf sys ph cfg).reverse l w i) := by
  refine Same.of_view ?_ ((hsSite_cnt l st i).trans hs.cnt)
  rw [hsSite_viewPh h hok hl, hs.view]
  unfold mapStep Chain.reverse chainOf flipConf
  simp only [hp, if_true, flipAt_apply]

theorem Same.hsSite (hs : Same st w) (hp : cfg.usePhonons = false) (h : Mid sys (fun _ _ => 1) cfg.L len l st)
    (hok : sys.Ok len) (hl : l < cfg.L) (i : Fin N) : Same (hsSite sys l st i) ((chainOf sys ph cfg).reverse l w i) := by
  have hX : (MonteCarlo.hsSite sys l st i).X = st.X := by
    unfold MonteCarlo.hsSite
    simp only
    split <;> rfl
  have hv := hsSite_view h hok hl i
  unfold MonteCarlo.view hsStep at hv
  simp only at hv
  have h1 := (Prod.mk.inj hv).1
  have h2 := (Prod.mk.inj hv).2
  rw [hs.field, hs.rng] at h1
  rw [hs.rng] at h2
  refine ⟨?_, ?_, h2, (hsSite_cnt l st i).trans hs.cnt⟩
  · rw [h1]
    unfold Chain.reverse chainOf
    simp only [hp, Bool.false_eq_true, if_false, flipAt_apply]
    split <;> rfl
  · rw [hX, hs.path]
    unfold Chain.reverse
    simp only
    split <;> rfl

theorem Same.localSite (hs : Same st w) (hp : cfg.usePhonons = true) (h : PhMid sys ph cfg.L len l st) (hL : 2 ≤ cfg.L)
    (hl : l < cfg.L) (i : Fin N) : Same (localSite sys ph l st i) ((chainOf sys ph cfg).displace l w i) := by
  have hv := localSite_viewPh h hL hl i
  rw [hs.view] at hv
  by_cases hg : ph.g (sys.orb i) = 0
  · have e : (chainOf sys ph cfg).displace l w i = w := by
      unfold Chain.displace chainOf
      simp only [ne_eq, hg, not_true_eq_false, if_false]
    have e' : MonteCarlo.localSite sys ph l st i = st := by
      unfold MonteCarlo.localSite
      simp only [if_pos hg]
    rw [e, e']
    exact hs
  · obtain ⟨-, -, -, -, hc⟩ := local_detailed_balance_partial h hL hl i hg
    have hL0 : 0 < cfg.L := by omega
    rw [← confWeight_view hL0, ← confWeight_view hL0, pathsOf_moveLocal, hs.field, hs.path, hs.rng, hs.cnt] at hc
    unfold localStep at hv
    rw [if_neg hg] at hv
    unfold shiftStep move at hv
    simp only [spike_apply, half] at hv hc
    refine Same.of_view (hv.trans ?_) (hc.trans ?_) <;>
    · unfold Chain.displace chainOf
      simp only [hp, if_true, ne_eq, hg, not_false_eq_true]
      split <;> rfl

theorem visit_eq {L : ℕ} (c : Chain σ L N) (n : ℕ) (step : Walk σ L N → Fin N → Walk σ L N) (w : Walk σ L N)
    (order : List (Fin N)) (r : σ) (h : c.rng.shuffle N w.rng = some (order, r)) :
    c.visit n step w = some (((List.range n).filterMap fun j => order[j % N]?).foldl step { w with rng := r }) := by
  unfold Chain.visit
  rw [h]
  rfl

theorem filterMap_order (order : List (Fin N)) (h : order.length = N) :
    ((List.range N).filterMap fun j => order[j % N]?) = order := by
  have : ((List.range N).filterMap fun j => order[j % N]?) = (List.range order.length).filterMap fun j => order[j]? := by
    rw [h]
    refine List.filterMap_congr fun j hj => ?_
    rw [Nat.mod_eq_of_lt (List.mem_range.1 hj)]
  rw [this]
  have : (List.range order.length).filterMap (fun j => order[j]?) = (List.finRange order.length).map order.get := by
    rw [← List.map_coe_finRange_eq_range, List.filterMap_map]
    rw [← List.filterMap_eq_map]
    refine List.filterMap_congr fun j _ => ?_
    simp
  rw [this]
  exact List.map_get_finRange order

theorem filterMap_mapM {α β : Type} (f : α → Option β) (l : List α) (r : List β) (h : l.mapM f = some r) :
    l.filterMap f = r := by
  induction l generalizing r with
  | nil => cases h; rfl
  | cons a l ih =>
    rw [List.mapM_cons] at h
    obtain ⟨b, e1, h⟩ := Option.bind_eq_some_iff.1 h
    obtain ⟨bs, e2, h⟩ := Option.bind_eq_some_iff.1 h
    cases h
    rw [List.filterMap_cons_some e1, ih _ e2]

/-- one loop over sites -/
theorem fold_same {I : State σ N M → Prop} (f : State σ N M → Fin N → State σ N M) (g : Walk σ cfg.L N → Fin N → Walk σ cfg.L N)
    (hI : ∀ st i, I st → I (f st i)) (h : ∀ st w i, I st → Same st w → Same (f st i) (g w i)) (order : List (Fin N))
    (hi : I st) (hs : Same st w) : Same (order.foldl f st) (order.foldl g w) := by
  induction order generalizing st w with
  | nil => exact hs
  | cons i order ih => exact ih (hI _ _ hi) (h _ _ _ hi hs)

theorem Same.hsSlice_ph (hs : Same st w) (hp : cfg.usePhonons = true) (h : PhMid sys ph cfg.L len l st) (hok : sys.Ok len)
    (hl : l < cfg.L) (e : hsSlice sys l st = some st') :
    ∃ w', (chainOf sys ph cfg).visit N ((chainOf sys ph cfg).reverse l) w = some w' ∧ Same st' w' := by
  unfold MonteCarlo.hsSlice at e
  simp only [Option.bind_eq_bind] at e
  obtain ⟨⟨order, r⟩, e1, e⟩ := Option.bind_eq_some_iff.1 e
  simp only [Option.pure_def, Option.some.injEq] at e
  have hlen : order.length = N := (hok.rng.perm _ _ _ e1).length_eq.trans List.length_finRange
  refine ⟨_, visit_eq _ _ _ _ order r (by rw [← hs.rng]; exact e1), ?_⟩
  rw [filterMap_order order hlen, ← e]
  exact fold_same (I := PhMid sys ph cfg.L len l) _ _ (fun st i h => h.hsSite hok hl i)
    (fun st w i h hs => hs.hsSite_ph hp h hok hl i) order ⟨⟨h.mid.up, h.mid.down⟩, h.coh⟩ ⟨hs.field, hs.path, rfl, hs.cnt⟩

theorem Same.hsSlice (hs : Same st w) (hp : cfg.usePhonons = false) (h : Mid sys (fun _ _ => 1) cfg.L len l st)
    (hok : sys.Ok len) (hl : l < cfg.L) (e : hsSlice sys l st = some st') :
    ∃ w', (chainOf sys ph cfg).visit N ((chainOf sys ph cfg).reverse l) w = some w' ∧ Same st' w' := by
  unfold MonteCarlo.hsSlice at e
  simp only [Option.bind_eq_bind] at e
  obtain ⟨⟨order, r⟩, e1, e⟩ := Option.bind_eq_some_iff.1 e
  simp only [Option.pure_def, Option.some.injEq] at e
  have hlen : order.length = N := (hok.rng.perm _ _ _ e1).length_eq.trans List.length_finRange
  refine ⟨_, visit_eq _ _ _ _ order r (by rw [← hs.rng]; exact e1), ?_⟩
  rw [filterMap_order order hlen, ← e]
  exact fold_same (I := Mid sys (fun _ _ => 1) cfg.L len l) _ _ (fun st i h => h.hsSite hok hl i)
    (fun st w i h hs => hs.hsSite hp h hok hl i) order ⟨h.up, h.down⟩ ⟨hs.field, hs.path, rfl, hs.cnt⟩

theorem Same.localSlice (hs : Same st w) (hp : cfg.usePhonons = true) (h : PhMid sys ph cfg.L len l st) (hok : sys.Ok len)
    (hL : 2 ≤ cfg.L) (hl : l < cfg.L) (e : localSlice sys ph l st = some st') :
    ∃ w', (chainOf sys ph cfg).visit ph.nLocal ((chainOf sys ph cfg).displace l) w = some w' ∧ Same st' w' := by
  unfold MonteCarlo.localSlice at e
  simp only [Option.bind_eq_bind] at e
  obtain ⟨⟨order, r⟩, e1, e⟩ := Option.bind_eq_some_iff.1 e
  obtain ⟨sites, e2, e⟩ := Option.bind_eq_some_iff.1 e
  simp only [Option.pure_def, Option.some.injEq] at e
  refine ⟨_, visit_eq _ _ _ _ order r (by rw [← hs.rng]; exact e1), ?_⟩
  rw [filterMap_mapM _ _ _ e2, ← e]
  exact fold_same (I := PhMid sys ph cfg.L len l) _ _ (fun st i h => h.localSite hok hl i)
    (fun st w i h hs => hs.localSite hp h hL hl i) sites ⟨⟨h.mid.up, h.mid.down⟩, h.coh⟩ ⟨hs.field, hs.path, rfl, hs.cnt⟩

/-- the measurements of program and method agree -/
structure Agree (sys : Sys σ N M) (ph : Phonon) (cfg : Cfg) (m0 : M) (st : State σ N M) (w : Walk σ cfg.L N) : Prop where
  same : Same st w
  gain : ∀ R, RecordsPh sys ph cfg.L cfg.prodBlen R → R m0 [] [] → R st.meas w.eqs w.uneqs

variable {m0 : M}

theorem Same.pathUpdate {kind : Kind} {i : Fin N} {f : ℕ → ℝ} {u : ℝ} {r : σ} (hL : 0 < cfg.L) (hs : Same st w)
    (h : PathUpdate sys ph cfg.L len kind i f st st' u r) (x : Conf cfg.L N)
    (hx : x = (w.conf.1, pathsOf cfg.L (movePath cfg.L st.X i f))) :
    Same st' (if u < confWeight sys ph cfg.L x / confWeight sys ph cfg.L w.conf then
      { w with rng := r, conf := x, cnt := (w.cnt.attempt kind).accept kind }
    else { w with rng := r, cnt := w.cnt.attempt kind }) ∧ st'.meas = st.meas := by
  have hw : w.conf = (fieldOf cfg.L st.s, pathsOf cfg.L st.X) := by rw [hs.field, hs.path]
  have e : confWeight sys ph cfg.L x / confWeight sys ph cfg.L w.conf
      = sys.fullWeight ph cfg.L st.s (movePath cfg.L st.X i f) / sys.fullWeight ph cfg.L st.s st.X := by
    rw [hx, ← hs.field, confWeight_view hL, hw, confWeight_view hL]
  rw [e]
  by_cases hc : u < sys.fullWeight ph cfg.L st.s (movePath cfg.L st.X i f) / sys.fullWeight ph cfg.L st.s st.X
  · obtain ⟨h1, -, h2, h3, h4, h5⟩ := h.accepted hc
    rw [if_pos hc]
    refine ⟨⟨?_, ?_, h4, ?_⟩, h3⟩
    · rw [h2, hx, hs.field]
    · rw [h1, hx]
    · rw [h5, hs.cnt]
  · rw [if_neg hc, h.rejected hc]
    exact ⟨⟨hs.field, hs.path, rfl, by rw [hs.cnt]⟩, rfl⟩

theorem Agree.block [NeZero N] (hs : Agree sys ph cfg m0 st w) (hp : cfg.usePhonons = true) (hok : sys.Ok cfg.prodBlen)
    (h : PhInv sys ph cfg.L cfg.prodBlen 0 st) (e : blockUpdate sys ph st = some st') :
    ∃ w', (chainOf sys ph cfg).shift w = some w' ∧ Agree sys ph cfg m0 st' w' := by
  obtain ⟨i, r, e1, h1, h2⟩ := blockUpdate_spec hok h e
  rw [hs.same.rng] at e1
  have e1' : (chainOf sys ph cfg).rng.site N w.rng = some (i, r) := e1
  unfold Chain.shift
  rw [e1']
  simp only [Option.bind_eq_bind, Option.bind_some]
  by_cases hg : ph.g (sys.orb i) = 0
  · have hc : ¬ (chainOf sys ph cfg).coupled i := fun h => h hg
    rw [if_neg hc, h1 hg]
    exact ⟨_, rfl, ⟨hs.same.field, hs.same.path, rfl, hs.same.cnt⟩, hs.gain⟩
  · have hc : (chainOf sys ph cfg).coupled i := hg
    rw [if_pos hc]
    obtain ⟨a, b⟩ := hs.same.pathUpdate h.pos (h2 hg) (w.conf.1, fun k j =>
      if j = i then w.conf.2 k j + ((sys.rng.uniform r).1 - 1 / 2) * ph.blockBox else w.conf.2 k j) (by
        rw [pathsOf_block, column_apply, half, hs.same.path])
    have hw : (chainOf sys ph cfg).weight = confWeight sys ph cfg.L := by
      unfold chainOf
      simp only [hp, if_true]
    rw [hw]
    split at a <;> rename_i hd
    · refine ⟨_, ?_, a, fun R hR h0 => by rw [b]; exact hs.gain R hR h0⟩
      exact (if_pos hd).trans rfl
    · refine ⟨_, ?_, a, fun R hR h0 => by rw [b]; exact hs.gain R hR h0⟩
      exact (if_neg hd).trans rfl

theorem Agree.flip [NeZero N] (hs : Agree sys ph cfg m0 st w) (hp : cfg.usePhonons = true) (hok : sys.Ok cfg.prodBlen)
    (h : PhInv sys ph cfg.L cfg.prodBlen 0 st) (e : flipUpdate sys ph st = some st') :
    ∃ w', (chainOf sys ph cfg).reflect w = some w' ∧ Agree sys ph cfg m0 st' w' := by
  obtain ⟨i, r, e1, h1, h2⟩ := flipUpdate_spec hok h e
  rw [hs.same.rng] at e1
  have e1' : (chainOf sys ph cfg).rng.site N w.rng = some (i, r) := e1
  unfold Chain.reflect
  rw [e1']
  simp only [Option.bind_eq_bind, Option.bind_some]
  by_cases hg : ph.g (sys.orb i) = 0
  · have hc : ¬ (chainOf sys ph cfg).coupled i := fun h => h hg
    rw [if_neg hc, h1 hg]
    exact ⟨_, rfl, ⟨hs.same.field, hs.same.path, rfl, hs.same.cnt⟩, hs.gain⟩
  · have hc : (chainOf sys ph cfg).coupled i := hg
    rw [if_pos hc]
    obtain ⟨a, b⟩ := hs.same.pathUpdate h.pos (h2 hg) (w.conf.1, fun k j =>
      if j = i then 2 * ph.mu / ph.g (sys.orb i) - w.conf.2 k j else w.conf.2 k j) (by
        have := pathsOf_mirror (L := cfg.L) w.conf.1 st.X i (2 * ph.mu / ph.g (sys.orb i))
        rw [this, hs.same.path]
        rfl)
    have hw : (chainOf sys ph cfg).weight = confWeight sys ph cfg.L := by
      unfold chainOf
      simp only [hp, if_true]
    rw [hw]
    split at a <;> rename_i hd
    · refine ⟨_, ?_, a, fun R hR h0 => by rw [b]; exact hs.gain R hR h0⟩
      exact (if_pos hd).trans rfl
    · refine ⟨_, ?_, a, fun R hR h0 => by rw [b]; exact hs.gain R hR h0⟩
      exact (if_neg hd).trans rfl

/-- when equal time measurements are done -/
theorem due_iff (cfg : Cfg) (it : ℤ) (l : ℕ) : (effNeqlt cfg it > 0 ∧ (l + 1) % effNeqlt cfg it = 0) ↔
    (cfg.nequil ≤ it ∧ 0 < cfg.neqlt ∧ cfg.neqlt ∣ (l : ℤ) + 1) := by
  unfold effNeqlt
  by_cases h1 : cfg.nequil ≤ it
  · by_cases h2 : 0 < cfg.neqlt
    · obtain ⟨n, hn⟩ := Int.eq_ofNat_of_zero_le h2.le
      rw [if_pos h1, hn, Int.toNat_natCast]
      rw [hn] at h2
      simp only [h1, true_and, ← Nat.dvd_iff_mod_eq_zero]
      constructor
      · rintro ⟨a, b⟩
        exact ⟨by exact_mod_cast a, by exact_mod_cast b⟩
      · rintro ⟨a, b⟩
        exact ⟨by exact_mod_cast a, by exact_mod_cast b⟩
    · rw [if_pos h1]
      constructor
      · rintro ⟨a, -⟩
        omega
      · rintro ⟨-, a, -⟩
        exact absurd a h2
  · rw [if_neg (by omega : ¬ it ≥ cfg.nequil)]
    constructor
    · rintro ⟨a, -⟩
      simp at a
    · rintro ⟨a, -⟩
      exact absurd a h1

/-- what a loop over sites does not touch -/
theorem visit_lists {L : ℕ} (c : Chain σ L N) (n : ℕ) (step : Walk σ L N → Fin N → Walk σ L N)
    (hstep : ∀ w i, (step w i).eqs = w.eqs ∧ (step w i).uneqs = w.uneqs) (w w' : Walk σ L N)
    (h : c.visit n step w = some w') : w'.eqs = w.eqs ∧ w'.uneqs = w.uneqs := by
  unfold Chain.visit at h
  simp only [Option.bind_eq_bind] at h
  obtain ⟨⟨order, r⟩, -, h⟩ := Option.bind_eq_some_iff.1 h
  simp only [Option.pure_def, Option.some.injEq] at h
  rw [← h]
  generalize (List.range n).filterMap _ = ns
  have : ∀ v : Walk σ L N, (ns.foldl step v).eqs = v.eqs ∧ (ns.foldl step v).uneqs = v.uneqs := by
    induction ns with
    | nil => exact fun v => ⟨rfl, rfl⟩
    | cons i ns ih => exact fun v => ⟨(ih _).1.trans (hstep v i).1, (ih _).2.trans (hstep v i).2⟩
  exact this _

theorem reverse_lists {L : ℕ} (c : Chain σ L N) (l : ℕ) (w : Walk σ L N) (i : Fin N) :
    (c.reverse l w i).eqs = w.eqs ∧ (c.reverse l w i).uneqs = w.uneqs := ⟨rfl, rfl⟩

theorem displace_lists {L : ℕ} (c : Chain σ L N) (l : ℕ) (w : Walk σ L N) (i : Fin N) :
    (c.displace l w i).eqs = w.eqs ∧ (c.displace l w i).uneqs = w.uneqs := by
  unfold Chain.displace
  simp only
  split
  · split <;> exact ⟨rfl, rfl⟩
  · exact ⟨rfl, rfl⟩

open Classical in
theorem Agree.phSlice [NeZero N] (hs : Agree sys ph cfg m0 st w) (hp : cfg.usePhonons = true) (hok : sys.Ok cfg.prodBlen)
    (hL : 2 ≤ cfg.L) (hl : l < cfg.L) (it : ℤ) (h : PhInv sys ph cfg.L cfg.prodBlen l st)
    (e : phTimeSlice sys ph cfg.noHS (effNeqlt cfg it) st l = some st') :
    PhInv sys ph cfg.L cfg.prodBlen (l + 1) st' ∧
    ∃ w', (chainOf sys ph cfg).slice it w l = some w' ∧ Agree sys ph cfg m0 st' w' := by
  refine ⟨(phTimeSlice_inv hok hl cfg.noHS (effNeqlt cfg it) (fun _ => True)
    (fun _ _ _ _ _ _ _ _ _ _ _ _ _ _ _ => trivial) h trivial e).1, ?_⟩
  obtain ⟨st1, st2, e1, hm, hm1, hmeas1, e2, hmeas2, hi, e3⟩ := phTimeSlice_split hok hl cfg.noHS _ h e
  have hw0 : Same (MonteCarlo.wrap l st) w := ⟨hs.same.field, hs.same.path, hs.same.rng, hs.same.cnt⟩
  have h1 : ∃ w1, (if (chainOf sys ph cfg).fields then (chainOf sys ph cfg).visit N ((chainOf sys ph cfg).reverse l) w
      else some w) = some w1 ∧ Same st1 w1 ∧ w1.eqs = w.eqs ∧ w1.uneqs = w.uneqs := by
    by_cases hn : cfg.noHS = true
    · have hf : ¬ (chainOf sys ph cfg).fields := by
        rintro (h | h)
        · rw [hp] at h; cases h
        · rw [hn] at h; cases h
      rw [if_neg hf]
      rw [if_pos hn] at e1
      cases e1
      exact ⟨w, rfl, hw0, rfl, rfl⟩
    · have hf : (chainOf sys ph cfg).fields := Or.inr (by simpa using hn)
      rw [if_pos hf]
      rw [if_neg hn] at e1
      obtain ⟨w1, a, b⟩ := hw0.hsSlice_ph hp hm hok hl e1
      obtain ⟨c, d⟩ := visit_lists _ _ _ (reverse_lists _ _) _ _ a
      exact ⟨w1, a, b, c, d⟩
  obtain ⟨w1, a1, s1, b1, c1⟩ := h1
  obtain ⟨w2, a2, s2⟩ := s1.localSlice hp hm1 hok hL hl e2
  obtain ⟨b2, c2⟩ := visit_lists _ _ _ (displace_lists _ _) _ _ a2
  have hph : (chainOf sys ph cfg).phonons := hp
  unfold Chain.slice
  rw [a1]
  simp only [Option.bind_some, if_pos hph]
  rw [show (chainOf sys ph cfg).nLocal = ph.nLocal from rfl, a2]
  simp only [Option.bind_some]
  have hg : ∀ R, RecordsPh sys ph cfg.L cfg.prodBlen R → R m0 [] [] → R st2.meas w2.eqs w2.uneqs := by
    intro R hR h0
    rw [hmeas2, b2, c2, b1, c1]
    exact hs.gain R hR h0
  have hd : (chainOf sys ph cfg).eqDue it l ↔ (effNeqlt cfg it > 0 ∧ (l + 1) % effNeqlt cfg it = 0) :=
    (due_iff cfg it l).symm
  unfold measurePh at e3
  by_cases hc : effNeqlt cfg it > 0 ∧ (l + 1) % effNeqlt cfg it = 0
  · rw [if_pos (hd.2 hc)]
    rw [if_pos hc] at e3
    simp only [Option.bind_eq_bind] at e3
    obtain ⟨m1, e4, e3⟩ := Option.bind_eq_some_iff.1 e3
    obtain ⟨m2, e5, e3⟩ := Option.bind_eq_some_iff.1 e3
    simp only [Option.pure_def, Option.some.injEq] at e3
    rw [← e3]
    refine ⟨_, rfl, ⟨s2.field, s2.path, s2.rng, s2.cnt⟩, fun R hR h0 => ?_⟩
    have := hR.eq _ _ l _ _ _ _ _ _ _ hl ⟨hi.inv.up.good, hi.inv.down.good⟩ e4 e5 (hg R hR h0)
    rwa [show (fieldOf cfg.L (updatePhB sys l st2).s, pathsOf cfg.L (updatePhB sys l st2).X) = w2.conf from
      Prod.ext s2.field s2.path] at this
  · rw [if_neg fun h => hc (hd.1 h)]
    rw [if_neg hc] at e3
    obtain rfl := Option.some.inj e3
    exact ⟨_, rfl, ⟨s2.field, s2.path, s2.rng, s2.cnt⟩, hg⟩

/-- a loop of partial operations -/
theorem foldlM_agree {α S : Type} {R : ℕ → S → α → Prop} (f : S → ℕ → Option S) (g : α → ℕ → Option α) (n : ℕ)
    (h : ∀ k < n, ∀ st w st', R k st w → f st k = some st' → ∃ w', g w k = some w' ∧ R (k + 1) st' w') {st st' : S} {w : α}
    (hR : R 0 st w) (e : (List.range n).foldlM f st = some st') :
    ∃ w', (List.range n).foldlM g w = some w' ∧ R n st' w' := by
  induction n generalizing st' with
  | zero => cases e; exact ⟨w, rfl, hR⟩
  | succ n ih =>
    rw [List.range_succ, List.foldlM_append] at e
    obtain ⟨st1, e1, e2⟩ := Option.bind_eq_some_iff.1 e
    obtain ⟨w1, a1, r1⟩ := ih (fun k hk => h k (by omega)) e1
    rw [List.foldlM_cons] at e2
    obtain ⟨st2, e3, e4⟩ := Option.bind_eq_some_iff.1 e2
    rw [List.foldlM_nil] at e4
    cases e4
    obtain ⟨w2, a2, r2⟩ := h n (by omega) _ _ _ r1 e3
    refine ⟨w2, ?_, r2⟩
    rw [List.range_succ, List.foldlM_append, a1]
    simp [a2]

theorem iterateM_foldlM {S : Type} (f : S → Option S) (n : ℕ) (a : S) :
    iterateM f n a = (List.range n).foldlM (fun a _ => f a) a := by
  induction n generalizing a with
  | zero => rfl
  | succ n ih =>
    rw [List.range_succ_eq_map, List.foldlM_cons]
    unfold iterateM
    congr 1
    funext b
    rw [ih b]
    generalize List.range n = ns
    induction ns generalizing b with
    | nil => rfl
    | cons k ns ih =>
      simp only [List.foldlM_cons, List.map_cons]
      congr 1
      funext c
      exact ih c

open Classical in
theorem Agree.phIteration [NeZero N] (hs : Agree sys ph cfg m0 st w) (hp : cfg.usePhonons = true)
    (hok : sys.Ok cfg.prodBlen) (hL : 2 ≤ cfg.L) (it : ℤ) (h : PhInv sys ph cfg.L cfg.prodBlen 0 st)
    (e : simBody sys ph cfg it st = some st') :
    PhInv sys ph cfg.L cfg.prodBlen 0 st' ∧
    ∃ w', (chainOf sys ph cfg).iteration it w = some w' ∧ Agree sys ph cfg m0 st' w' := by
  have hph : (chainOf sys ph cfg).phonons := hp
  unfold simBody at e
  simp only [hp, if_true, Option.bind_eq_bind] at e
  obtain ⟨st3, e3, e4⟩ := Option.bind_eq_some_iff.1 e
  unfold MonteCarlo.phIteration at e3
  simp only [Option.bind_eq_bind] at e3
  obtain ⟨st1, e1, e3⟩ := Option.bind_eq_some_iff.1 e3
  obtain ⟨st2, e2, e3⟩ := Option.bind_eq_some_iff.1 e3
  rw [h.inv.up.td.hL] at e1
  rw [iterateM_foldlM] at e2 e3
  obtain ⟨w1, a1, i1, g1⟩ := foldlM_agree (R := fun k st w => PhInv sys ph cfg.L cfg.prodBlen k st ∧ Agree sys ph cfg m0 st w)
    _ ((chainOf sys ph cfg).slice it) cfg.L (fun k hk st w st' hR e => by
      obtain ⟨i, w', a, g⟩ := hR.2.phSlice hp hok hL hk it hR.1 e
      exact ⟨w', a, i, g⟩) ⟨h, hs⟩ e1
  obtain ⟨w2, a2, i2, g2⟩ := foldlM_agree (R := fun _ st w => PhInv sys ph cfg.L cfg.prodBlen 0 st ∧ Agree sys ph cfg m0 st w)
    _ (fun w _ => (chainOf sys ph cfg).shift w) ph.nBlock (fun k _ st w st' hR e => by
      obtain ⟨w', a, g⟩ := hR.2.block hp hok hR.1 e
      exact ⟨w', a, (blockUpdate_inv hok hR.1 e).1, g⟩) ⟨i1.next, g1⟩ e2
  obtain ⟨w3, a3, i3, g3⟩ := foldlM_agree (R := fun _ st w => PhInv sys ph cfg.L cfg.prodBlen 0 st ∧ Agree sys ph cfg m0 st w)
    _ (fun w _ => (chainOf sys ph cfg).reflect w) ph.nBlock (fun k _ st w st' hR e => by
      obtain ⟨w', a, g⟩ := hR.2.flip hp hok hR.1 e
      exact ⟨w', a, (flipUpdate_inv hok hR.1 e).1, g⟩) ⟨i2, g2⟩ e3
  unfold Chain.iteration
  simp only [if_pos hph]
  rw [a1, Option.bind_some, show (chainOf sys ph cfg).nBlock = ph.nBlock from rfl, a2, Option.bind_some, a3,
    Option.bind_some]
  have hd : (chainOf sys ph cfg).uneqDue it ↔ (it ≥ cfg.nequil ∧ cfg.nuneqlt > 0 ∧ it.tmod cfg.nuneqlt = 0) := by
    show (cfg.nequil ≤ it ∧ 0 < cfg.nuneqlt ∧ cfg.nuneqlt ∣ it) ↔ _
    rw [Int.dvd_iff_tmod_eq_zero]
  unfold measureUneq at e4
  by_cases hc : it ≥ cfg.nequil ∧ cfg.nuneqlt > 0 ∧ it.tmod cfg.nuneqlt = 0
  · rw [if_pos (hd.2 hc)]
    rw [if_pos hc] at e4
    simp only [Option.bind_eq_bind] at e4
    obtain ⟨m, e5, e4⟩ := Option.bind_eq_some_iff.1 e4
    simp only [Option.pure_def, Option.some.injEq] at e4
    rw [← e4]
    refine ⟨⟨⟨i3.inv.up, i3.inv.down⟩, i3.coh⟩, _, rfl, ⟨g3.same.field, g3.same.path, g3.same.rng, g3.same.cnt⟩,
      fun R hR h0 => ?_⟩
    have := hR.uneq _ _ _ _ i3 e5 (g3.gain R hR h0)
    rwa [show (fieldOf cfg.L st3.s, pathsOf cfg.L st3.X) = w3.conf from
      Prod.ext g3.same.field g3.same.path] at this
  · rw [if_neg fun h => hc (hd.1 h)]
    rw [if_neg hc] at e4
    obtain rfl := Option.some.inj e4
    exact ⟨i3, _, rfl, g3⟩

theorem runs_foldlM {S : Type} (body : ℤ → S → Option S) (it : ℤ) (m : ℕ) (st : S) :
    runs body it m st = (List.range m).foldlM (fun st (j : ℕ) => body (it + j) st) st := by
  induction m with
  | zero => rfl
  | succ m ih =>
    rw [List.range_succ, List.foldlM_append, ← ih]
    show (runs body it m st >>= fun st => body (it + m) st) = _
    congr 1
    funext st1
    simp

/-- C83: a run with phonons is the textbook method -/
theorem simulate_is_metropolis_ph [NeZero N] (hok : sys.Ok cfg.prodBlen) (hL : 2 ≤ cfg.L) (hd : cfg.prodBlen ∣ cfg.L)
    (hp : cfg.usePhonons = true) (stop : ℤ → Bool) (it : ℤ) (rng : σ) (s : ℕ → Fin N → Fin 2) (X expX : ℕ → Fin N → ℝ)
    (hX : ∀ l < cfg.L, ∀ i, expX l i = sys.expOf ph X l i) (cnt : Counters) (meas : M) (r : LoopResult (State σ N M))
    (h : simulate sys ph cfg stop it rng s X expX cnt meas = some r) :
    ∃ w, (chainOf sys ph cfg).run it (iterations stop (cfg.nequil + cfg.nsampl - it).toNat it)
        ⟨(fieldOf cfg.L s, pathsOf cfg.L X), rng, cnt, [], []⟩ = some w ∧
      fieldOf cfg.L r.state.s = w.conf.1 ∧ pathsOf cfg.L r.state.X = w.conf.2 ∧ r.state.rng = w.rng ∧ r.state.cnt = w.cnt ∧
      ∀ R, RecordsPh sys ph cfg.L cfg.prodBlen R → R meas [] [] → R r.state.meas w.eqs w.uneqs := by
  unfold simulate at h
  simp only [Option.bind_eq_bind] at h
  obtain ⟨st, e1, h⟩ := Option.bind_eq_some_iff.1 h
  have h2 := simLoop_iterations _ _ _ _ _ _ _ h
  rw [runs_foldlM] at h2
  have hi := startState_phInv hok (by omega) hd hp _ _ _ _ _ _ hX _ e1
  obtain ⟨-, f2, f3, f4, f1, f6⟩ := startState_frame (cfg := cfg) _ _ _ _ _ _ _ e1
  obtain ⟨w, a, -, g⟩ := foldlM_agree (R := fun _ st w => PhInv sys ph cfg.L cfg.prodBlen 0 st ∧ Agree sys ph cfg meas st w)
    _ (fun w (j : ℕ) => (chainOf sys ph cfg).iteration (it + j) w) _ (fun k _ st w st' hR e => by
      obtain ⟨i, w', a, g⟩ := hR.2.phIteration hp hok hL _ hR.1 e
      exact ⟨w', a, i, g⟩) (w := ⟨(fieldOf cfg.L s, pathsOf cfg.L X), rng, cnt, [], []⟩)
    ⟨hi, ⟨by rw [f3], by rw [f4], f6, f1⟩, fun R _ h0 => by rw [f2]; exact h0⟩ h2
  exact ⟨w, a, g.same.field, g.same.path, g.same.rng, g.same.cnt, g.gain⟩

/-- the measurements of program and method agree, without phonons -/
structure AgreeHS (sys : Sys σ N M) (cfg : Cfg) (m0 : M) (st : State σ N M) (w : Walk σ cfg.L N) : Prop where
  same : Same st w
  gain : ∀ R, Records sys cfg.L cfg.prodBlen R → R m0 [] [] → R st.meas w.eqs w.uneqs

open Classical in
theorem AgreeHS.slice [NeZero N] (hs : AgreeHS sys cfg m0 st w) (hp : cfg.usePhonons = false) (hok : sys.Ok cfg.prodBlen)
    (hl : l < cfg.L) (it : ℤ) (h : Inv sys (fun _ _ => 1) cfg.L cfg.prodBlen l st)
    (e : hsTimeSlice sys (effNeqlt cfg it) st l = some st') :
    Inv sys (fun _ _ => 1) cfg.L cfg.prodBlen (l + 1) st' ∧
    ∃ w', (chainOf sys ph cfg).slice it w l = some w' ∧ AgreeHS sys cfg m0 st' w' := by
  obtain ⟨st1, e1, hmeas, hi, e3⟩ := hsTimeSlice_split hok hl _ h e
  have hw0 : Same (MonteCarlo.wrap l st) w := ⟨hs.same.field, hs.same.path, hs.same.rng, hs.same.cnt⟩
  obtain ⟨w1, a1, s1⟩ := hw0.hsSlice (ph := ph) hp (h.wrap hl) hok hl e1
  obtain ⟨b1, c1⟩ := visit_lists _ _ _ (reverse_lists _ _) _ _ a1
  have hf : (chainOf sys ph cfg).fields := Or.inl hp
  have hph : ¬ (chainOf sys ph cfg).phonons := fun h => by
    have h : cfg.usePhonons = true := h
    rw [hp] at h
    cases h
  unfold Chain.slice
  rw [if_pos hf, a1]
  simp only [Option.bind_some, if_neg hph]
  have hg : ∀ R, Records sys cfg.L cfg.prodBlen R → R m0 [] [] → R st1.meas w1.eqs w1.uneqs := by
    intro R hR h0
    rw [hmeas, b1, c1]
    exact hs.gain R hR h0
  have hd : (chainOf sys ph cfg).eqDue it l ↔ (effNeqlt cfg it > 0 ∧ (l + 1) % effNeqlt cfg it = 0) :=
    (due_iff cfg it l).symm
  unfold measureEq at e3
  by_cases hc : effNeqlt cfg it > 0 ∧ (l + 1) % effNeqlt cfg it = 0
  · rw [if_pos (hd.2 hc)]
    rw [if_pos hc] at e3
    simp only [Option.bind_eq_bind] at e3
    obtain ⟨m1, e4, e3⟩ := Option.bind_eq_some_iff.1 e3
    simp only [Option.pure_def, Option.some.injEq] at e3
    rw [← e3]
    refine ⟨⟨hi.up, hi.down⟩, _, rfl, ⟨s1.field, s1.path, s1.rng, s1.cnt⟩, fun R hR h0 => ?_⟩
    exact hR.eq _ _ l _ _ _ _ _ _ hl ⟨hi.up.good, hi.down.good⟩ s1.field e4 (hg R hR h0)
  · rw [if_neg fun h => hc (hd.1 h)]
    rw [if_neg hc] at e3
    obtain rfl := Option.some.inj e3
    exact ⟨hi, _, rfl, ⟨s1.field, s1.path, s1.rng, s1.cnt⟩, hg⟩

open Classical in
theorem AgreeHS.iteration [NeZero N] (hs : AgreeHS sys cfg m0 st w) (hp : cfg.usePhonons = false)
    (hok : sys.Ok cfg.prodBlen) (it : ℤ) (h : Inv sys (fun _ _ => 1) cfg.L cfg.prodBlen 0 st)
    (e : simBody sys ph cfg it st = some st') :
    Inv sys (fun _ _ => 1) cfg.L cfg.prodBlen 0 st' ∧
    ∃ w', (chainOf sys ph cfg).iteration it w = some w' ∧ AgreeHS sys cfg m0 st' w' := by
  have hph : ¬ (chainOf sys ph cfg).phonons := fun h => by
    have h : cfg.usePhonons = true := h
    rw [hp] at h
    cases h
  unfold simBody at e
  simp only [hp, Bool.false_eq_true, if_false, Option.bind_eq_bind] at e
  obtain ⟨st1, e1, e4⟩ := Option.bind_eq_some_iff.1 e
  unfold dqmcIteration at e1
  rw [h.up.td.hL] at e1
  obtain ⟨w1, a1, i1, g1⟩ := foldlM_agree
    (R := fun k st w => Inv sys (fun _ _ => 1) cfg.L cfg.prodBlen k st ∧ AgreeHS sys cfg m0 st w)
    _ ((chainOf sys ph cfg).slice it) cfg.L (fun k hk st w st' hR e => by
      obtain ⟨i, w', a, g⟩ := hR.2.slice (ph := ph) hp hok hk it hR.1 e
      exact ⟨w', a, i, g⟩) ⟨h, hs⟩ e1
  have i3 : Inv sys (fun _ _ => 1) cfg.L cfg.prodBlen 0 st1 := ⟨i1.up.next, i1.down.next⟩
  unfold Chain.iteration
  simp only [if_neg hph]
  rw [a1, Option.bind_some, Option.bind_some, Option.bind_some]
  have hd : (chainOf sys ph cfg).uneqDue it ↔ (it ≥ cfg.nequil ∧ cfg.nuneqlt > 0 ∧ it.tmod cfg.nuneqlt = 0) := by
    show (cfg.nequil ≤ it ∧ 0 < cfg.nuneqlt ∧ cfg.nuneqlt ∣ it) ↔ _
    rw [Int.dvd_iff_tmod_eq_zero]
  unfold measureUneq at e4
  by_cases hc : it ≥ cfg.nequil ∧ cfg.nuneqlt > 0 ∧ it.tmod cfg.nuneqlt = 0
  · rw [if_pos (hd.2 hc)]
    rw [if_pos hc] at e4
    simp only [Option.bind_eq_bind] at e4
    obtain ⟨m, e5, e4⟩ := Option.bind_eq_some_iff.1 e4
    simp only [Option.pure_def, Option.some.injEq] at e4
    rw [← e4]
    refine ⟨⟨i3.up, i3.down⟩, _, rfl, ⟨g1.same.field, g1.same.path, g1.same.rng, g1.same.cnt⟩, fun R hR h0 => ?_⟩
    exact hR.uneq _ _ _ _ _ i3 g1.same.field e5 (g1.gain R hR h0)
  · rw [if_neg fun h => hc (hd.1 h)]
    rw [if_neg hc] at e4
    obtain rfl := Option.some.inj e4
    exact ⟨i3, _, rfl, g1⟩

/-- C83: a run without phonons is the textbook method -/
theorem simulate_is_metropolis [NeZero N] (hok : sys.Ok cfg.prodBlen) (hL : 0 < cfg.L) (hd : cfg.prodBlen ∣ cfg.L)
    (hp : cfg.usePhonons = false) (stop : ℤ → Bool) (it : ℤ) (rng : σ) (s : ℕ → Fin N → Fin 2) (X expX : ℕ → Fin N → ℝ)
    (cnt : Counters) (meas : M) (r : LoopResult (State σ N M))
    (h : simulate sys ph cfg stop it rng s X expX cnt meas = some r) :
    ∃ w, (chainOf sys ph cfg).run it (iterations stop (cfg.nequil + cfg.nsampl - it).toNat it)
        ⟨(fieldOf cfg.L s, pathsOf cfg.L X), rng, cnt, [], []⟩ = some w ∧
      fieldOf cfg.L r.state.s = w.conf.1 ∧ pathsOf cfg.L r.state.X = w.conf.2 ∧ r.state.rng = w.rng ∧ r.state.cnt = w.cnt ∧
      ∀ R, Records sys cfg.L cfg.prodBlen R → R meas [] [] → R r.state.meas w.eqs w.uneqs := by
  unfold simulate at h
  simp only [Option.bind_eq_bind] at h
  obtain ⟨st, e1, h⟩ := Option.bind_eq_some_iff.1 h
  have h2 := simLoop_iterations _ _ _ _ _ _ _ h
  rw [runs_foldlM] at h2
  have hi := startState_inv hok (by omega) hd hp _ _ _ _ _ _ _ e1
  obtain ⟨-, f2, f3, f4, f1, f6⟩ := startState_frame (cfg := cfg) _ _ _ _ _ _ _ e1
  obtain ⟨w, a, -, g⟩ := foldlM_agree
    (R := fun _ st w => Inv sys (fun _ _ => 1) cfg.L cfg.prodBlen 0 st ∧ AgreeHS sys cfg meas st w)
    _ (fun w (j : ℕ) => (chainOf sys ph cfg).iteration (it + j) w) _ (fun k _ st w st' hR e => by
      obtain ⟨i, w', a, g⟩ := hR.2.iteration hp hok _ hR.1 e
      exact ⟨w', a, i, g⟩) (w := ⟨(fieldOf cfg.L s, pathsOf cfg.L X), rng, cnt, [], []⟩)
    ⟨hi, ⟨by rw [f3], by rw [f4], f6, f1⟩, fun R _ h0 => by rw [f2]; exact h0⟩ h2
  exact ⟨w, a, g.same.field, g.same.path, g.same.rng, g.same.cnt, g.gain⟩

end steps

end Verif.MonteCarlo
