import Verif.Props.RoundedPhSteps

/-! # Property C123, third part: the updates in rounded arithmetic, away from ties -/

set_option autoImplicit false

namespace Verif.Rounded.Ph

open Filter Topology Matrix Verif.Lapack Verif.TimeFlow Verif.Greens Verif.Stratonovich Verif.MonteCarlo Verif.Ultra

variable {N : ℕ} {σ : Type} {M : Type}

variable {U : Ultrafilter ℕ} {mlim : Ultrafilter ℕ → (ℕ → M) → M → Prop} {sys : Sys σ N M} {ph : Phonon} {L len k l : ℕ} {q : Prop} {u : ℕ → ℝ}
  {c : ℕ → Comp N M} {at' bt : ℕ → State σ N M} {a : State σ N M}

/-- away from a tie the comparison has the same result in the end -/
theorem decision {x : ℕ → ℝ} {x₀ r : ℝ} (hx : Tendsto x U (𝓝 x₀)) (hr : r ≠ x₀) : ∀ᶠ t in (U : Filter ℕ), (r < x t ↔ r < x₀) := by
  rcases lt_or_gt_of_ne hr with h | h
  · exact (hx.eventually (lt_mem_nhds h)).mono fun t ht => iff_of_true ht h
  · exact (hx.eventually (gt_mem_nhds h)).mono fun t ht => iff_of_false ht.not_gt h.not_gt

theorem XLim.update {X : ℕ → ℕ → Fin N → ℝ} {X₀ : ℕ → Fin N → ℝ} (h : XLim U L X X₀) (l : ℕ) (i : Fin N) {x : ℕ → ℝ} {x₀ : ℝ}
    (hx : Tendsto x U (𝓝 x₀)) : XLim U L (fun t => Function.update (X t) l (Function.update (X t l) i (x t)))
      (Function.update X₀ l (Function.update (X₀ l) i x₀)) := by
  intro k hk j
  by_cases hkl : k = l
  · subst hkl
    simp only [Function.update_self]
    by_cases hj : j = i
    · subst hj
      simpa only [Function.update_self] using hx
    · simpa only [Function.update_of_ne hj] using h k hk j
  · simpa only [Function.update_of_ne hkl] using h k hk j

section steps

variable (hc : Ctx U mlim sys L len k q u c)

include hc

theorem wrap_stLim (h : StLim U mlim L len c l at' a) {l' : ℕ} (hl : l' < L) :
    StLim U mlim L len c l (fun t => wrap (c t) l' (at' t)) (MonteCarlo.wrap l' a) :=
  { h with
    gu := ⟨hc.along.gemm (hc.along.gemm (h.up.B l' hl) h.gu.mat) (h.up.invB l' hl), h.gu.logdet, h.gu.sgn⟩
    gd := ⟨hc.along.gemm (hc.along.gemm (h.down.B l' hl) h.gd.mat) (h.down.invB l' hl), h.gd.logdet, h.gd.sgn⟩ }

theorem delta_lim (v : Fin 2) (i : Fin N) : Tendsto (fun t => (c t).tab.hs.delta v (sys.orb i)) U (𝓝 (sys.hs.delta v (sys.orb i))) :=
  table_lim hc (fun tab => tab.hs.delta v (sys.orb i)) _ fun _ _ h => h.delta v i

theorem expVu_lim (v : Fin 2) (i : Fin N) : Tendsto (fun t => (c t).tab.hs.expVu v (sys.orb i)) U (𝓝 (sys.hs.expVu v (sys.orb i))) :=
  table_lim hc (fun tab => tab.hs.expVu v (sys.orb i)) _ fun _ _ h => h.expVu v i

theorem expVd_lim (v : Fin 2) (i : Fin N) : Tendsto (fun t => (c t).tab.hs.expVd v (sys.orb i)) U (𝓝 (sys.hs.expVd v (sys.orb i))) :=
  table_lim hc (fun tab => tab.hs.expVd v (sys.orb i)) _ fun _ _ h => h.expVd v i

/-- C123: a flip of the Hubbard-Stratonovich field -/
theorem hsSite_stLim (h : StLim U mlim L len c l at' a) (i : Fin N) (l' : ℕ) (hpos : 0 < (sys.rng.uniform a.rng).1)
    (hne : (sys.rng.uniform a.rng).1 ≠ |MonteCarlo.ratio a.Gu i (sys.hs.delta (a.s l' i) (sys.orb i))
      * MonteCarlo.ratio a.Gd i (sys.hs.delta (1 - a.s l' i) (sys.orb i))|) :
    StLim U mlim L len c l (fun t => hsSite (c t) sys l' (at' t) i) (MonteCarlo.hsSite sys l' a i) := by
  have hdu := delta_lim hc (a.s l' i) i
  have hdd := delta_lim hc (1 - a.s l' i) i
  have hru := ratio_lim hc.along h.gu.mat i hdu
  have hrd := ratio_lim hc.along h.gd.mat i hdd
  have hdec := decision (hc.along.ops.mul hru hrd).abs hne
  by_cases hacc : (sys.rng.uniform a.rng).1 < |MonteCarlo.ratio a.Gu i (sys.hs.delta (a.s l' i) (sys.orb i))
      * MonteCarlo.ratio a.Gd i (sys.hs.delta (1 - a.s l' i) (sys.orb i))|
  · have h0 := abs_pos.1 (hpos.trans hacc)
    rw [MonteCarlo.hsSite, if_pos hacc]
    have key : StLim U mlim L len c l (fun t =>
        { at' t with
          rng := (sys.rng.uniform (at' t).rng).2
          Gu := applyUpdate (c t).pl.toArith (at' t).Gu i ((c t).tab.hs.delta (a.s l' i) (sys.orb i))
            (ratio (c t).pl.toArith (at' t).Gu i ((c t).tab.hs.delta (a.s l' i) (sys.orb i)))
          Gd := applyUpdate (c t).pl.toArith (at' t).Gd i ((c t).tab.hs.delta (1 - a.s l' i) (sys.orb i))
            (ratio (c t).pl.toArith (at' t).Gd i ((c t).tab.hs.delta (1 - a.s l' i) (sys.orb i)))
          s := Function.update (at' t).s l' (Function.update ((at' t).s l') i (1 - (at' t).s l' i)) })
        { a with
          rng := (sys.rng.uniform a.rng).2
          Gu := MonteCarlo.applyUpdate a.Gu i (sys.hs.delta (a.s l' i) (sys.orb i))
            (MonteCarlo.ratio a.Gu i (sys.hs.delta (a.s l' i) (sys.orb i)))
          Gd := MonteCarlo.applyUpdate a.Gd i (sys.hs.delta (1 - a.s l' i) (sys.orb i))
            (MonteCarlo.ratio a.Gd i (sys.hs.delta (1 - a.s l' i) (sys.orb i)))
          s := Function.update a.s l' (Function.update (a.s l') i (1 - a.s l' i)) } :=
      { h with
        rng := h.rng.mono fun t ht => by simp only [ht]
        s := h.s.mono fun t ht => by simp only [ht]
        gu := applyUpdate_lim hc h.gu i hdu (left_ne_zero_of_mul h0)
        gd := applyUpdate_lim hc h.gd i hdd (right_ne_zero_of_mul h0) }
    refine key.congr' hc ?_
    filter_upwards [h.rng, h.s, hdec] with t h1 h2 h3
    unfold hsSite
    simp only [h1, h2]
    rw [if_pos (h3.2 hacc)]
  · rw [MonteCarlo.hsSite, if_neg hacc]
    have key : StLim U mlim L len c l (fun t => { at' t with rng := (sys.rng.uniform (at' t).rng).2 })
        { a with rng := (sys.rng.uniform a.rng).2 } :=
      { h with rng := h.rng.mono fun t ht => by simp only [ht] }
    refine key.congr' hc ?_
    filter_upwards [h.rng, h.s, hdec] with t h1 h2 h3
    unfold hsSite
    simp only [h1, h2]
    rw [if_neg fun h => hacc (h3.1 h)]

theorem expOf_lim (i : Fin N) {x : ℕ → ℝ} {x₀ : ℝ} (hx : Tendsto x U (𝓝 x₀)) :
    Tendsto (fun t => expOf (c t) sys ph i (x t)) U (𝓝 (Real.exp (-ph.dt * ph.g (sys.orb i) * x₀))) :=
  exp_lim hc (hc.along.ops.mul (hc.along.ops.mul tendsto_const_nhds tendsto_const_nhds) hx)

theorem halfSq_lim (o : ℕ) : Tendsto (fun t => halfSq (c t) ph o) U (𝓝 (0.5 * ph.omega o ^ 2)) := by
  rw [sq]
  exact hc.along.ops.mul tendsto_const_nhds (hc.along.ops.mul tendsto_const_nhds tendsto_const_nhds)

theorem energy_lim (hdt : ph.dt ≠ 0) {X : ℕ → ℕ → Fin N → ℝ} {X₀ : ℕ → Fin N → ℝ} (hX : XLim U L X X₀) {l' : ℕ} (hl : l' < L) (i : Fin N)
    {dx : ℕ → ℝ} {d₀ : ℝ} (hd : Tendsto dx U (𝓝 d₀)) :
    Tendsto (fun t => localEnergyChange (c t) sys ph L l' (X t) i (dx t)) U (𝓝 (MonteCarlo.localEnergyChange sys ph L l' X₀ i d₀)) := by
  have hL : 0 < L := by omega
  have o := hc.along.ops
  have k2 : Tendsto (fun _ : ℕ => (2 : ℝ)) U (𝓝 2) := tendsto_const_nhds
  unfold localEnergyChange MonteCarlo.localEnergyChange
  simp only
  rw [sq ph.dt]
  exact o.mul hd (o.add (o.mul (halfSq_lim hc _) (o.add hd (o.mul k2 (hX _ hl i))))
    (o.mul (o.div tendsto_const_nhds (o.mul tendsto_const_nhds tendsto_const_nhds) (mul_ne_zero hdt hdt))
      (o.sub hd (o.add (o.sub (hX _ (Nat.mod_lt _ hL) i) (o.mul k2 (hX _ hl i))) (hX _ (Nat.mod_lt _ hL) i)))))

/-- C123: a local update of the phonon field -/
theorem localSite_stLim (h : StLim U mlim L len c l at' a) (hdt : ph.dt ≠ 0) (i : Fin N) {l' : ℕ} (hl : l' < L) (haL : a.tsmU.L = L)
    (hpos : 0 < (sys.rng.uniform (sys.rng.uniform a.rng).2).1)
    (hne : ph.g (sys.orb i) ≠ 0 →
      let dx := ((sys.rng.uniform a.rng).1 - 0.5) * ph.localBox
      let delta := Real.exp (-ph.dt * ph.g (sys.orb i) * dx) - 1
      (sys.rng.uniform (sys.rng.uniform a.rng).2).1 ≠ |MonteCarlo.ratio a.Gu i delta * MonteCarlo.ratio a.Gd i delta|
        * Real.exp (-ph.dt * MonteCarlo.localEnergyChange sys ph L l' a.X i dx)) :
    StLim U mlim L len c l (fun t => localSite (c t) sys ph l' (at' t) i) (MonteCarlo.localSite sys ph l' a i) := by
  by_cases hg : ph.g (sys.orb i) = 0
  · simp only [localSite, MonteCarlo.localSite, if_pos hg]
    exact h
  have o := hc.along.ops
  specialize hne hg
  simp only at hne
  set r := sys.rng.uniform a.rng with hr
  set r2 := sys.rng.uniform r.2 with hr2
  set d₀ := (r.1 - 0.5) * ph.localBox with hd₀
  set δ₀ := Real.exp (-ph.dt * ph.g (sys.orb i) * d₀) - 1 with hδ₀
  set dx : ℕ → ℝ := fun t => (c t).pl.mul ((c t).pl.sub r.1 0.5) ph.localBox with hdx
  set δ : ℕ → ℝ := fun t => (c t).pl.expm1 ((c t).pl.mul ((c t).pl.mul (-ph.dt) (ph.g (sys.orb i))) (dx t)) with hδ
  have hdl : Tendsto dx U (𝓝 d₀) := o.mul (o.sub tendsto_const_nhds tendsto_const_nhds) tendsto_const_nhds
  have hδl : Tendsto δ U (𝓝 δ₀) := expm1_lim hc (o.mul (o.mul tendsto_const_nhds tendsto_const_nhds) hdl)
  have hru := ratio_lim hc.along h.gu.mat i hδl
  have hrd := ratio_lim hc.along h.gd.mat i hδl
  have hE := energy_lim hc hdt h.X hl i hdl
  have hdec := decision (o.mul (o.mul hru hrd).abs (exp_lim hc (o.mul (tendsto_const_nhds (x := -ph.dt)) hE))) hne
  by_cases hacc : r2.1 < |MonteCarlo.ratio a.Gu i δ₀ * MonteCarlo.ratio a.Gd i δ₀|
        * Real.exp (-ph.dt * MonteCarlo.localEnergyChange sys ph L l' a.X i d₀)
  · have h0 : MonteCarlo.ratio a.Gu i δ₀ * MonteCarlo.ratio a.Gd i δ₀ ≠ 0 := by
      intro h0
      rw [h0, abs_zero, zero_mul] at hacc
      exact absurd hacc hpos.not_gt
    have e : MonteCarlo.localSite sys ph l' a i = MonteCarlo.setX sys ph l' i (a.X l' i + d₀)
        { a with
          rng := r2.2
          cnt := { a.cnt with localTotal := a.cnt.localTotal + 1, localAccept := a.cnt.localAccept + 1 }
          Gu := MonteCarlo.applyUpdate a.Gu i δ₀ (MonteCarlo.ratio a.Gu i δ₀)
          Gd := MonteCarlo.applyUpdate a.Gd i δ₀ (MonteCarlo.ratio a.Gd i δ₀) } := by
      rw [MonteCarlo.localSite, if_neg hg]
      simp only [haL]
      rw [if_pos hacc]
    rw [e]
    have key : StLim U mlim L len c l (fun t => setX (c t) sys ph l' i ((c t).pl.add ((at' t).X l' i) (dx t))
        { at' t with
          rng := r2.2
          cnt := { a.cnt with localTotal := a.cnt.localTotal + 1, localAccept := a.cnt.localAccept + 1 }
          Gu := applyUpdate (c t).pl.toArith (at' t).Gu i (δ t) (ratio (c t).pl.toArith (at' t).Gu i (δ t))
          Gd := applyUpdate (c t).pl.toArith (at' t).Gd i (δ t) (ratio (c t).pl.toArith (at' t).Gd i (δ t)) })
        (MonteCarlo.setX sys ph l' i (a.X l' i + d₀)
        { a with
          rng := r2.2
          cnt := { a.cnt with localTotal := a.cnt.localTotal + 1, localAccept := a.cnt.localAccept + 1 }
          Gu := MonteCarlo.applyUpdate a.Gu i δ₀ (MonteCarlo.ratio a.Gu i δ₀)
          Gd := MonteCarlo.applyUpdate a.Gd i δ₀ (MonteCarlo.ratio a.Gd i δ₀) }) := by
      have hx := o.add (h.X l' hl i) hdl
      exact { h with
        rng := Eventually.of_forall fun _ => rfl
        cnt := Eventually.of_forall fun _ => rfl
        X := h.X.update l' i hx
        expX := h.expX.update l' i (expOf_lim hc i hx)
        gu := applyUpdate_lim hc h.gu i hδl (left_ne_zero_of_mul h0)
        gd := applyUpdate_lim hc h.gd i hδl (right_ne_zero_of_mul h0) }
    refine key.congr' hc ?_
    filter_upwards [h.rng, h.cnt, hdec, h.up.dims] with t h1 h2 h3 h4
    rw [localSite, if_neg hg]
    simp only [h1, h2, h4.hL]
    rw [if_pos (h3.2 hacc)]
  · have e : MonteCarlo.localSite sys ph l' a i
        = { a with rng := r2.2, cnt := { a.cnt with localTotal := a.cnt.localTotal + 1 } } := by
      rw [MonteCarlo.localSite, if_neg hg]
      simp only [haL]
      rw [if_neg hacc]
    rw [e]
    have key : StLim U mlim L len c l (fun t => { at' t with rng := r2.2, cnt := { a.cnt with localTotal := a.cnt.localTotal + 1 } })
        { a with rng := r2.2, cnt := { a.cnt with localTotal := a.cnt.localTotal + 1 } } :=
      { h with rng := Eventually.of_forall fun _ => rfl, cnt := Eventually.of_forall fun _ => rfl }
    refine key.congr' hc ?_
    filter_upwards [h.rng, h.cnt, hdec, h.up.dims] with t h1 h2 h3 h4
    rw [localSite, if_neg hg]
    simp only [h1, h2, h4.hL]
    rw [if_neg fun h => hacc (h3.1 h)]

/-! ## Time step matrices -/

theorem phB_lim {V : ℕ → Fin 2 → ℕ → ℝ} {V₀ : Fin 2 → ℕ → ℝ}
    (hV : ∀ v (i : Fin N), Tendsto (fun t => V t v (sys.orb i)) U (𝓝 (V₀ v (sys.orb i)))) {s : ℕ → ℕ → Fin N → Fin 2} {s₀ : ℕ → Fin N → Fin 2}
    (hs : ∀ᶠ t in (U : Filter ℕ), s t = s₀) {E : ℕ → ℕ → Fin N → ℝ} {E₀ : ℕ → Fin N → ℝ} (hE : XLim U L E E₀) {l' : ℕ} (hl : l' < L)
    (h0 : ∀ i, E₀ l' i ≠ 0) :
    MLim U (fun t => phB (c t) sys (V t) (s t) (E t) l') (sys.phB V₀ s₀ E₀ l') ∧
    MLim U (fun t => phInvB (c t) sys (V t) (s t) (E t) l') (sys.phInvB V₀ s₀ E₀ l') := by
  have o := hc.along.ops
  have hK : MLim U (fun t => (c t).tab.expK) sys.expK :=
    mlim_of_near (c := 1) hc.along.null (MLim.const sys.expK) (hc.tab.mono fun t ht => by rw [mul_one]; exact ht.expK)
  have hI : MLim U (fun t => (c t).tab.invExpK) sys.invExpK :=
    mlim_of_near (c := 1) hc.along.null (MLim.const sys.invExpK) (hc.tab.mono fun t ht => by rw [mul_one]; exact ht.invExpK)
  constructor
  · have : MLim U (fun t => phB (c t) sys (V t) s₀ (E t) l') (sys.phB V₀ s₀ E₀ l') := fun i j =>
      o.mul (o.mul (hV (s₀ l' i) i) (hE l' hl i)) (hK i j)
    exact this.congr' (hs.mono fun t ht => by rw [ht])
  · have : MLim U (fun t => phInvB (c t) sys (V t) s₀ (E t) l') (sys.phInvB V₀ s₀ E₀ l') := fun j i =>
      o.mul (o.div (hV (1 - s₀ l' i) i) (hE l' hl i) (h0 i)) (hI j i)
    exact this.congr' (hs.mono fun t ht => by rw [ht])

omit hc in
theorem tsm_update_lim {tsm : ℕ → TSM N} {tsm₀ : TSM N} {l' : ℕ} (h : TLim U (fun t => (c t).pl.toArith) L len l' tsm tsm₀)
    (hd : TsmDims L len tsm₀) {mk mkInv : ℕ → ℕ → Mat N} {mk₀ mkInv₀ : ℕ → Mat N} (h1 : MLim U (fun t => mk t l') (mk₀ l'))
    (h2 : MLim U (fun t => mkInv t l') (mkInv₀ l')) (W0 : Mat N) :
    TLim U (fun t => (c t).pl.toArith) L len (l' + 1) (fun t => updateWith (c t).pl.toArith (mk t) (mkInv t) W0 l' (tsm t))
      (TimeFlow.updateWith mk₀ mkInv₀ W0 l' tsm₀) := by
  have e0 := TimeFlow.updateWith_spec mk₀ mkInv₀ W0 l' tsm₀ hd.dims.len
  have hev := h.dims.mono fun t ht => rupdateWith_spec (c t).pl.toArith (mk t) (mkInv t) W0 l' (tsm t) ht.dims.len
  refine ⟨?_, ?_, fun k hk => ?_, fun k hk => ?_⟩
  · filter_upwards [h.dims, hev] with t a b
    obtain ⟨-, -, ⟨b1, b2, b3⟩, -⟩ := b
    exact ⟨⟨by rw [b2]; exact a.dims.len, by rw [b3]; exact a.dims.num, by rw [b1, b2, b3]; exact a.dims.mul⟩,
      b1.trans a.hL, b2.trans a.hlen⟩
  · filter_upwards [h.dims, h.fresh] with t a b
    exact b.update _ a.dims.len _ _ _
  · rw [e0.1]
    have : MLim U (fun t => Function.update (tsm t).B l' (mk t l') k) (Function.update tsm₀.B l' (mk₀ l') k) := by
      by_cases hkl : k = l'
      · subst hkl
        simpa only [Function.update_self] using h1
      · simpa only [Function.update_of_ne hkl] using h.B k hk
    exact this.congr' (hev.mono fun t ht => by rw [ht.1])
  · rw [e0.2.1]
    have : MLim U (fun t => Function.update (tsm t).invB l' (mkInv t l') k) (Function.update tsm₀.invB l' (mkInv₀ l') k) := by
      by_cases hkl : k = l'
      · subst hkl
        simpa only [Function.update_self] using h2
      · simpa only [Function.update_of_ne hkl] using h.invB k hk
    exact this.congr' (hev.mono fun t ht => by rw [ht.2.1])

theorem updatePhB_stLim {l' : ℕ} (h : StLim U mlim L len c l' at' a) (hl : l' < L) (ha : PhMid sys ph L len l' a) :
    StLim U mlim L len c (l' + 1) (fun t => updatePhB (c t) sys l' (at' t)) (MonteCarlo.updatePhB sys l' a) := by
  have hu := phB_lim hc (expVu_lim hc) h.s h.expX hl (ha.coh.ne l' hl)
  have hd := phB_lim hc (expVd_lim hc) h.s h.expX hl (ha.coh.ne l' hl)
  exact { h with
    up := tsm_update_lim h.up ha.mid.up.td hu.1 hu.2 sys.W0
    down := tsm_update_lim h.down ha.mid.down.td hd.1 hd.2 sys.W0 }

/-- C123: recomputation of the Green's functions -/
theorem maybeRecompute_stLim [NeZero N] (hok : sys.Ok len) {l' : ℕ} (h : StLim U mlim L len c (l' + 1) at' a)
    (ha : PhInv sys ph L len (l' + 1) a) :
    ∃ bt, (∀ᶠ t in (U : Filter ℕ), maybeRecompute (c t) sys l' (at' t) = some (bt t)) ∧ StLim U mlim L len c (l' + 1) bt a := by
  by_cases hw : (l' + 1) % sys.nwraps = 0
  · have hdvd : len ∣ l' + 1 := hok.dvd.trans (Nat.dvd_of_mod_eq_zero hw)
    have hdL : len ∣ L := ha.inv.up.td.dvd
    have hsh : len ∣ (l' + 1) % L := (Nat.dvd_mod_iff hdL).2 hdvd
    have key : ∀ {tsm : ℕ → TSM N} {tsm₀ : TSM N} {B : ℕ → Mat N} {G : GreensFn N}, TLim U (fun t => (c t).pl.toArith) L len (l' + 1) tsm tsm₀ →
        SpinInv B L len (l' + 1) tsm₀ G →
        ∃ g : ℕ → GreensFn N, (∀ᶠ t in (U : Filter ℕ), greenConstruct (c t).pl.toArith (tsm t) ((l' + 1) % L) = some (g t)) ∧ GLim U g G := by
      intro tsm tsm₀ B G ht hs
      refine construct_glim hc (B := B) ht.dims ?_ (fun m hm => ?_) (fun m hm => ?_) hsh (hs.good.shift_congr (by rw [Nat.mod_mod]))
      · filter_upwards [ht.dims, ht.fresh] with t x y
        exact y.all _ (by rw [x.hlen]; exact hdvd)
      · rw [← (hs.mats m hm).1]
        exact ht.B m hm
      · rw [← (hs.mats m hm).1]
        intro h0
        have := congrArg Matrix.det (hs.mats m hm).2
        rw [det_mul, h0, zero_mul, det_one] at this
        exact zero_ne_one this
    obtain ⟨gu, hgu, hgu'⟩ := key h.up ha.inv.up
    obtain ⟨gd, hgd, hgd'⟩ := key h.down ha.inv.down
    refine ⟨fun t => { at' t with Gu := gu t, Gd := gd t }, ?_, { h with gu := hgu', gd := hgd' }⟩
    filter_upwards [hgu, hgd, h.up.dims] with t x y z
    rw [maybeRecompute, if_pos hw, z.hL, x, y]
    rfl
  · exact ⟨at', Eventually.of_forall fun t => by rw [maybeRecompute, if_neg hw], h⟩

theorem measurePh_stLim (h : StLim U mlim L len c l at' a) {l' neqlt : ℕ} (hl : l' < L) {b : State σ N M}
    (hb : MonteCarlo.measurePh sys neqlt l' a = some b) :
    ∃ bt, (∀ᶠ t in (U : Filter ℕ), measurePh (c t) neqlt l' (at' t) = some (bt t)) ∧ StLim U mlim L len c l bt b := by
  unfold MonteCarlo.measurePh at hb
  by_cases hm : neqlt > 0 ∧ (l' + 1) % neqlt = 0
  · rw [if_pos hm] at hb
    simp only [Option.bind_eq_bind] at hb
    obtain ⟨m1, e1, hb⟩ := Option.bind_eq_some_iff.1 hb
    obtain ⟨m2, e2, hb⟩ := Option.bind_eq_some_iff.1 hb
    have hb := Option.some.inj hb
    subst hb
    obtain ⟨x1, h1, l1⟩ := hc.eq _ _ _ _ _ _ _ h.gu h.gd h.meas e1
    obtain ⟨x2, h2, l2⟩ := hc.phonon _ _ l' _ _ _ _ _ _ _ hl h.gu h.gd h.X l1 e2
    refine ⟨fun t => { at' t with meas := x2 t }, ?_, { h with meas := l2 }⟩
    filter_upwards [h1, h2] with t x y
    rw [measurePh, if_pos hm, x]
    simp only [Option.bind_eq_bind, Option.bind_some]
    rw [y]
    rfl
  · rw [if_neg hm] at hb
    have hb := Option.some.inj hb
    subst hb
    exact ⟨at', Eventually.of_forall fun t => by rw [measurePh, if_neg hm], h⟩

theorem measureUneq_stLim {cfg : Cfg} (hq : 0 < cfg.nuneqlt → q) (h : StLim U mlim L len c 0 at' a)
    (ha : PhInv sys ph L len 0 a) {it : ℤ} {b : State σ N M} (hb : MonteCarlo.measureUneq sys cfg it a = some b) :
    ∃ bt, (∀ᶠ t in (U : Filter ℕ), measureUneq (c t) cfg it (at' t) = some (bt t)) ∧ StLim U mlim L len c 0 bt b := by
  unfold MonteCarlo.measureUneq at hb
  by_cases hm : it ≥ cfg.nequil ∧ cfg.nuneqlt > 0 ∧ it.tmod cfg.nuneqlt = 0
  · rw [if_pos hm] at hb
    simp only [Option.bind_eq_bind] at hb
    obtain ⟨m1, e1, hb⟩ := Option.bind_eq_some_iff.1 hb
    have hb := Option.some.inj hb
    subst hb
    obtain ⟨x1, h1, l1⟩ := hc.uneq (hq hm.2.1) _ _ _ _ _ _ _ _ _ _ _ _ ha.inv.up ha.inv.down h.up h.down h.meas e1
    refine ⟨fun t => { at' t with meas := x1 t }, ?_, { h with meas := l1 }⟩
    filter_upwards [h1, h.gu.sgn, h.gd.sgn] with t x y z
    rw [measureUneq, if_pos hm, y, z, x]
    rfl
  · rw [if_neg hm] at hb
    have hb := Option.some.inj hb
    subst hb
    exact ⟨at', Eventually.of_forall fun t => by rw [measureUneq, if_neg hm], h⟩

/-! ## Block and flip updates -/

omit hc in
theorem tsm_init_lim (hL : 0 < L) (hd : len ∣ L) {mk mkInv : ℕ → ℕ → Mat N} {mk₀ mkInv₀ : ℕ → Mat N}
    (h1 : ∀ l < L, MLim U (fun t => mk t l) (mk₀ l)) (h2 : ∀ l < L, MLim U (fun t => mkInv t l) (mkInv₀ l)) (W0 : Mat N) (junk : ℕ → Mat N) :
    TLim U (fun t => (c t).pl.toArith) L len 0 (fun t => initWith (c t).pl.toArith (mk t) (mkInv t) W0 (allocate L len junk))
      (TimeFlow.initWith mk₀ mkInv₀ W0 (allocate L len junk)) := by
  have hD := allocate_dims L len hL hd junk
  have e0 := TimeFlow.initWith_spec mk₀ mkInv₀ W0 _ hD
  have e := fun t => rinitWith_spec (c t).pl.toArith (mk t) (mkInv t) W0 _ hD
  refine ⟨Eventually.of_forall fun t => ⟨(e t).2.2.1, (e t).2.2.2.1, (e t).2.2.2.2⟩, Eventually.of_forall fun t m hm _ => (e t).2.1 m hm,
    fun k hk => ?_, fun k hk => ?_⟩
  · rw [(e0.1 k hk).1]
    exact (h1 k hk).congr' (Eventually.of_forall fun t => ((e t).1 k hk).1.symm)
  · rw [(e0.1 k hk).2]
    exact (h2 k hk).congr' (Eventually.of_forall fun t => ((e t).1 k hk).2.symm)

omit hc in
theorem rcopy_fresh {ar : Arith N} {src dst : TSM N} (hs : TsmDims L len src) (hd : TsmDims L len dst) (hf : RFreshFrom ar src 0) :
    TsmDims L len (TimeFlow.copy src dst) ∧ RFreshFrom ar (TimeFlow.copy src dst) 0 := by
  have hnum : src.numBprod = dst.numBprod := by
    have h1 := hs.dims.mul
    have h2 := hd.dims.mul
    rw [hs.hL, hs.hlen] at h1
    rw [hd.hL, hd.hlen] at h2
    have hp : 0 < len := by rw [← hd.hlen]; exact hd.dims.len
    exact Nat.eq_of_mul_eq_mul_right hp (h1.symm.trans h2)
  refine ⟨⟨⟨hd.dims.len, hd.dims.num, hd.dims.mul⟩, hd.hL, hd.hlen⟩, ?_⟩
  intro m hm _
  have hm' : m < dst.numBprod := hm
  have hms : m < src.numBprod := by rw [hnum]; exact hm'
  have hf : RFreshAt ar src m := hf m hms (by simp)
  unfold RFreshAt at hf ⊢
  have e1 : (TimeFlow.copy src dst).Bprod m = src.Bprod m := by
    simp only [TimeFlow.copy, hms, if_true]
  have e2 : (TimeFlow.copy src dst).prodBlen = src.prodBlen := by
    rw [hs.hlen]; exact hd.hlen
  rw [e1, hf, e2]
  have hp := hs.dims.len
  refine pseq_congr ar fun j hj => ?_
  have : m * src.prodBlen + j < src.L := by
    rw [hs.dims.mul]
    calc m * src.prodBlen + j < m * src.prodBlen + src.prodBlen := by omega
      _ = (m + 1) * src.prodBlen := by ring
      _ ≤ _ := Nat.mul_le_mul_right _ hms
  simp only [TimeFlow.copy, this, if_true]

omit hc in
theorem copy_tlim {src dst : ℕ → TSM N} {src₀ dst₀ : TSM N} (hs : TLim U (fun t => (c t).pl.toArith) L len 0 src src₀)
    (hd : ∀ᶠ t in (U : Filter ℕ), TsmDims L len (dst t)) (hs₀ : src₀.L = L) :
    TLim U (fun t => (c t).pl.toArith) L len 0 (fun t => TimeFlow.copy (src t) (dst t)) (TimeFlow.copy src₀ dst₀) := by
  refine ⟨?_, ?_, fun k hk => ?_, fun k hk => ?_⟩
  · filter_upwards [hs.dims, hd, hs.fresh] with t x y z
    exact (rcopy_fresh x y z).1
  · filter_upwards [hs.dims, hd, hs.fresh] with t x y z
    exact (rcopy_fresh x y z).2
  · simp only [TimeFlow.copy, hs₀, hk, if_true]
    refine (hs.B k hk).congr' (hs.dims.mono fun t ht => ?_)
    simp only [ht.hL, hk, if_true]
  · simp only [TimeFlow.copy, hs₀, hk, if_true]
    refine (hs.invB k hk).congr' (hs.dims.mono fun t ht => ?_)
    simp only [ht.hL, hk, if_true]

omit hc in
theorem XLim.path {X : ℕ → ℕ → Fin N → ℝ} {X₀ : ℕ → Fin N → ℝ} (h : XLim U L X X₀) (i : Fin N) {f : ℕ → ℕ → ℝ} {f₀ : ℕ → ℝ}
    (hf : ∀ k < L, Tendsto (fun t => f t k) U (𝓝 (f₀ k))) :
    XLim U L (fun t l k => if l < L ∧ k = i then f t l else X t l k) (fun l k => if l < L ∧ k = i then f₀ l else X₀ l k) := by
  intro k hk j
  by_cases hj : j = i
  · simpa only [hk, hj, and_self, if_true] using hf k hk
  · simpa only [hj, and_false, if_false] using h k hk j

/-- matrices and Green's functions of a new phonon field -/
theorem start_lim [NeZero N] (hok : sys.Ok len) (hL : 0 < L) (hd : len ∣ L) {s : ℕ → ℕ → Fin N → Fin 2} {s₀ : ℕ → Fin N → Fin 2}
    (hs : ∀ᶠ t in (U : Filter ℕ), s t = s₀) {E : ℕ → ℕ → Fin N → ℝ} {E₀ : ℕ → Fin N → ℝ} (hE : XLim U L E E₀) (h0 : ∀ l < L, ∀ i, E₀ l i ≠ 0)
    {V : ℕ → Fin 2 → ℕ → ℝ} {V₀ : Fin 2 → ℕ → ℝ} (hV : ∀ v (i : Fin N), Tendsto (fun t => V t v (sys.orb i)) U (𝓝 (V₀ v (sys.orb i))))
    (hrec : ∀ (i : Fin N) v, V₀ v (i / sys.Ncell) * V₀ (1 - v) (i / sys.Ncell) = 1) {g₀ : GreensFn N}
    (hg : Greens.greenConstruct sys.lp (TimeFlow.initWith (sys.phB V₀ s₀ E₀) (sys.phInvB V₀ s₀ E₀) sys.W0 (allocate L len sys.junk)) 0 = some g₀) :
    TLim U (fun t => (c t).pl.toArith) L len 0 (fun t => initWith (c t).pl.toArith (phB (c t) sys (V t) (s t) (E t))
        (phInvB (c t) sys (V t) (s t) (E t)) sys.W0 (allocate L len sys.junk))
      (TimeFlow.initWith (sys.phB V₀ s₀ E₀) (sys.phInvB V₀ s₀ E₀) sys.W0 (allocate L len sys.junk)) ∧
    ∃ g, (∀ᶠ t in (U : Filter ℕ), greenConstruct (c t).pl.toArith (initWith (c t).pl.toArith (phB (c t) sys (V t) (s t) (E t))
        (phInvB (c t) sys (V t) (s t) (E t)) sys.W0 (allocate L len sys.junk)) 0 = some (g t)) ∧ GLim U g g₀ := by
  have hinv : ∀ l < L, sys.phB V₀ s₀ E₀ l * sys.phInvB V₀ s₀ E₀ l = 1 := fun l hl =>
    (phononTimeStepMatrix_inverse _ _ _ hok.expK _ _ _ hrec (h0 l hl)).2.1
  have hT := tsm_init_lim (c := c) hL hd (fun l hl => (phB_lim hc hV hs hE hl (h0 l hl)).1) (fun l hl => (phB_lim hc hV hs hE hl (h0 l hl)).2)
    sys.W0 sys.junk
  have hS := SpinInv.init L len hL hd sys.lp sys.junk _ _ sys.W0 hinv
  have sp := hS.2.2.2 g₀ hg
  refine ⟨hT, construct_glim hc hT.dims ?_ (fun l hl => ?_) (fun l hl h => ?_) (dvd_zero _) sp.good⟩
  · filter_upwards [hT.fresh] with t ht
    exact ht.all _ (dvd_zero _)
  · rw [← (hS.2.1 l hl).1]
    exact hT.B l hl
  · have := congrArg Matrix.det (hinv l hl)
    rw [det_mul, h, zero_mul, det_one] at this
    exact zero_ne_one this

theorem decide_stLim [NeZero N] (hok : sys.Ok len) (h : StLim U mlim L len c 0 at' a) (ha : PhInv sys ph L len 0 a) (kind : Kind) (i : Fin N)
    {f : ℕ → ℝ} {ft : ℕ → ℕ → ℝ} (hf : ∀ k < L, Tendsto (fun t => ft t k) U (𝓝 (f k))) {dE : ℝ} {dEt : ℕ → ℝ} (hdEt : Tendsto dEt U (𝓝 dE))
    (hdE : dE = sys.energy ph L (movePath L a.X i f) - sys.energy ph L a.X) (r : σ) {b : State σ N M}
    (hb : MonteCarlo.decide sys ph kind i (fun l => a.X l i) (fun l => a.expX l i) dE (MonteCarlo.moveX sys ph L i f { a with rng := r }) = some b)
    (hne : (sys.rng.uniform r).1 ≠ sys.fullWeight ph L a.s (movePath L a.X i f) / sys.fullWeight ph L a.s a.X) :
    ∃ bt, (∀ᶠ t in (U : Filter ℕ), decide (c t) sys ph kind i (fun l => (at' t).X l i) (fun l => (at' t).expX l i) (dEt t)
      (moveX (c t) sys ph L i (ft t) { at' t with rng := r }) = some (bt t)) ∧ StLim U mlim L len c 0 bt b := by
  have o := hc.along.ops
  have hL0 : 0 < L := by
    rw [← ha.inv.up.td.hL, ha.inv.up.td.dims.mul]
    exact Nat.mul_pos ha.inv.up.td.dims.num ha.inv.up.td.dims.len
  have hd : len ∣ L := ha.inv.up.td.dvd
  have hcoh : Coherent sys ph L (MonteCarlo.moveX sys ph L i f { a with rng := r }) := by
    intro k hk j
    have := ha.coh k hk j
    unfold Sys.expOf at this ⊢
    simp only [MonteCarlo.moveX]
    by_cases hj : j = i
    · subst hj; simp only [hk, and_self, if_true]
    · simp only [hj, and_false, if_false, this]
  unfold MonteCarlo.decide at hb
  simp only [Option.bind_eq_bind] at hb
  obtain ⟨gu, eu, hb⟩ := Option.bind_eq_some_iff.1 hb
  obtain ⟨gd, ed, hb⟩ := Option.bind_eq_some_iff.1 hb
  have hUL : (MonteCarlo.moveX sys ph L i f { a with rng := r }).tsmU.L = L := ha.inv.up.td.hL
  have hUlen : (MonteCarlo.moveX sys ph L i f { a with rng := r }).tsmU.prodBlen = len := ha.inv.up.td.hlen
  have hDlen : (MonteCarlo.moveX sys ph L i f { a with rng := r }).tsmD.prodBlen = len := ha.inv.down.td.hlen
  rw [hUL, hUlen] at eu
  rw [hUL, hDlen] at ed
  rw [hUL, hUlen, hDlen] at hb
  have su := (SpinInv.init L len hL0 hd sys.lp sys.junk _ _ sys.W0
    (fun k hk => (phInv_mul hok hcoh k hk).1)).2.2.2 gu eu
  have sd := (SpinInv.init L len hL0 hd sys.lp sys.junk _ _ sys.W0
    (fun k hk => (phInv_mul hok hcoh k hk).2)).2.2.2 gd ed
  have su' := su.congr (B' := sys.fieldB sys.hs.expVu a.s (sys.expOf ph (movePath L a.X i f)))
    fun k hk => (fieldB_eq_phonon sys _ _ _ _).trans (hcoh.fieldB _ k hk)
  have sd' := sd.congr (B' := sys.fieldB sys.hs.expVd a.s (sys.expOf ph (movePath L a.X i f)))
    fun k hk => (fieldB_eq_phonon sys _ _ _ _).trans (hcoh.fieldB _ k hk)
  have w0 := (Exact.weight_record (sys := sys) ⟨ha.inv.up.good, ha.inv.down.good⟩ hL0).1
  have w1 := (Exact.weight_record (sys := sys) ⟨su'.good, sd'.good⟩ hL0).1
  have hr : sys.fullWeight ph L a.s (movePath L a.X i f) / sys.fullWeight ph L a.s a.X
      = Real.exp ((a.Gu.logdet + a.Gd.logdet) - (gu.logdet + gd.logdet) - ph.dt * dE) := by
    unfold Sys.fullWeight
    rw [w0, w1, hdE, ← Real.exp_add, ← Real.exp_add, ← Real.exp_sub]
    congr 1
    ring
  rw [hr] at hne
  -- the moved states
  have hXl : XLim U L (fun t => (moveX (c t) sys ph L i (ft t) { at' t with rng := r }).X)
      (MonteCarlo.moveX sys ph L i f { a with rng := r }).X := h.X.path i hf
  have hEl : XLim U L (fun t => (moveX (c t) sys ph L i (ft t) { at' t with rng := r }).expX)
      (MonteCarlo.moveX sys ph L i f { a with rng := r }).expX := h.expX.path i fun k hk => expOf_lim hc i (hf k hk)
  obtain ⟨tu, gut, hgu, hgul⟩ := start_lim hc hok hL0 hd h.s hEl (fun k hk => hcoh.ne k hk) (expVu_lim hc) hok.recipU eu
  obtain ⟨td, gdt, hgd, hgdl⟩ := start_lim hc hok hL0 hd h.s hEl (fun k hk => hcoh.ne k hk) (expVd_lim hc) hok.recipD ed
  have hdec := decision (exp_lim hc (o.sub (o.sub (o.add h.gu.logdet h.gd.logdet) (o.add hgul.logdet hgdl.logdet))
    (o.mul (tendsto_const_nhds (x := ph.dt)) hdEt))) hne
  by_cases hacc : (sys.rng.uniform r).1 < Real.exp ((a.Gu.logdet + a.Gd.logdet) - (gu.logdet + gd.logdet) - ph.dt * dE)
  · have hacc' : (sys.rng.uniform (MonteCarlo.moveX sys ph L i f { a with rng := r }).rng).1
      < Real.exp (((MonteCarlo.moveX sys ph L i f { a with rng := r }).Gu.logdet
        + (MonteCarlo.moveX sys ph L i f { a with rng := r }).Gd.logdet) - (gu.logdet + gd.logdet) - ph.dt * dE) := hacc
    rw [if_pos hacc'] at hb
    have hb := Option.some.inj hb
    subst hb
    refine ⟨fun t =>
      { moveX (c t) sys ph L i (ft t) { at' t with rng := r } with
        rng := (sys.rng.uniform r).2
        cnt := ((at' t).cnt.attempt kind).accept kind
        Gu := Greens.copy (gut t) (at' t).Gu
        Gd := Greens.copy (gdt t) (at' t).Gd
        tsmU := TimeFlow.copy (initWith (c t).pl.toArith
          (phB (c t) sys (c t).tab.hs.expVu (at' t).s (moveX (c t) sys ph L i (ft t) { at' t with rng := r }).expX)
          (phInvB (c t) sys (c t).tab.hs.expVu (at' t).s (moveX (c t) sys ph L i (ft t) { at' t with rng := r }).expX)
          sys.W0 (allocate L len sys.junk)) (at' t).tsmU
        tsmD := TimeFlow.copy (initWith (c t).pl.toArith
          (phB (c t) sys (c t).tab.hs.expVd (at' t).s (moveX (c t) sys ph L i (ft t) { at' t with rng := r }).expX)
          (phInvB (c t) sys (c t).tab.hs.expVd (at' t).s (moveX (c t) sys ph L i (ft t) { at' t with rng := r }).expX)
          sys.W0 (allocate L len sys.junk)) (at' t).tsmD }, ?_, ?_⟩
    · filter_upwards [h.up.dims, h.down.dims, hgu, hgd, hdec] with t d1 d2 g1 g2 dd
      have e1 : (moveX (c t) sys ph L i (ft t) { at' t with rng := r }).tsmU.L = L := d1.hL
      have e2 : (moveX (c t) sys ph L i (ft t) { at' t with rng := r }).tsmU.prodBlen = len := d1.hlen
      have e3 : (moveX (c t) sys ph L i (ft t) { at' t with rng := r }).tsmD.prodBlen = len := d2.hlen
      have g1' : greenConstruct (c t).pl.toArith (initWith (c t).pl.toArith
          (phB (c t) sys (c t).tab.hs.expVu (moveX (c t) sys ph L i (ft t) { at' t with rng := r }).s
            (moveX (c t) sys ph L i (ft t) { at' t with rng := r }).expX)
          (phInvB (c t) sys (c t).tab.hs.expVu (moveX (c t) sys ph L i (ft t) { at' t with rng := r }).s
            (moveX (c t) sys ph L i (ft t) { at' t with rng := r }).expX)
          sys.W0 (allocate L len sys.junk)) 0 = some (gut t) := g1
      have g2' : greenConstruct (c t).pl.toArith (initWith (c t).pl.toArith
          (phB (c t) sys (c t).tab.hs.expVd (moveX (c t) sys ph L i (ft t) { at' t with rng := r }).s
            (moveX (c t) sys ph L i (ft t) { at' t with rng := r }).expX)
          (phInvB (c t) sys (c t).tab.hs.expVd (moveX (c t) sys ph L i (ft t) { at' t with rng := r }).s
            (moveX (c t) sys ph L i (ft t) { at' t with rng := r }).expX)
          sys.W0 (allocate L len sys.junk)) 0 = some (gdt t) := g2
      unfold decide
      simp only [e1, e2, e3, g1', g2', Option.bind_eq_bind, Option.bind_some]
      rw [if_pos]
      · rfl
      · exact dd.2 hacc
    · exact
        { rng := Eventually.of_forall fun _ => rfl
          s := h.s
          cnt := h.cnt.mono fun t ht => by simp only [ht]; rfl
          X := hXl
          expX := hEl
          up := copy_tlim tu h.up.dims su.td.hL
          down := copy_tlim td h.down.dims sd.td.hL
          gu := ⟨hgul.mat, hgul.logdet, hgul.sgn⟩
          gd := ⟨hgdl.mat, hgdl.logdet, hgdl.sgn⟩
          meas := h.meas }
  · have hacc' : ¬ (sys.rng.uniform (MonteCarlo.moveX sys ph L i f { a with rng := r }).rng).1
      < Real.exp (((MonteCarlo.moveX sys ph L i f { a with rng := r }).Gu.logdet
        + (MonteCarlo.moveX sys ph L i f { a with rng := r }).Gd.logdet) - (gu.logdet + gd.logdet) - ph.dt * dE) := hacc
    rw [if_neg hacc'] at hb
    have hb := Option.some.inj hb
    subst hb
    refine ⟨fun t => restoreX L i (fun l => (at' t).X l i) (fun l => (at' t).expX l i)
      { moveX (c t) sys ph L i (ft t) { at' t with rng := r } with rng := (sys.rng.uniform r).2, cnt := (at' t).cnt.attempt kind }, ?_, ?_⟩
    · filter_upwards [h.up.dims, h.down.dims, hgu, hgd, hdec] with t d1 d2 g1 g2 dd
      have e1 : (moveX (c t) sys ph L i (ft t) { at' t with rng := r }).tsmU.L = L := d1.hL
      have e2 : (moveX (c t) sys ph L i (ft t) { at' t with rng := r }).tsmU.prodBlen = len := d1.hlen
      have e3 : (moveX (c t) sys ph L i (ft t) { at' t with rng := r }).tsmD.prodBlen = len := d2.hlen
      have g1' : greenConstruct (c t).pl.toArith (initWith (c t).pl.toArith
          (phB (c t) sys (c t).tab.hs.expVu (moveX (c t) sys ph L i (ft t) { at' t with rng := r }).s
            (moveX (c t) sys ph L i (ft t) { at' t with rng := r }).expX)
          (phInvB (c t) sys (c t).tab.hs.expVu (moveX (c t) sys ph L i (ft t) { at' t with rng := r }).s
            (moveX (c t) sys ph L i (ft t) { at' t with rng := r }).expX)
          sys.W0 (allocate L len sys.junk)) 0 = some (gut t) := g1
      have g2' : greenConstruct (c t).pl.toArith (initWith (c t).pl.toArith
          (phB (c t) sys (c t).tab.hs.expVd (moveX (c t) sys ph L i (ft t) { at' t with rng := r }).s
            (moveX (c t) sys ph L i (ft t) { at' t with rng := r }).expX)
          (phInvB (c t) sys (c t).tab.hs.expVd (moveX (c t) sys ph L i (ft t) { at' t with rng := r }).s
            (moveX (c t) sys ph L i (ft t) { at' t with rng := r }).expX)
          sys.W0 (allocate L len sys.junk)) 0 = some (gdt t) := g2
      unfold decide
      simp only [e1, e2, e3, g1', g2', Option.bind_eq_bind, Option.bind_some]
      rw [if_neg]
      · rfl
      · exact fun hh => hacc (dd.1 hh)
    · exact
        { rng := Eventually.of_forall fun _ => rfl
          s := h.s
          cnt := h.cnt.mono fun t ht => by
            simp only [restoreX, MonteCarlo.moveX, ht]
          X := hXl.path i fun k hk => h.X k hk i
          expX := hEl.path i fun k hk => h.expX k hk i
          up := h.up
          down := h.down
          gu := h.gu
          gd := h.gd
          meas := h.meas }

theorem sliceSum_lim {f : ℕ → ℕ → ℝ} {f₀ : ℕ → ℝ} (n : ℕ) (hf : ∀ k < n, Tendsto (fun t => f t k) U (𝓝 (f₀ k))) :
    Tendsto (fun t => sliceSum (c t) n (f t)) U (𝓝 (MonteCarlo.sliceSum n f₀)) := by
  rw [sliceSum_eq]
  induction n with
  | zero =>
    simp only [sliceSum, List.range_zero, List.foldl_nil, Finset.range_zero, Finset.sum_empty]
    exact tendsto_const_nhds
  | succ n ih =>
    simp only [sliceSum, List.range_succ, List.foldl_append, List.foldl_cons, List.foldl_nil, Finset.sum_range_succ]
    exact hc.along.ops.add (ih fun k hk => hf k (by omega)) (hf n (by omega))

/-- C123: a block update -/
theorem blockUpdate_stLim [NeZero N] (hok : sys.Ok len) (h : StLim U mlim L len c 0 at' a) (ha : PhInv sys ph L len 0 a) {b : State σ N M}
    (hb : MonteCarlo.blockUpdate sys ph a = some b)
    (hne : ∀ i r, sys.rng.site N a.rng = some (i, r) → ph.g (sys.orb i) ≠ 0 →
      (sys.rng.uniform (sys.rng.uniform r).2).1 ≠ sys.fullWeight ph L a.s
        (movePath L a.X i fun l => a.X l i + ((sys.rng.uniform r).1 - 0.5) * ph.blockBox) / sys.fullWeight ph L a.s a.X) :
    ∃ bt, (∀ᶠ t in (U : Filter ℕ), blockUpdate (c t) sys ph (at' t) = some (bt t)) ∧ StLim U mlim L len c 0 bt b := by
  have o := hc.along.ops
  have hL0 : 0 < L := by
    rw [← ha.inv.up.td.hL, ha.inv.up.td.dims.mul]
    exact Nat.mul_pos ha.inv.up.td.dims.num ha.inv.up.td.dims.len
  unfold MonteCarlo.blockUpdate at hb
  simp only [Option.bind_eq_bind] at hb
  obtain ⟨⟨i, r⟩, e1, hb⟩ := Option.bind_eq_some_iff.1 hb
  simp only at hb
  by_cases hg : ph.g (sys.orb i) = 0
  · rw [if_pos hg] at hb
    have hb := Option.some.inj hb
    subst hb
    refine ⟨fun t => { at' t with rng := r }, ?_, { h with rng := Eventually.of_forall fun _ => rfl }⟩
    filter_upwards [h.rng] with t ht
    unfold blockUpdate
    simp only [ht, e1, Option.bind_eq_bind, Option.bind_some, if_pos hg]
    rfl
  · rw [if_neg hg, ha.inv.up.td.hL] at hb
    have hdx : Tendsto (fun t => (c t).pl.mul ((c t).pl.sub (sys.rng.uniform r).1 0.5) ph.blockBox) U
        (𝓝 (((sys.rng.uniform r).1 - 0.5) * ph.blockBox)) := o.mul (o.sub tendsto_const_nhds tendsto_const_nhds) tendsto_const_nhds
    have k2 : Tendsto (fun _ : ℕ => (2 : ℝ)) U (𝓝 2) := tendsto_const_nhds
    obtain ⟨bt, h1, h2⟩ := decide_stLim hc hok h ha .block i (fun k hk => o.add (h.X k hk i) hdx)
      (o.mul (sliceSum_lim hc L fun k hk => o.add hdx (o.mul k2 (h.X k hk i))) (o.mul (halfSq_lim hc _) hdx)) (by
        rw [movePath_energy _ _ _ hL0, sliceSum_eq, Finset.sum_mul]
        refine Finset.sum_congr rfl fun l _ => ?_
        rw [half_lit]
        ring) _ hb (hne i r e1 hg)
    refine ⟨bt, ?_, h2⟩
    filter_upwards [h.rng, h1, h.up.dims] with t x y z
    unfold blockUpdate
    simp only [x, e1, Option.bind_eq_bind, Option.bind_some, if_neg hg, z.hL]
    exact y

/-- C123: a flip update -/
theorem flipUpdate_stLim [NeZero N] (hok : sys.Ok len) (h : StLim U mlim L len c 0 at' a) (ha : PhInv sys ph L len 0 a) {b : State σ N M}
    (hb : MonteCarlo.flipUpdate sys ph a = some b)
    (hne : ∀ i r, sys.rng.site N a.rng = some (i, r) → ph.g (sys.orb i) ≠ 0 →
      (sys.rng.uniform r).1 ≠ sys.fullWeight ph L a.s
        (movePath L a.X i fun l => 2 * ph.mu / ph.g (sys.orb i) - a.X l i) / sys.fullWeight ph L a.s a.X) :
    ∃ bt, (∀ᶠ t in (U : Filter ℕ), flipUpdate (c t) sys ph (at' t) = some (bt t)) ∧ StLim U mlim L len c 0 bt b := by
  have o := hc.along.ops
  have hL0 : 0 < L := by
    rw [← ha.inv.up.td.hL, ha.inv.up.td.dims.mul]
    exact Nat.mul_pos ha.inv.up.td.dims.num ha.inv.up.td.dims.len
  unfold MonteCarlo.flipUpdate at hb
  simp only [Option.bind_eq_bind] at hb
  obtain ⟨⟨i, r⟩, e1, hb⟩ := Option.bind_eq_some_iff.1 hb
  simp only at hb
  by_cases hg : ph.g (sys.orb i) = 0
  · rw [if_pos hg] at hb
    have hb := Option.some.inj hb
    subst hb
    refine ⟨fun t => { at' t with rng := r }, ?_, { h with rng := Eventually.of_forall fun _ => rfl }⟩
    filter_upwards [h.rng] with t ht
    unfold flipUpdate
    simp only [ht, e1, Option.bind_eq_bind, Option.bind_some, if_pos hg]
    rfl
  · rw [if_neg hg, ha.inv.up.td.hL] at hb
    have k2 : Tendsto (fun _ : ℕ => (2 : ℝ)) U (𝓝 2) := tendsto_const_nhds
    have hfl : Tendsto (fun t => (c t).pl.div ((c t).pl.mul 2 ph.mu) (ph.g (sys.orb i))) U (𝓝 (2 * ph.mu / ph.g (sys.orb i))) :=
      o.div (o.mul k2 tendsto_const_nhds) tendsto_const_nhds hg
    obtain ⟨bt, h1, h2⟩ := decide_stLim hc hok h ha .flip i (fun k hk => o.sub hfl (h.X k hk i))
      (sliceSum_lim hc L fun k hk => o.mul (o.mul (halfSq_lim hc _) hfl.neg) (o.add hfl.neg (o.mul k2 (h.X k hk i)))) (by
        rw [movePath_energy _ _ _ hL0, sliceSum_eq]
        refine Finset.sum_congr rfl fun l _ => ?_
        rw [half_lit]
        ring) _ hb (hne i r e1 hg)
    refine ⟨bt, ?_, h2⟩
    filter_upwards [h.rng, h1, h.up.dims] with t x y z
    unfold flipUpdate
    simp only [x, e1, Option.bind_eq_bind, Option.bind_some, if_neg hg, z.hL]
    exact y

/-- C123: the set-up -/
theorem startState_stLim [NeZero N] {cfg : Cfg} (hcL : cfg.L = L) (hclen : cfg.prodBlen = len) (hp : cfg.usePhonons = true) (hok : sys.Ok len)
    (hL : 0 < L) (hd : len ∣ L) (r : σ) (s : ℕ → Fin N → Fin 2) {X E : ℕ → ℕ → Fin N → ℝ} {X₀ E₀ : ℕ → Fin N → ℝ} (hX : XLim U L X X₀)
    (hE : XLim U L E E₀) (h0 : ∀ l < L, ∀ i, E₀ l i ≠ 0) (cnt : Counters) {m : ℕ → M} {m₀ : M} (hm : mlim U m m₀) {b : State σ N M}
    (hb : MonteCarlo.startState sys cfg r s X₀ E₀ cnt m₀ = some b) :
    ∃ bt, (∀ᶠ t in (U : Filter ℕ), startState (c t) sys cfg r s (X t) (E t) cnt (m t) = some (bt t)) ∧ StLim U mlim L len c 0 bt b := by
  subst hcL hclen
  unfold MonteCarlo.startState MonteCarlo.startMatrices at hb
  simp only [Option.bind_eq_bind, hp, if_true] at hb
  obtain ⟨gu, e1, hb⟩ := Option.bind_eq_some_iff.1 hb
  obtain ⟨gd, e2, hb⟩ := Option.bind_eq_some_iff.1 hb
  have hb := Option.some.inj hb
  subst hb
  obtain ⟨tu, gut, hgu, hgul⟩ := start_lim hc hok hL hd (s := fun _ => s) (Eventually.of_forall fun _ => rfl) hE h0 (expVu_lim hc) hok.recipU e1
  obtain ⟨td, gdt, hgd, hgdl⟩ := start_lim hc hok hL hd (s := fun _ => s) (Eventually.of_forall fun _ => rfl) hE h0 (expVd_lim hc) hok.recipD e2
  refine ⟨fun t =>
    { rng := r
      s := s
      X := X t
      expX := E t
      tsmU := startMatrices (c t) sys cfg (c t).tab.hs.expVu s (E t)
      tsmD := startMatrices (c t) sys cfg (c t).tab.hs.expVd s (E t)
      Gu := gut t
      Gd := gdt t
      cnt := cnt
      meas := m t }, ?_, ?_⟩
  · filter_upwards [hgu, hgd] with t x y
    unfold startState
    simp only [startMatrices, x, y, Option.bind_eq_bind, Option.bind_some]
    rfl
  · exact ⟨Eventually.of_forall fun _ => rfl, Eventually.of_forall fun _ => rfl, Eventually.of_forall fun _ => rfl, hX, hE, tu, td, hgul, hgdl, hm⟩

end steps

end Verif.Rounded.Ph
