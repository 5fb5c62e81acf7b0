import Verif.Props.SimulationInv

/-!
# A simulation may be restarted between two iterations

The time step matrices and Green's functions of a state between two iterations are those which the
set-up constructs from the field.  `Tidy` says that memory beyond the arrays in use is untouched, so
that "the same" is equality.
-/

set_option autoImplicit false

namespace Verif.MonteCarlo

open Matrix Verif.Lapack Verif.TimeFlow Verif.Greens Verif.Stratonovich Verif.Progress

variable {σ : Type} {N : ℕ} {M : Type}

/-- memory beyond the arrays in use is as it was allocated -/
structure TsmTidy (junk : ℕ → Mat N) (tsm : TSM N) : Prop where
  B : ∀ l, tsm.L ≤ l → tsm.B l = junk l
  invB : ∀ l, tsm.L ≤ l → tsm.invB l = junk l
  Bprod : ∀ k, tsm.numBprod ≤ k → tsm.Bprod k = junk k

theorem TsmTidy.setB {junk : ℕ → Mat N} {tsm : TSM N} (h : TsmTidy junk tsm) (l : ℕ) (hl : l < tsm.L)
    (a b : Mat N) : TsmTidy junk (tsm.setB l a b) := by
  refine ⟨fun k hk => ?_, fun k hk => ?_, h.Bprod⟩
  · have hk' : tsm.L ≤ k := hk
    show Function.update tsm.B l a k = _
    rw [Function.update_of_ne (by omega)]
    exact h.B k hk
  · have hk' : tsm.L ≤ k := hk
    show Function.update tsm.invB l b k = _
    rw [Function.update_of_ne (by omega)]
    exact h.invB k hk

theorem TsmTidy.setProd {junk : ℕ → Mat N} {tsm : TSM N} (h : TsmTidy junk tsm) (l : ℕ)
    (hl : l / tsm.prodBlen < tsm.numBprod) (W0 : Mat N) : TsmTidy junk (tsm.setProd l W0) := by
  refine ⟨h.B, h.invB, fun k hk => ?_⟩
  have hk' : tsm.numBprod ≤ k := hk
  show Function.update tsm.Bprod (l / tsm.prodBlen) _ k = _
  rw [Function.update_of_ne (by omega)]
  exact h.Bprod k hk

theorem TsmTidy.init {junk : ℕ → Mat N} {tsm : TSM N} (h : TsmTidy junk tsm) (hp : 0 < tsm.prodBlen)
    (mk mkInv : ℕ → Mat N) (W0 : Mat N) : TsmTidy junk (initWith mk mkInv W0 tsm) := by
  have h1 : ∀ k ≤ tsm.L, let t := (List.range k).foldl (fun t l => TSM.setB t l (mk l) (mkInv l)) tsm
      TsmTidy junk t ∧ t.L = tsm.L ∧ t.prodBlen = tsm.prodBlen := by
    intro k
    induction k with
    | zero => intro _; exact ⟨h, rfl, rfl⟩
    | succ k ih =>
      intro hk
      simp only [List.range_succ, List.foldl_append, List.foldl_cons, List.foldl_nil]
      obtain ⟨a, b, c⟩ := ih (by omega)
      exact ⟨a.setB k (by omega) _ _, b, c⟩
  unfold initWith
  simp only
  obtain ⟨a, -, c⟩ := h1 tsm.L le_rfl
  generalize (List.range tsm.L).foldl (fun t l => TSM.setB t l (mk l) (mkInv l)) tsm = t1 at a c
  have h2 : ∀ k ≤ t1.numBprod,
      let t := (List.range k).foldl (fun t l => TSM.setProd t (l * t.prodBlen) W0) t1
      TsmTidy junk t ∧ t.prodBlen = t1.prodBlen ∧ t.numBprod = t1.numBprod := by
    intro k
    induction k with
    | zero => intro _; exact ⟨a, rfl, rfl⟩
    | succ k ih =>
      intro hk
      simp only [List.range_succ, List.foldl_append, List.foldl_cons, List.foldl_nil]
      obtain ⟨a', b', c'⟩ := ih (by omega)
      refine ⟨a'.setProd _ ?_ _, b', c'⟩
      rw [Nat.mul_div_cancel _ (by rw [b', c]; exact hp), c']
      omega
  exact (h2 t1.numBprod le_rfl).1

theorem TsmTidy.allocate (L len : ℕ) (junk : ℕ → Mat N) :
    TsmTidy junk (allocate L len junk) := ⟨fun _ _ => rfl, fun _ _ => rfl, fun _ _ => rfl⟩

theorem TsmTidy.update {junk : ℕ → Mat N} {tsm : TSM N} (h : TsmTidy junk tsm) (hd : Dims tsm) (l : ℕ)
    (hl : l < tsm.L) (mk mkInv : ℕ → Mat N) (W0 : Mat N) :
    TsmTidy junk (updateWith mk mkInv W0 l tsm) := by
  unfold updateWith
  simp only
  split
  · refine (h.setB l hl _ _).setProd _ ?_ _
    show (l - (tsm.prodBlen - 1)) / tsm.prodBlen < tsm.numBprod
    have hm := hd.mul
    have hp := hd.len
    refine lt_of_le_of_lt (Nat.div_le_div_right (Nat.sub_le _ _)) ?_
    rw [Nat.div_lt_iff_lt_mul hp, ← hm]
    exact hl
  · exact h.setB l hl _ _

/-- memory beyond the arrays in use is untouched -/
structure Tidy (sys : Sys σ N M) (L : ℕ) (st : State σ N M) : Prop where
  up : TsmTidy sys.junk st.tsmU
  down : TsmTidy sys.junk st.tsmD
  field : ∀ l, L ≤ l → ∀ i, st.s l i = 0

variable {sys : Sys σ N M} {ph : Phonon} {cfg : Cfg}

theorem startState_tidy [NeZero N] (hL : 0 < cfg.L) (hd : cfg.prodBlen ∣ cfg.L) (rng : σ)
    (s : ℕ → Fin N → Fin 2) (X expX : ℕ → Fin N → ℝ) (cnt : Counters) (meas : M)
    (hs : ∀ l, cfg.L ≤ l → ∀ i, s l i = 0) (st : State σ N M)
    (h : startState sys cfg rng s X expX cnt meas = some st) : Tidy sys cfg.L st := by
  unfold startState at h
  simp only [Option.bind_eq_bind] at h
  obtain ⟨gu, e1, h⟩ := Option.bind_eq_some_iff.1 h
  obtain ⟨gd, e2, h⟩ := Option.bind_eq_some_iff.1 h
  simp only [Option.pure_def, Option.some.injEq] at h
  subst h
  have hp := (allocate_dims cfg.L cfg.prodBlen hL hd sys.junk).len
  have key : ∀ expV, TsmTidy sys.junk (startMatrices sys cfg expV s expX) := by
    intro expV
    unfold startMatrices
    simp only
    split <;> exact (TsmTidy.allocate _ _ _).init hp _ _ _
  exact ⟨key _, key _, hs⟩

/-- the parts of a state on which `Tidy` depends -/
theorem hsSite_tidy (l : ℕ) (L : ℕ) (hl : l < L) (st : State σ N M) (h : Tidy sys L st) (i : Fin N) :
    Tidy sys L (hsSite sys l st i) := by
  unfold hsSite
  simp only
  split
  · refine ⟨h.up, h.down, fun k hk j => ?_⟩
    show Function.update st.s l _ k j = 0
    rw [Function.update_of_ne (by omega)]
    exact h.field k hk j
  · exact ⟨h.up, h.down, h.field⟩

theorem hsSlice_tidy (l : ℕ) (L : ℕ) (hl : l < L) (st st' : State σ N M) (h : Tidy sys L st)
    (hs : hsSlice sys l st = some st') : Tidy sys L st' := by
  unfold hsSlice at hs
  simp only [Option.bind_eq_bind] at hs
  obtain ⟨r, -, hs⟩ := Option.bind_eq_some_iff.1 hs
  simp only [Option.pure_def, Option.some.injEq] at hs
  rw [← hs]
  have h0 : Tidy sys L { st with rng := r.2 } := ⟨h.up, h.down, h.field⟩
  generalize ({ st with rng := r.2 } : State σ N M) = t at h0
  induction r.1 generalizing t with
  | nil => exact h0
  | cons i l' ih => exact ih _ (hsSite_tidy l L hl t h0 i)

theorem maybeRecompute_tidy [NeZero N] (l L : ℕ) (st st' : State σ N M) (h : Tidy sys L st)
    (hs : maybeRecompute sys l st = some st') : Tidy sys L st' := by
  unfold maybeRecompute at hs
  split at hs
  · unfold recompute at hs
    simp only [Option.bind_eq_bind] at hs
    obtain ⟨gu, -, hs⟩ := Option.bind_eq_some_iff.1 hs
    obtain ⟨gd, -, hs⟩ := Option.bind_eq_some_iff.1 hs
    simp only [Option.pure_def, Option.some.injEq] at hs
    rw [← hs]
    exact ⟨h.up, h.down, h.field⟩
  · rw [← Option.some.inj hs]
    exact h

theorem measureEq_tidy (neqlt l L : ℕ) (st st' : State σ N M) (h : Tidy sys L st)
    (hs : measureEq sys neqlt l st = some st') : Tidy sys L st' := by
  unfold measureEq at hs
  split at hs
  · simp only [Option.bind_eq_bind] at hs
    obtain ⟨m, -, hs⟩ := Option.bind_eq_some_iff.1 hs
    simp only [Option.pure_def, Option.some.injEq] at hs
    rw [← hs]
    exact ⟨h.up, h.down, h.field⟩
  · rw [← Option.some.inj hs]
    exact h

/-- dimensions of both families of matrices -/
def GoodDims (L : ℕ) (st : State σ N M) : Prop :=
  (Dims st.tsmU ∧ st.tsmU.L = L) ∧ Dims st.tsmD ∧ st.tsmD.L = L

theorem updateWith_dims {tsm : TSM N} (hd : Dims tsm) (mk mkInv : ℕ → Mat N) (W0 : Mat N) (l : ℕ) :
    Dims (updateWith mk mkInv W0 l tsm) ∧ (updateWith mk mkInv W0 l tsm).L = tsm.L := by
  unfold updateWith
  simp only
  split <;> exact ⟨⟨hd.len, hd.num, hd.mul⟩, rfl⟩

theorem foldl_preserves {A B : Type} (P : A → Prop) (f : A → B → A) (hf : ∀ a b, P a → P (f a b))
    (l : List B) (a : A) (h : P a) : P (l.foldl f a) := by
  induction l generalizing a with
  | nil => exact h
  | cons b l ih => exact ih _ (hf a b h)

theorem hsSlice_dims (l L : ℕ) (st st' : State σ N M) (h : GoodDims L st)
    (hs : hsSlice sys l st = some st') : GoodDims L st' := by
  unfold hsSlice at hs
  simp only [Option.bind_eq_bind] at hs
  obtain ⟨r, -, hs⟩ := Option.bind_eq_some_iff.1 hs
  simp only [Option.pure_def, Option.some.injEq] at hs
  rw [← hs]
  refine foldl_preserves (GoodDims L) _ (fun t i ht => ?_) _ _ h
  unfold hsSite
  simp only
  split <;> exact ht

theorem hsTimeSlice_tidy [NeZero N] (neqlt l L : ℕ) (hl : l < L) (st st' : State σ N M)
    (h : Tidy sys L st) (hd : GoodDims L st) (hs : hsTimeSlice sys neqlt st l = some st') :
    Tidy sys L st' ∧ GoodDims L st' := by
  unfold hsTimeSlice at hs
  simp only [Option.bind_eq_bind] at hs
  obtain ⟨st1, e1, hs⟩ := Option.bind_eq_some_iff.1 hs
  obtain ⟨st2, e2, hs⟩ := Option.bind_eq_some_iff.1 hs
  have t1 := hsSlice_tidy l L hl (wrap l st) st1 ⟨h.up, h.down, h.field⟩ e1
  have d1 := hsSlice_dims l L (wrap l st) st1 hd e1
  have eU : (updateB sys l st1).tsmU =
      updateWith (fun l => timeStepMatrix sys.Ncell sys.expK sys.hs.expVu (st1.s l))
      (fun l => invTimeStepMatrix sys.Ncell sys.invExpK sys.hs.expVu (st1.s l)) sys.W0 l st1.tsmU := rfl
  have eD : (updateB sys l st1).tsmD =
      updateWith (fun l => timeStepMatrix sys.Ncell sys.expK sys.hs.expVd (st1.s l))
      (fun l => invTimeStepMatrix sys.Ncell sys.invExpK sys.hs.expVd (st1.s l)) sys.W0 l st1.tsmD := rfl
  have t2 : Tidy sys L (updateB sys l st1) := by
    refine ⟨?_, ?_, t1.field⟩
    · rw [eU]
      exact t1.up.update d1.1.1 l (by rw [d1.1.2]; exact hl) _ _ _
    · rw [eD]
      exact t1.down.update d1.2.1 l (by rw [d1.2.2]; exact hl) _ _ _
  have d2 : GoodDims L (updateB sys l st1) := by
    have u := fun a b c => updateWith_dims d1.1.1 a b c l
    have d := fun a b c => updateWith_dims d1.2.1 a b c l
    unfold GoodDims
    rw [eU, eD]
    exact ⟨⟨(u _ _ _).1, (u _ _ _).2.trans d1.1.2⟩, (d _ _ _).1, (d _ _ _).2.trans d1.2.2⟩
  have t3 := maybeRecompute_tidy l L _ st2 t2 e2
  refine ⟨measureEq_tidy neqlt l L _ st' t3 hs, ?_⟩
  have d3 : GoodDims L st2 := by
    unfold maybeRecompute at e2
    split at e2
    · unfold recompute at e2
      simp only [Option.bind_eq_bind] at e2
      obtain ⟨gu, -, e2⟩ := Option.bind_eq_some_iff.1 e2
      obtain ⟨gd, -, e2⟩ := Option.bind_eq_some_iff.1 e2
      simp only [Option.pure_def, Option.some.injEq] at e2
      rw [← e2]
      exact d2
    · rw [← Option.some.inj e2]
      exact d2
  unfold measureEq at hs
  split at hs
  · simp only [Option.bind_eq_bind] at hs
    obtain ⟨m, -, hs⟩ := Option.bind_eq_some_iff.1 hs
    simp only [Option.pure_def, Option.some.injEq] at hs
    rw [← hs]
    exact d3
  · rw [← Option.some.inj hs]
    exact d3

theorem foldlM_preserves {A B : Type} (P : A → Prop) (Q : B → Prop) (f : A → B → Option A)
    (hf : ∀ a b a', P a → Q b → f a b = some a' → P a') (l : List B) (hl : ∀ b ∈ l, Q b) (a a' : A)
    (h : P a) (hs : l.foldlM f a = some a') : P a' := by
  induction l generalizing a with
  | nil => cases hs; exact h
  | cons b l ih =>
    rw [List.foldlM_cons, Option.bind_eq_bind] at hs
    obtain ⟨c, e, hs⟩ := Option.bind_eq_some_iff.1 hs
    exact ih (fun x hx => hl x (List.mem_cons_of_mem _ hx)) c
      (hf a b c h (hl b List.mem_cons_self) e) hs

theorem dqmcIteration_tidy [NeZero N] (neqlt L : ℕ) (st st' : State σ N M)
    (h : Tidy sys L st) (hd : GoodDims L st) (hs : dqmcIteration sys neqlt st = some st') :
    Tidy sys L st' ∧ GoodDims L st' := by
  unfold dqmcIteration at hs
  rw [hd.1.2] at hs
  exact foldlM_preserves (fun t => Tidy sys L t ∧ GoodDims L t) (· < L) _
    (fun a b a' ha hb e => hsTimeSlice_tidy neqlt b L hb a a' ha.1 ha.2 e) _
    (fun b hb => List.mem_range.1 hb) _ _ ⟨h, hd⟩ hs

theorem simBody_tidy [NeZero N] (hp : cfg.usePhonons = false) (it : ℤ) (st st' : State σ N M)
    (h : Tidy sys cfg.L st) (hd : GoodDims cfg.L st) (hs : simBody sys ph cfg it st = some st') :
    Tidy sys cfg.L st' ∧ GoodDims cfg.L st' := by
  unfold simBody at hs
  simp only [Option.bind_eq_bind, hp, Bool.false_eq_true, if_false] at hs
  obtain ⟨st1, e1, hs⟩ := Option.bind_eq_some_iff.1 hs
  obtain ⟨t1, d1⟩ := dqmcIteration_tidy _ _ st st1 h hd e1
  unfold measureUneq at hs
  split at hs
  · simp only [Option.bind_eq_bind] at hs
    obtain ⟨m, -, hs⟩ := Option.bind_eq_some_iff.1 hs
    simp only [Option.pure_def, Option.some.injEq] at hs
    rw [← hs]
    exact ⟨⟨t1.up, t1.down, t1.field⟩, d1⟩
  · rw [← Option.some.inj hs]
    exact ⟨t1, d1⟩

/-! ## Restart -/

/-- matrices for the same slices, with the same memory beyond, are equal -/
theorem tsm_eq (junk : ℕ → Mat N) (a b : TSM N) (L len : ℕ) (ha : TsmDims L len a) (hb : TsmDims L len b)
    (ta : TsmTidy junk a) (tb : TsmTidy junk b) (hB : ∀ l < L, a.B l = b.B l)
    (ia : ∀ l < L, a.B l * a.invB l = 1) (ib : ∀ l < L, b.B l * b.invB l = 1)
    (fa : Fresh a) (fb : Fresh b) : a = b := by
  have hn : a.numBprod = b.numBprod := by
    have h1 := ha.dims.mul
    have h2 := hb.dims.mul
    rw [ha.hL, ha.hlen] at h1
    rw [hb.hL, hb.hlen] at h2
    have hp := ha.dims.len
    rw [ha.hlen] at hp
    exact Nat.eq_of_mul_eq_mul_right hp (h1.symm.trans h2)
  have e1 : a.B = b.B := by
    funext l
    by_cases h : l < L
    · exact hB l h
    · rw [ta.B l (by rw [ha.hL]; omega), tb.B l (by rw [hb.hL]; omega)]
  have e2 : a.invB = b.invB := by
    funext l
    by_cases h : l < L
    · have h1 := ia l h
      have h2 := ib l h
      rw [hB l h] at h1
      have h3 : b.invB l * b.B l = 1 := mul_eq_one_comm.1 h2
      calc a.invB l = (b.invB l * b.B l) * a.invB l := by rw [h3, one_mul]
        _ = b.invB l := by rw [mul_assoc, h1, mul_one]
    · rw [ta.invB l (by rw [ha.hL]; omega), tb.invB l (by rw [hb.hL]; omega)]
  have e3 : a.Bprod = b.Bprod := by
    funext k
    by_cases h : k < a.numBprod
    · rw [fa k h, fb k (hn ▸ h), e1, ha.hlen, hb.hlen]
    · rw [ta.Bprod k (by omega), tb.Bprod k (by omega)]
  have e4 : a.L = b.L := ha.hL.trans hb.hL.symm
  have e5 : a.prodBlen = b.prodBlen := ha.hlen.trans hb.hlen.symm
  cases a
  cases b
  simp only at *
  subst e1 e2 e3 e4 e5 hn
  rfl

/-- between two iterations all caches are fresh -/
theorem SpinInv.fresh0 {B : ℕ → Mat N} {L len : ℕ} {tsm : TSM N} {G : GreensFn N}
    (h : SpinInv B L len 0 tsm G) : Fresh tsm := fun m hm =>
  h.fresh m hm (by simp)

/-- C47, core: between two iterations, setting everything up again from the field changes nothing -/
theorem restart [NeZero N] (hok : sys.Ok cfg.prodBlen) (hL : 0 < cfg.L) (hd : cfg.prodBlen ∣ cfg.L)
    (hp : cfg.usePhonons = false) (st : State σ N M)
    (h : Inv sys (fun _ _ => 1) cfg.L cfg.prodBlen 0 st) (ht : Tidy sys cfg.L st) :
    startState sys cfg st.rng st.s st.X st.expX st.cnt st.meas = some st := by
  have hw : sys.weight cfg.L st.s (fun _ _ => 1) ≠ 0 := by
    unfold Sys.weight Sys.flow
    exact abs_ne_zero.2 (mul_ne_zero h.up.good.det_ne h.down.good.det_ne)
  obtain ⟨st', e⟩ := startState_defined hL hd hp st.rng st.s st.X st.expX st.cnt st.meas hw
  rw [e]
  have h' := startState_inv hok hL hd hp st.rng st.s st.X st.expX st.cnt st.meas st' e
  have t' := startState_tidy hL hd st.rng st.s st.X st.expX st.cnt st.meas ht.field st' e
  have hf : st'.rng = st.rng ∧ st'.s = st.s ∧ st'.X = st.X ∧ st'.expX = st.expX ∧ st'.cnt = st.cnt ∧
      st'.meas = st.meas := by
    unfold startState at e
    simp only [Option.bind_eq_bind] at e
    obtain ⟨gu, -, e⟩ := Option.bind_eq_some_iff.1 e
    obtain ⟨gd, -, e⟩ := Option.bind_eq_some_iff.1 e
    simp only [Option.pure_def, Option.some.injEq] at e
    rw [← e]
    exact ⟨rfl, rfl, rfl, rfl, rfl, rfl⟩
  obtain ⟨f1, f2, f3, f4, f5, f6⟩ := hf
  have hU := h'.up
  have hD := h'.down
  rw [f2] at hU hD
  have gU : st'.Gu = st.Gu := hU.good.unique h.up.good
  have gD : st'.Gd = st.Gd := hD.good.unique h.down.good
  have tU : st'.tsmU = st.tsmU := tsm_eq sys.junk _ _ cfg.L cfg.prodBlen hU.td h.up.td t'.up ht.up
    (fun l hl => ((hU.mats l hl).1).trans (h.up.mats l hl).1.symm) (fun l hl => (hU.mats l hl).2)
    (fun l hl => (h.up.mats l hl).2) hU.fresh0 h.up.fresh0
  have tD : st'.tsmD = st.tsmD := tsm_eq sys.junk _ _ cfg.L cfg.prodBlen hD.td h.down.td t'.down ht.down
    (fun l hl => ((hD.mats l hl).1).trans (h.down.mats l hl).1.symm) (fun l hl => (hD.mats l hl).2)
    (fun l hl => (h.down.mats l hl).2) hD.fresh0 h.down.fresh0
  cases st
  cases st'
  simp only at *
  subst f1 f2 f3 f4 f5 f6 gU gD tU tD
  rfl

end Verif.MonteCarlo
