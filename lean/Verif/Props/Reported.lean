import Verif.Props.Main

/-! # Property C75: what the exit code says about the files -/

set_option autoImplicit false

namespace Verif.Main

open Verif.Random Verif.Measurement Verif.MonteCarlo Verif.Files Verif.Params

variable {N : ℕ} {su : Setup N}

/-- failures reported by `WriteData` -/
def Reported (f : Fault) : Prop := f = .openFails ∨ ∃ k, f = .writeFails k

theorem writeData_status (f : Fault) (fs : FS) (path : String) (data : List Byte) (app : Bool) :
    (writeData f fs path data app).2 < 0 ↔ Reported f := by
  unfold Reported
  cases f <;> simp [writeData]

theorem writeData_other (f : Fault) (fs : FS) (path : String) (data : List Byte) (app : Bool) (q : String)
    (h : q ≠ path) : (writeData f fs path data app).1 q = fs q := by
  cases f <;> simp only [writeData] <;> first | rfl | exact put_other _ _ _ _ h

/-- the first reported failure ends the writing: the files before it are new, the files after it old -/
theorem writeUntilError_fails (fs : FS) (ws : List Write) (f : ℕ → Fault) (hn : (ws.map Prod.fst).Nodup)
    (hc : ∀ i k, f i ≠ .closeFails k) (k : ℕ) (hk : k < ws.length) (hf : Reported (f k))
    (h0 : ∀ i < k, ¬ Reported (f i)) :
    (writeUntilError f fs ws).2 < 0 ∧
    (∀ i (hi : i < ws.length), i < k → (writeUntilError f fs ws).1 ws[i].1 = some ws[i].2) ∧
    ∀ q, (∀ i (hi : i < ws.length), i ≤ k → q ≠ ws[i].1) → (writeUntilError f fs ws).1 q = fs q := by
  induction ws generalizing fs f k with
  | nil => exact absurd hk (by simp)
  | cons w ws ih =>
    unfold writeUntilError
    rw [List.map_cons, List.nodup_cons] at hn
    cases k with
    | zero =>
      have e := (writeData_status (f 0) fs w.1 w.2 false).2 hf
      simp only [if_pos e]
      refine ⟨e, fun i _ h => absurd h (Nat.not_lt_zero _), fun q hq => ?_⟩
      exact writeData_other _ _ _ _ _ _ (hq 0 hk le_rfl)
    | succ k =>
      have e0 := h0 0 (Nat.succ_pos _)
      have e : ¬ (writeData (f 0) fs w.1 w.2 false).2 < 0 := fun h => e0 ((writeData_status _ _ _ _ _).1 h)
      simp only [if_neg e]
      obtain ⟨h1, h2, h3⟩ := ih (writeData (f 0) fs w.1 w.2 false).1 (fun i => f (i + 1)) hn.2
        (fun i => hc (i + 1)) k (Nat.lt_of_succ_lt_succ hk) hf fun i hi => h0 (i + 1) (Nat.succ_lt_succ hi)
      have hnone : f 0 = .none := by
        cases hf0 : f 0 with
        | none => rfl
        | openFails => exact absurd (Or.inl hf0) e0
        | writeFails j => exact absurd (Or.inr ⟨j, hf0⟩) e0
        | closeFails j => exact absurd hf0 (hc 0 j)
      refine ⟨h1, fun i hi hik => ?_, fun q hq => ?_⟩
      · cases i with
        | zero =>
          rw [h3]
          · show (writeData (f 0) fs w.1 w.2 false).1 w.1 = some w.2
            rw [hnone]
            simp [writeData, put_same]
          · intro i hi _ heq
            exact hn.1 (List.mem_map.2 ⟨_, List.getElem_mem hi, heq.symm⟩)
        | succ i => exact h2 i (Nat.lt_of_succ_lt_succ hi) (Nat.lt_of_succ_lt_succ hik)
      · rw [h3 q fun i hi hik => hq (i + 1) (Nat.succ_lt_succ hi) (Nat.succ_le_succ hik)]
        exact writeData_other _ _ _ _ _ _ (hq 0 (Nat.succ_pos _) (Nat.zero_le _))

/-- without a reported failure everything is written -/
theorem writeUntilError_succeeds (fs : FS) (ws : List Write) (f : ℕ → Fault)
    (hc : ∀ i k, f i ≠ .closeFails k) (h0 : ∀ i < ws.length, ¬ Reported (f i)) :
    writeUntilError f fs ws = (putAll fs ws, 0) := by
  induction ws generalizing fs f with
  | nil => rfl
  | cons w ws ih =>
    have hnone : f 0 = .none := by
      have e0 := h0 0 (Nat.succ_pos _)
      cases hf0 : f 0 with
      | none => rfl
      | openFails => exact absurd (Or.inl hf0) e0
      | writeFails j => exact absurd (Or.inr ⟨j, hf0⟩) e0
      | closeFails j => exact absurd hf0 (hc 0 j)
    unfold writeUntilError
    have h : ¬ (writeData (f 0) fs w.1 w.2 false).2 < 0 := fun h =>
      h0 0 (Nat.succ_pos _) ((writeData_status _ _ _ _ _).1 h)
    simp only [if_neg h]
    rw [ih _ _ (fun i => hc (i + 1)) fun i hi => h0 (i + 1) (Nat.succ_lt_succ hi), hnone]
    simp only [writeData, Bool.false_eq_true, if_false, List.nil_append]
    rfl

/-- results whose writing fails leave the other files alone -/
theorem writeAll_other (f : ℕ → Fault) (fs : FS) (ws : List Write) (q : String) (h : ∀ w ∈ ws, q ≠ w.1) :
    writeAll f fs ws q = fs q := by
  induction ws generalizing fs f with
  | nil => rfl
  | cons w ws ih =>
    unfold writeAll
    rw [ih _ _ fun v hv => h v (List.mem_cons_of_mem _ hv)]
    exact writeData_other _ _ _ _ _ _ (h w List.mem_cons_self)

/-- a file opened successfully has the new content, if closing succeeds -/
theorem writeAll_at (f : ℕ → Fault) (fs : FS) (ws : List Write) (hn : (ws.map Prod.fst).Nodup) (i : ℕ)
    (hi : i < ws.length) (hf : f i = .none) : writeAll f fs ws ws[i].1 = some ws[i].2 := by
  induction ws generalizing fs f i with
  | nil => exact absurd hi (by simp)
  | cons w ws ih =>
    rw [List.map_cons, List.nodup_cons] at hn
    unfold writeAll
    cases i with
    | zero =>
      simp only [List.getElem_cons_zero]
      rw [writeAll_other _ _ _ _ fun u hu h => hn.1 (List.mem_map.2 ⟨u, hu, h.symm⟩), hf]
      simp [writeData, put_same]
    | succ i => exact ih _ _ hn.2 i (Nat.lt_of_succ_lt_succ hi) hf

/-- C75, first part: if closing does not fail, the exit code is -7 exactly if a file of the checkpoint could not be
written -/
theorem exit_code_iff (inp : RunInput) (hc : ∀ i k, inp.ckptFault i ≠ .closeFails k) (fs : FS)
    (r : LoopResult (State Seed N MeasData)) :
    (finish su inp fs r).2 = -7 ↔ ∃ i < 3, Reported (inp.ckptFault i) := by
  have hl : (checkpointWrites su.fnbase su.LxN (ckptOf r.iteration r.state)).length = 3 := rfl
  have hn := checkpointWrites_nodup su.fnbase su.LxN (ckptOf r.iteration r.state)
  unfold finish saveCheckpoint
  by_cases h : ∃ i, i < 3 ∧ Reported (inp.ckptFault i)
  · classical
    obtain ⟨e, -⟩ := writeUntilError_fails fs _ inp.ckptFault hn hc (Nat.find h) (Nat.find_spec h).1
      (Nat.find_spec h).2 fun i hi hr => Nat.find_min h hi ⟨hi.trans (Nat.find_spec h).1, hr⟩
    simp only [if_pos e]
    simpa using h
  · rw [writeUntilError_succeeds fs _ _ hc fun i hi hr => h ⟨i, hl ▸ hi, hr⟩]
    simp only [lt_irrefl, if_false]
    refine iff_of_false ?_ h
    split <;> norm_num

/-- C75, second part: if the exit code is not -7, the checkpoint is complete on disk, whatever happens to the
results -/
theorem exit_code_checkpoint_partial (inp : RunInput) (hc : ∀ i k, inp.ckptFault i ≠ .closeFails k) (fs : FS)
    (r : LoopResult (State Seed N MeasData)) (h : (finish su inp fs r).2 ≠ -7) :
    ∀ w ∈ checkpointWrites su.fnbase su.LxN (ckptOf r.iteration r.state),
      (finish su inp fs r).1 w.1 = some w.2 := by
  intro w hw
  have hl : (checkpointWrites su.fnbase su.LxN (ckptOf r.iteration r.state)).length = 3 := rfl
  have hn := finalWrites_nodup (su := su) r
  have h' := fun hx => h ((exit_code_iff inp hc fs r).2 hx)
  unfold finish saveCheckpoint
  rw [writeUntilError_succeeds fs _ _ hc fun i hi hr => h' ⟨i, hl ▸ hi, hr⟩]
  simp only [lt_irrefl, if_false]
  unfold finalWrites at hn
  rw [List.map_append] at hn
  rw [writeAll_other _ _ _ _ fun v hv e => (List.nodup_append.1 hn).2.2 _ (List.mem_map_of_mem hw) _
    (List.mem_map_of_mem hv) e]
  exact putAll_mem _ _ (List.nodup_append.1 hn).1 w hw

/-- C75, third part: if the exit code is -7, no file outside the checkpoint has been touched -/
theorem exit_code_untouched (inp : RunInput) (hc : ∀ i k, inp.ckptFault i ≠ .closeFails k) (fs : FS)
    (r : LoopResult (State Seed N MeasData)) (h : (finish su inp fs r).2 = -7) (q : String)
    (hq : ∀ w ∈ checkpointWrites su.fnbase su.LxN (ckptOf r.iteration r.state), q ≠ w.1) :
    (finish su inp fs r).1 q = fs q := by
  classical
  have hx := (exit_code_iff inp hc fs r).1 h
  have hl : (checkpointWrites su.fnbase su.LxN (ckptOf r.iteration r.state)).length = 3 := rfl
  have hn := checkpointWrites_nodup su.fnbase su.LxN (ckptOf r.iteration r.state)
  obtain ⟨e, -, e2⟩ := writeUntilError_fails fs _ inp.ckptFault hn hc (Nat.find hx) (Nat.find_spec hx).1
    (Nat.find_spec hx).2 fun i hi hr => Nat.find_min hx hi ⟨hi.trans (Nat.find_spec hx).1, hr⟩
  unfold finish saveCheckpoint
  simp only [if_pos e]
  exact e2 q fun i hi _ => hq _ (List.getElem_mem hi)

/-- C75, fourth part: a result file is new if its own writing does not fail, even if other result files fail -/
theorem results_independent (inp : RunInput) (hc : ∀ i k, inp.ckptFault i ≠ .closeFails k) (fs : FS)
    (r : LoopResult (State Seed N MeasData)) (h : (finish su inp fs r).2 ≠ -7) (i : ℕ)
    (hi : i < (resultWrites su (normalized su r.iteration r.state.meas) r.state.cnt).length)
    (hf : inp.resFault i = .none) :
    (finish su inp fs r).1 (resultWrites su (normalized su r.iteration r.state.meas) r.state.cnt)[i].1
      = some (resultWrites su (normalized su r.iteration r.state.meas) r.state.cnt)[i].2 := by
  have hl : (checkpointWrites su.fnbase su.LxN (ckptOf r.iteration r.state)).length = 3 := rfl
  have hn := finalWrites_nodup (su := su) r
  have h' := fun hx => h ((exit_code_iff inp hc fs r).2 hx)
  unfold finish saveCheckpoint
  rw [writeUntilError_succeeds fs _ _ hc fun i hi hr => h' ⟨i, hl ▸ hi, hr⟩]
  simp only [lt_irrefl, if_false]
  unfold finalWrites at hn
  rw [List.map_append] at hn
  exact writeAll_at _ _ _ (List.nodup_append.1 hn).2.1 i hi hf

/-- C75 is false for the results: with a full disk after the checkpoint the exit code is 0 although no result has been
written -/
theorem results_silently_missing (fs : FS) (r : LoopResult (State Seed N MeasData)) (hb : r.broke = false) :
    let inp : RunInput := ⟨fun _ => false, false, fun _ => .none, fun _ => .openFails⟩
    (finish su inp fs r).2 = 0 ∧
    (finish su inp fs r).1 = putAll fs (checkpointWrites su.fnbase su.LxN (ckptOf r.iteration r.state)) := by
  intro inp
  unfold finish saveCheckpoint
  rw [show inp.ckptFault = fun _ => .none from rfl, writeUntilError_none]
  simp only [lt_irrefl, if_false]
  refine ⟨by simp [hb, inp], ?_⟩
  have : ∀ (ws : List Write) (fs : FS), writeAll (fun _ => .openFails) fs ws = fs := by
    intro ws
    induction ws with
    | nil => intro fs; rfl
    | cons w ws ih => intro fs; exact ih _
  exact this _ _

/-- a failing write in the middle of the checkpoint -/
example (fs : FS) (r : LoopResult (State Seed N MeasData)) :
    (finish su ⟨fun _ => false, false, fun i => if i = 1 then .writeFails 3 else .none, fun _ => .none⟩ fs r).2
      = -7 :=
  (exit_code_iff _ (fun i k h => by simp only at h; split at h <;> cases h) fs r).2
    ⟨1, by norm_num, Or.inr ⟨3, rfl⟩⟩

end Verif.Main
