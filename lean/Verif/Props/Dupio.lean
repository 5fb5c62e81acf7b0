import Verif.Model.Dupio
import Mathlib.Data.List.Basic
import Mathlib.Data.List.Perm.Basic

/-!
# Property C119: the log file

The log file receives every message after its opening, in the order in which the calls end; the standard output receives
them in the order in which they begin.  Without signals between the two writes of a call the log file is a copy of the
standard output.  With such signals it contains the same messages, possibly in another order.
-/

set_option autoImplicit false

namespace Verif.Dupio

/-! ## Specification -/

mutual

/-- the texts of a call and of the calls within it, in the order in which the calls begin -/
def Call.begins : Call → List (List Char)
  | .mk text inner => text :: beginsAll inner

def beginsAll : List Call → List (List Char)
  | [] => []
  | c :: cs => c.begins ++ beginsAll cs

end

mutual

/-- the same in the order in which the calls end -/
def Call.ends : Call → List (List Char)
  | .mk text inner => endsAll inner ++ [text]

def endsAll : List Call → List (List Char)
  | [] => []
  | c :: cs => c.ends ++ endsAll cs

end

/-- text of a call -/
def Call.text : Call → List Char
  | .mk text _ => text

/-- no handler is called between the two writes -/
def Call.Calm : Call → Prop
  | .mk _ inner => inner = []

/-! ## Proofs -/

mutual

theorem duprintf_eq : ∀ (c : Call) (st : Streams), duprintf c st = ⟨st.out ++ c.begins.flatten, st.log.map (· ++ c.ends.flatten)⟩
  | .mk text inner, st => by
    rw [duprintf]
    simp only [duprintfs_eq inner]
    cases h : st.log with
    | none => simp [Call.begins]
    | some log => simp [Call.begins, Call.ends]

/-- C119: what the calls write -/
theorem duprintfs_eq : ∀ (cs : List Call) (st : Streams),
    duprintfs cs st = ⟨st.out ++ (beginsAll cs).flatten, st.log.map (· ++ (endsAll cs).flatten)⟩
  | [], st => by
    rw [duprintfs]
    cases h : st.log <;> simp [beginsAll, endsAll, ← h]
  | c :: cs, st => by
    rw [duprintfs, duprintf_eq c, duprintfs_eq cs]
    cases h : st.log <;> simp [beginsAll, endsAll]

end

mutual

theorem ends_perm : ∀ c : Call, c.ends.Perm c.begins
  | .mk text inner => by
    rw [Call.ends, Call.begins]
    exact (List.perm_append_singleton text _).trans ((endsAll_perm inner).cons text)

/-- the same messages in both orders -/
theorem endsAll_perm : ∀ cs : List Call, (endsAll cs).Perm (beginsAll cs)
  | [] => List.Perm.refl _
  | c :: cs => by
    rw [endsAll, beginsAll]
    exact (ends_perm c).append (endsAll_perm cs)

end

/-- the messages of the program itself are in the order of the program in both -/
theorem own_order (cs : List Call) :
    (cs.map Call.text).Sublist (beginsAll cs) ∧ (cs.map Call.text).Sublist (endsAll cs) := by
  induction cs with
  | nil => exact ⟨List.Sublist.slnil, List.Sublist.slnil⟩
  | cons c cs ih =>
    obtain ⟨text, inner⟩ := c
    constructor
    · rw [beginsAll, Call.begins, List.map_cons, ← List.singleton_append]
      exact (List.singleton_sublist.2 (List.mem_cons_self ..)).append ih.1
    · rw [endsAll, Call.ends, List.map_cons, ← List.singleton_append]
      exact (List.singleton_sublist.2 (by simp [Call.text])).append ih.2

theorem calm_eq {cs : List Call} (h : ∀ c ∈ cs, c.Calm) : beginsAll cs = cs.map Call.text ∧ endsAll cs = cs.map Call.text := by
  induction cs with
  | nil => exact ⟨rfl, rfl⟩
  | cons c cs ih =>
    obtain ⟨h1, h2⟩ := ih fun c hc => h c (List.mem_cons_of_mem _ hc)
    obtain ⟨text, inner⟩ := c
    have hc : inner = [] := h _ (List.mem_cons_self ..)
    subst hc
    exact ⟨by simp [beginsAll, Call.begins, h1, Call.text], by simp [endsAll, Call.ends, h2, Call.text]⟩

/-- C119: a run appends to the log file the messages which it prints after the opening; the earlier ones, from main.c:57-95,
are only on the standard output -/
theorem messages_eq (early late : List Call) (file : List Char) : messages early late file =
    ⟨(beginsAll early).flatten ++ (beginsAll late).flatten, some (file ++ (endsAll late).flatten)⟩ := by
  unfold messages openLog
  rw [duprintfs_eq, duprintfs_eq]
  simp

/-- C119: without signals between the two writes the log file is a copy -/
theorem messages_copy (early late : List Call) (h : ∀ c ∈ late, c.Calm) (file : List Char) : ∃ a b : List Char,
    (messages early late file).out = a ++ b ∧ (messages early late file).log = some (file ++ b) ∧
    a = (beginsAll early).flatten ∧ b = (late.map Call.text).flatten := by
  refine ⟨_, _, ?_, ?_, rfl, rfl⟩ <;> rw [messages_eq]
  · rw [(calm_eq h).1]
  · rw [(calm_eq h).2]

/-- C119: in general nothing is lost -/
theorem messages_perm (early late : List Call) (file : List Char) : ∃ a b c : List (List Char),
    (messages early late file).out = a.flatten ++ b.flatten ∧ (messages early late file).log = some (file ++ c.flatten) ∧
    c.Perm b ∧ (late.map Call.text).Sublist b ∧ (late.map Call.text).Sublist c := by
  refine ⟨beginsAll early, beginsAll late, endsAll late, ?_, ?_, endsAll_perm late, own_order late⟩ <;> rw [messages_eq]

/-- C119: the log file of several runs keeps what the earlier ones have written -/
theorem runs_log (rs : List (List Call × List Call)) (file : List Char) :
    (runs rs file).2 = file ++ (rs.map fun r => (endsAll r.2).flatten).flatten ∧
    (runs rs file).1 = rs.map fun r => (beginsAll r.1).flatten ++ (beginsAll r.2).flatten := by
  induction rs generalizing file with
  | nil => simp [runs]
  | cons r rs ih =>
    rw [runs, messages_eq]
    simp only [Option.getD_some]
    obtain ⟨h1, h2⟩ := ih (file ++ (endsAll r.2).flatten)
    rw [h1, h2]
    simp

/-- the copy is not exact in general: SIGINT between the two writes of "Saving" (main.c:251) -/
theorem order_differs : ∃ late : List Call, ∀ file a b : List Char,
    (messages [] late file).out = a ++ b → (messages [] late file).log = some (file ++ b) → False := by
  refine ⟨[.mk "Saving".toList [.mk "Signal 2 received.\n".toList []]], fun file a b h1 h2 => ?_⟩
  rw [messages_eq] at h1 h2
  have h3 : b = "Signal 2 received.\nSaving".toList := (List.append_cancel_left (Option.some.inj h2)).symm
  have h4 : "SavingSignal 2 received.\n".toList = a ++ b := h1
  have h5 : a = [] := by
    have := congrArg List.length h4
    rw [h3, List.length_append] at this
    have e1 : "SavingSignal 2 received.\n".toList.length = 25 := by decide
    have e2 : "Signal 2 received.\nSaving".toList.length = 25 := by decide
    rw [e1, e2] at this
    exact List.length_eq_zero_iff.1 (by omega)
  rw [h5, h3] at h4
  exact absurd h4 (by decide)

/-! ## Examples -/

/-- two messages before the opening and two after it, one run after another one -/
example : messages [.mk ['a'] [], .mk ['b'] []] [.mk ['c'] [], .mk ['d'] []] ['x'] = ⟨['a', 'b', 'c', 'd'], some ['x', 'c', 'd']⟩ := by
  rw [messages_eq]
  rfl

/-- a signal in between -/
example : messages [] [.mk ['c'] [.mk ['s'] []], .mk ['d'] []] [] = ⟨['c', 's', 'd'], some ['s', 'c', 'd']⟩ := by
  rw [messages_eq]
  rfl

end Verif.Dupio
