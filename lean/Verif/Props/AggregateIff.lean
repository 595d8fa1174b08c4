import Verif.Props.AggregateMessage

/-! # C70: exactly when observers in an aggregate do what they do by themselves -/
namespace Verif.Props
open Verif.Model Verif.Spec

variable {χ : Type}

/-- What is taken of the object stack by these calls: an object of every class for each of them that is passed on. -/
theorem aggRun_used (os : List (MObs χ)) : ∀ (es : List LEvent) (a : AggCtx χ),
    (aggRun os a es).used = a.used + es.countP isHead * (os.map (·.size)).sum
  | [], a => by simp [aggRun]
  | e :: es, a => by
    have ih := aggRun_used os es (aggCall os a e)
    rw [aggRun, List.foldl_cons]
    rw [aggRun] at ih
    rw [ih, aggCall_head, List.countP_cons]
    by_cases h : isHead e = true
    · rw [if_pos h, if_pos h, invokeAll_used, Nat.add_mul]; omega
    · rw [if_neg h, if_neg h]; simp

theorem together_concat (ws : List (Living χ)) (x : χ) (es : List LEvent) (e : LEvent) :
    together ws x (es ++ [e]) = tellAll (together ws x es).1 (together ws x es).2 e := together_append ws x es [e]

/-- C70, exactly, for every list of observers, every context and any calls: what comes out is what the observers do by themselves if and
only if, after any calls, the next one does to the context the same with objects just made, on top of those whose memory was never given
back, as with the objects that have seen the earlier calls; and nothing at all if it is a payload or a completion. -/
theorem aggregate_right_iff (ws : List (Living χ)) (a : AggCtx χ) :
    (∀ es, (aggRun (ws.map (·.1)) a es).ctx = (together ws a.ctx es).2) ↔
    ∀ es e, (tellAll (together ws a.ctx es).1 (together ws a.ctx es).2 e).2 =
      if isHead e then (invokeAll (ws.map (·.1)) ⟨(together ws a.ctx es).2, a.used + es.countP isHead * (ws.map (·.1.size)).sum⟩ e).ctx
      else (together ws a.ctx es).2 := by
  have hrun : ∀ es, (aggRun (ws.map (·.1)) a es).ctx = (together ws a.ctx es).2 → aggRun (ws.map (·.1)) a es =
      ⟨(together ws a.ctx es).2, a.used + es.countP isHead * (ws.map (·.1.size)).sum⟩ := by
    intro es h
    have hu := aggRun_used (ws.map (·.1)) es a
    rw [List.map_map] at hu
    rw [← h]
    exact congrArg (AggCtx.mk _) hu
  have hstep : ∀ es e, aggRun (ws.map (·.1)) a (es ++ [e]) = aggCall (ws.map (·.1)) (aggRun (ws.map (·.1)) a es) e := by
    intro es e
    simp [aggRun]
  constructor
  · intro h es e
    have h2 := h (es ++ [e])
    rw [hstep, together_concat, hrun es (h es), aggCall_head] at h2
    rw [← h2]
    split <;> rfl
  · intro h es
    obtain ⟨r, rfl⟩ : ∃ r, es = r.reverse := ⟨es.reverse, by simp⟩
    induction r with
    | nil => rfl
    | cons e r ih =>
      rw [List.reverse_cons]
      generalize r.reverse = es at ih ⊢
      rw [hstep, together_concat, hrun es ih, aggCall_head, h es e]
      split <;> rfl

/-- The object behind these calls, and the context. -/
def alone (o : MObs χ) (x : χ) (s : o.σ) : List LEvent → χ × o.σ
  | [] => (x, s)
  | e :: es => alone o (o.call x s e).1 (o.call x s e).2 es

theorem together_one (o : MObs χ) : ∀ (es : List LEvent) (x : χ) (s : o.σ),
    together [⟨o, s⟩] x es = ([⟨o, (alone o x s es).2⟩], (alone o x s es).1)
  | [], _, _ => rfl
  | e :: es, x, s => together_one o es (o.call x s e).1 (o.call x s e).2

/-- C70 for one observer by itself in an aggregate. -/
theorem aggregate_one_right_iff (o : MObs χ) (s : o.σ) (a : AggCtx χ) :
    (∀ es, (aggRun [o] a es).ctx = (alone o a.ctx s es).1) ↔
    ∀ es e, (o.call (alone o a.ctx s es).1 (alone o a.ctx s es).2 e).1 =
      if isHead e then (o.call (alone o a.ctx s es).1 (o.fresh (a.used + es.countP isHead * o.size)) e).1 else (alone o a.ctx s es).1 := by
  have := aggregate_right_iff [⟨o, s⟩] a
  simpa [together_one, tellAll, invokeAll, MObs.invoke] using this

/-- An observer that notes the option numbers meets the condition; one that counts the options does not. -/
example (a : AggCtx (List UInt8)) : ∀ es, (aggRun [noteNumbers] a es).ctx = (alone noteNumbers a.ctx () es).1 :=
  (aggregate_one_right_iff noteNumbers () a).2 fun es e => by cases e <;> rfl
example : ¬ ∀ es, (aggRun [countOptions] ⟨[], 0⟩ es).ctx = (alone countOptions [] (0 : Nat) es).1 := fun h => by
  have := (aggregate_one_right_iff countOptions (0 : Nat) ⟨[], 0⟩).1 h [.option 1 0] (.option 2 0)
  exact absurd this (by decide)

end Verif.Props
