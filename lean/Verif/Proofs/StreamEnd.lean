import Verif.Proofs.StreamSegments
import Verif.Proofs.WireFeed

/-! # The end of a stream whose `in_avail()` is -1 there -/
namespace Verif.Proofs
open Verif.Model Header Dec Spec

theorem Tail.total_nil {s s' : Sb} (h : Tail s s') (hs : total s = []) : total s' = [] := by
  obtain ⟨pre, x, e⟩ := h
  have : total s = pre.flatten ++ (x ++ s'.cur ++ s'.more.flatten) := by
    rw [total, ← List.flatten_cons, e]; simp
  rw [this] at hs
  simp only [List.append_eq_nil_iff] at hs
  rw [total, hs.2.1.2, hs.2.2]; rfl

/-- With nothing left the option phase is not entered. -/
theorem step_end_state (k : SbKind) (d : Dec) (s : Sb) (hd : d.st ≠ .options) (hs : total s = []) {d' : Dec} {s' : Sb} {b : Bool}
    (e : SDec.step k d s = .ok (d', s', b)) : d'.st ≠ .options := by
  have hp := (pull_nil_iff s).2 hs
  unfold SDec.step at e
  cases hst : d.st <;> simp only [hst, hp, List.length_nil, beq_self_eq_true, if_true] at e hd
  case uninitialized => cases e; simp
  case header =>
    split at e
    · cases e
    · cases e; dsimp only; split <;> simp
  case headerDone => split at e <;> (cases e; simp)
  case tokenStart => cases e; simp
  case token =>
    split at e
    · cases e
    · cases e; dsimp only; split <;> simp
  case tokenDone => cases e; simp
  case optionsStart => cases e; simp
  case options => exact absurd rfl hd
  case optionsDone => split at e <;> (cases e; simp)
  case payload => cases e; simp
  case payloadDone => cases e; simp
  case done => cases e; simp

theorem snotify_total {d : Dec} {s s' : Sb} {evs : List Event} (hs : total s = []) (e : SDec.notify d s = .ok (s', evs)) : total s' = [] := by
  unfold SDec.notify at e
  cases hst : d.st <;> simp only [hst] at e
  case payload =>
    cases e
    simp only [total, List.append_eq_nil_iff] at hs
    simp [total, hs.2]
  case tokenDone => split at e <;> cases e; exact hs
  case options =>
    split at e
    · split at e <;> (cases e; exact hs)
    · cases e; exact hs
  all_goals (cases e; exact hs)

/-- A decoder at the end of the stream that does not stand among the options finishes alike for both kinds. -/
theorem toDone_zeroEnd_end (k : SbKind) (f : Nat) (d : Dec) (s : Sb) (hd : d.st ≠ .options) (hs : total s = []) :
    SDec.processToDone (zeroEnd k) f d s = SDec.processToDone k f d s := by
  induction f generalizing d s with
  | zero => rfl
  | succ f ih =>
    have h := step_zeroEnd k d s (Or.inl hd)
    simp only [SDec.processToDone, SDec.stepNotify, h]
    cases e : SDec.step k d s with
    | error x => rfl
    | ok x =>
      obtain ⟨d', s', b⟩ := x
      have hd' := step_end_state k d s hd hs e
      have hs' := (step_tail k d s e).total_nil hs
      cases e2 : SDec.notify d' s' with
      | error x => simp only [e2]
      | ok x =>
        obtain ⟨s2, evs⟩ := x
        simp only [e2]
        rw [ih d' s2 hd' (snotify_total hs' e2)]

/-- For any decoder and any stream the two kinds agree, or the kind with -1 reads past the end. -/
theorem toDone_zeroEnd_or (k : SbKind) (f : Nat) (d : Dec) (s : Sb) :
    SDec.processToDone k f d s = SDec.processToDone (zeroEnd k) f d s ∨ SDec.processToDone k f d s = .error .chunkOverread := by
  induction f generalizing d s with
  | zero => exact Or.inl rfl
  | succ f ih =>
    by_cases h : k.endNeg = true ∧ d.st = .options ∧ s.pull.cur = []
    · right
      simp only [SDec.processToDone, SDec.stepNotify, step_starved k h.1 d s h.2.1 h.2.2]
    · have hk : SDec.step (zeroEnd k) d s = SDec.step k d s := by
        by_cases hn : k.endNeg = true
        · refine step_zeroEnd k d s ?_
          by_cases h1 : d.st = .options
          · exact Or.inr fun h2 => h ⟨hn, h1, h2⟩
          · exact Or.inl h1
        · have : zeroEnd k = k := by
            obtain ⟨a, b⟩ := k
            have hb : b = false := by simpa using hn
            subst hb; rfl
          rw [this]
      simp only [SDec.processToDone, SDec.stepNotify, hk]
      cases e : SDec.step k d s with
      | error x => exact Or.inl rfl
      | ok x =>
        obtain ⟨d', s', b⟩ := x
        cases e2 : SDec.notify d' s' with
        | error x => simp only [e2]; exact Or.inl trivial
        | ok x =>
          obtain ⟨s2, evs⟩ := x
          simp only [e2]
          rcases ih d' s2 with h | h
          · left; rw [h]
          · rw [h]
            by_cases hdn : d'.st = .done
            · left; simp [hdn]
            · right; simp [hdn]

/-- A run that ended, completed or at a fault, is the same with more rounds. -/
theorem toDone_more (k : SbKind) (f g : Nat) (d : Dec) (s : Sb) (h : SDec.processToDone k f d s ≠ .error .outOfFuel) :
    SDec.processToDone k (f + g) d s = SDec.processToDone k f d s := by
  induction f generalizing d s with
  | zero => exact absurd rfl h
  | succ f ih =>
    rw [show f + 1 + g = (f + g) + 1 by omega]
    simp only [SDec.processToDone] at h ⊢
    cases e : SDec.stepNotify k d s with
    | error x => rfl
    | ok x =>
      obtain ⟨d', s', evs, b⟩ := x
      simp only [e] at h ⊢
      by_cases hdn : d'.st = .done
      · simp [hdn]
      · simp only [beq_eq_false_iff_ne.2 hdn, Bool.false_eq_true, if_false] at h ⊢
        rw [ih d' s']
        intro h2
        rw [h2] at h
        exact h rfl

/-- If a run completes for the kind with -1, the two kinds agree whatever the number of rounds. -/
theorem toDone_zeroEnd_ok {k : SbKind} {F : Nat} {d : Dec} {s : Sb} {x : Dec × List Event}
    (h : SDec.processToDone k F d s = .ok x) (f : Nat) : SDec.processToDone k f d s = SDec.processToDone (zeroEnd k) f d s := by
  rcases toDone_zeroEnd_or k f d s with e | e
  · exact e
  · have h1 := toDone_more k f F d s (by rw [e]; simp)
    have h2 := toDone_more k F f d s (by rw [h]; simp)
    rw [Nat.add_comm, h2, h, e] at h1
    cases h1

theorem optEvents_last {os : List Opt} {es : List Event} {n : UInt16} (h : es ++ [.option n [] true] = optEvents os) :
    ∃ o ∈ os.getLast?, o.value = [] := by
  have h2 := congrArg List.getLast? h
  rw [optEvents, List.getLast?_append, List.getLast?_map] at h2
  cases e : os.getLast? with
  | none => rw [e] at h2; simp at h2
  | some o =>
    rw [e] at h2
    simp at h2
    exact ⟨o, rfl, h2.2⟩

end Verif.Proofs
