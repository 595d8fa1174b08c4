import Verif.Model.OptionDecoder
import Verif.Proofs.Bytes

/-! # Helper lemmas for the option decoder -/
namespace Verif.Proofs
open Verif.Model Header OptDec

/-- Invariant of a running option decoder. -/
def OInv (o : OptDec) : Prop :=
  match o.st with
  | .firstByteDone => o.pos = 1
  | .optionDelta => 13 ≤ o.rawDelta ∧ (o.pos = 1 ∨ (o.rawDelta = 14 ∧ o.pos = 2))
  | .optionLength => 13 ≤ o.rawLength ∧ (o.pos = 1 ∨ (o.rawLength = 14 ∧ o.pos = 2))
  | .optionLengthDone => 13 ≤ o.rawLength ∨ (13 ≤ o.rawDelta ∧ o.pos = 1)
  | .optionDone => False
  | .garbage => False
  | _ => True

/-- Number of steps an option state can still take without consuming a byte. -/
def rank : OState → Nat
  | .firstByte => 2
  | .firstByteDone => 1
  | .optionDelta => 0
  | .optionDeltaDone => 5
  | .optionLength => 0
  | .optionLengthDone => 5
  | .optionDeltaAndLengthDone => 5
  | .valueStart => 4
  | .optionValue => 0
  | .optionValueDone => 3
  | .optionDone => 0
  | .payload => 0
  | .garbage => 0

theorem rank_le (s : OState) : rank s ≤ 5 := by cases s <;> decide

theorem step_ok (o : OptDec) (b : UInt8) (h : OInv o) :
    ∃ o' c, o.step b = .ok (o', c) ∧ OInv o' ∧ (c = false → rank o'.st < rank o.st) := by
  unfold OInv at h
  cases hs : o.st <;> simp only [hs] at h
  case firstByte =>
    simp only [step, hs]
    split <;> exact ⟨_, _, rfl, by simp [OInv], by simp [rank]⟩
  case firstByteDone =>
    simp only [step, hs]
    refine ⟨_, _, rfl, ?_, by simp⟩
    by_cases h1 : o.rawDelta ≥ 13 <;> by_cases h2 : o.rawLength ≥ 13 <;>
      simp only [h1, h2, if_true, if_false, OInv]
    · exact ⟨h1, Or.inl h⟩
    · exact Or.inr ⟨h1, h⟩
  case optionDelta =>
    obtain ⟨h1, h2 | ⟨h2, h3⟩⟩ := h
    · simp only [step, hs, write, h2]
      simp only [processOptionSize]
      by_cases hd : o.rawDelta = 14
      · simp_all [OInv, rawDelta, rawLength]
      · simp [hd, OInv]
    · simp only [step, hs, write, h3]
      simp [processOptionSize, h2, OInv]
  case optionDeltaDone =>
    simp only [step, hs]
    split <;> exact ⟨_, _, rfl, by simp_all [OInv, rawLength], by simp [rank]⟩
  case optionLength =>
    obtain ⟨h1, h2 | ⟨h2, h3⟩⟩ := h
    · simp only [step, hs, write, h2]
      simp only [processOptionSize]
      by_cases hd : o.rawLength = 14
      · simp_all [OInv, rawDelta, rawLength]
      · simp_all [OInv, rawDelta, rawLength]
    · simp only [step, hs, write, h3]
      simp_all [processOptionSize, OInv, rawDelta, rawLength]
  case optionLengthDone =>
    simp only [step, hs]
    split
    · exact ⟨_, _, rfl, by simp [OInv], by simp [rank]⟩
    · rename_i hr
      refine ⟨_, _, rfl, ?_, by simp [rank]⟩
      rcases h with h | h
      · exact absurd h hr
      · exact ⟨h.1, Or.inl h.2⟩
  case optionDeltaAndLengthDone =>
    simp only [step, hs]; exact ⟨_, _, rfl, by simp [OInv], by simp [rank]⟩
  case valueStart =>
    simp only [step, hs]
    refine ⟨_, _, rfl, ?_, ?_⟩ <;> split <;> simp [OInv, rank]
  case optionValue =>
    simp only [step, hs]
    split
    · exact ⟨_, _, rfl, by simp [OInv], by simp⟩
    · exact ⟨_, _, rfl, by simp [OInv, setValueLength, hs], by simp⟩
  case optionValueDone =>
    simp only [step, hs]; exact ⟨_, _, rfl, by simp [OInv], by simp [rank]⟩
  case payload =>
    simp only [step, hs]; exact ⟨_, _, rfl, by simp [OInv, hs], by simp⟩

/-- Holder update after a step — the `switch` of `OptDec.loop`. -/
def upd (o : OptDec) (h : Holder) : Holder :=
  match o.st with
  | .optionDeltaDone => { h with number := h.number + o.delta }
  | .optionDeltaAndLengthDone => { number := h.number + o.delta, length := o.length }
  | .optionLengthDone => { h with length := o.length }
  | _ => h

/-- States at which `OptDec.loop` returns to its caller. -/
def paused : OState → Bool
  | .valueStart => true
  | .optionValueDone => true
  | .payload => true
  | _ => false

theorem loop_cons (f : Nat) (o o' : OptDec) (c : Bool) (h : Holder) (b : UInt8) (bs : List UInt8) (n : Nat)
    (hs : o.step b = .ok (o', c)) :
    loop (f + 1) o h (b :: bs) n =
      if paused o'.st then .ok (o', upd o' h, if c then n + 1 else n)
      else loop f o' (upd o' h) (if c then bs else b :: bs) (if c then n + 1 else n) := by
  simp only [loop, hs]
  cases h' : o'.st <;> simp [paused, upd, h']

/-- The loop never faults and never runs out of fuel. -/
theorem loop_ok (f : Nat) (o : OptDec) (h : Holder) (r : List UInt8) (n : Nat) (hi : OInv o)
    (hf : 6 * r.length + rank o.st < f) :
    ∃ o' h' k, loop f o h r n = .ok (o', h', n + k) ∧ OInv o' ∧ k ≤ r.length ∧
      (k = r.length ∨ paused o'.st = true) := by
  induction f generalizing o h r n with
  | zero => omega
  | succ f ih =>
    cases r with
    | nil => exact ⟨o, h, 0, rfl, hi, by simp, by simp⟩
    | cons b bs =>
      obtain ⟨o', c, hs, hi', hr⟩ := step_ok o b hi
      rw [loop_cons f o o' c h b bs n hs]
      by_cases hp : paused o'.st = true
      · rw [if_pos hp]
        cases c
        · exact ⟨_, _, 0, rfl, hi', by simp, Or.inr hp⟩
        · exact ⟨_, _, 1, rfl, hi', by simp, Or.inr hp⟩
      · rw [if_neg hp]
        cases c
        · simp only [Bool.false_eq_true, if_false]
          obtain ⟨o2, h2, k, e, i2, hk, hk2⟩ := ih o' (upd o' h) (b :: bs) n hi'
            (by have := hr rfl; omega)
          exact ⟨o2, h2, k, e, i2, hk, hk2⟩
        · simp only [if_true]
          obtain ⟨o2, h2, k, e, i2, hk, hk2⟩ := ih o' (upd o' h) bs (n + 1) hi'
            (by have := rank_le o'.st; simp only [List.length_cons] at hf; omega)
          refine ⟨o2, h2, k + 1, ?_, i2, by simp; omega, ?_⟩
          · rw [e]; congr 3; omega
          · rcases hk2 with hk2 | hk2
            · left; simp; omega
            · right; exact hk2

theorem process_ok (o : OptDec) (h : Holder) (r : List UInt8) (last : Bool) (hi : OInv o) :
    ∃ o' h' k, process o h r last = .ok (o', h', k) ∧ OInv o' ∧ k ≤ r.length := by
  simp only [process]
  split
  · obtain ⟨o', c, hs, hi', _⟩ := step_ok o 0 hi
    rw [hs]; exact ⟨o', h, 0, rfl, hi', by simp⟩
  · obtain ⟨o', h', k, e, hi', hk, _⟩ := loop_ok (fuelFor r) o h r 0 hi
      (by have := rank_le o.st; simp only [fuelFor]; omega)
    rw [e]; exact ⟨o', h', k, by simp, hi', hk⟩

end Verif.Proofs
