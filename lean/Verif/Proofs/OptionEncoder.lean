import Verif.Model.StreamEncoder
import Verif.Proofs.Bytes
import Verif.Spec.Wire

/-! # Runs of the option encoder -/
namespace Verif.Proofs
open Verif.Model OptEnc SEnc Spec

/-- States in which the option encoder still produces the header of an option. -/
def InHdr : OState → Prop
  | .firstByte | .firstByteDone | .optionDelta | .optionDeltaDone | .optionLength | .optionDeltaAndLengthDone => True
  | _ => False

instance (s : OState) : Decidable (InHdr s) := by unfold InHdr; split <;> infer_instance

def erank : OState → Nat
  | .firstByte => 4 | .firstByteDone => 3 | .optionDelta => 2 | .optionDeltaDone => 1
  | .optionDeltaAndLengthDone => 1 | _ => 0

theorem gen_step (o : OptEnc) (base : OptBase) (h : InHdr o.st) :
    ∃ o' r, o.generate base = .ok (o', r) ∧ (o'.st = .optionLengthDone ∨ InHdr o'.st) ∧
      erank o'.st ≤ erank o.st ∧ (r = none → erank o'.st < erank o.st) := by
  obtain ⟨st, cur, pos⟩ := o
  cases st <;> simp only [InHdr] at h <;> simp only [generate]
  · exact ⟨_, _, rfl, Or.inr trivial, by simp [erank], by simp⟩
  · refine ⟨_, _, rfl, Or.inr ?_, ?_, fun _ => ?_⟩ <;> (try dsimp only) <;> (repeat' split) <;> simp [InHdr, erank]
  · refine ⟨_, _, rfl, ?_, ?_, by simp⟩ <;> (try dsimp only) <;> (repeat' split) <;> simp [InHdr, erank]
  · refine ⟨_, _, rfl, ?_, ?_, fun _ => ?_⟩ <;> (try dsimp only) <;> (repeat' split) <;> simp [InHdr, erank]
  · refine ⟨_, _, rfl, ?_, ?_, by simp⟩ <;> (try dsimp only) <;> (repeat' split) <;> simp [InHdr, erank]
  · exact ⟨_, _, rfl, Or.inl rfl, by simp [erank], by simp [erank]⟩

/-- The loop of `option(number, length)` always returns, and what it may do to the stream. -/
theorem loop_total (f : Nat) (s : SEnc) (base : OptBase) (h : InHdr s.oe.st) (hf : s.room + erank s.oe.st < f) :
    ∃ s' ok, optionLoop f s base = .ok (s', ok) ∧ s'.cap = s.cap ∧ s.out <+: s'.out ∧
      s'.out.length ≤ max s.cap s.out.length ∧ (ok = false → s.cap ≤ s'.out.length) := by
  induction f generalizing s with
  | zero => omega
  | succ f ih =>
    obtain ⟨o', r, hg, hst, hr1, hr2⟩ := gen_step s.oe base h
    rw [optionLoop, hg]
    cases r with
    | none =>
      simp only
      by_cases hd : o'.st = .optionLengthDone
      · exact ⟨⟨o', s.out, s.cap⟩, true, by simp [hd], rfl, List.prefix_rfl, by simp only; omega, by simp⟩
      · have hd' : (o'.st == OState.optionLengthDone) = false := by simpa using hd
        rw [hd']
        obtain ⟨s', ok, e1, e2, e3, e4, e5⟩ := ih { s with oe := o' } (hst.resolve_left hd)
          (by have := hr2 rfl; simp only [room] at hf ⊢; omega)
        exact ⟨s', ok, e1, e2, e3, e4, e5⟩
    | some b =>
      simp only [putc]
      by_cases hc : s.out.length < s.cap
      · simp only [hc, if_true]
        by_cases hd : o'.st = .optionLengthDone
        · exact ⟨⟨o', s.out ++ [b], s.cap⟩, true, by simp [hd], rfl, by simp, by simp; omega, by simp⟩
        · have hd' : (o'.st == OState.optionLengthDone) = false := by simpa using hd
          rw [hd']
          obtain ⟨s', ok, e1, e2, e3, e4, e5⟩ := ih { s with oe := o', out := s.out ++ [b] } (hst.resolve_left hd)
            (by simp only [room, List.length_append, List.length_singleton] at hf ⊢; omega)
          refine ⟨s', ok, by simpa using e1, e2, List.IsPrefix.trans (by simp) e3, ?_, e5⟩
          simp only [List.length_append, List.length_singleton] at e4; omega
      · simp only [hc, if_false]
        exact ⟨⟨o', s.out, s.cap⟩, false, by simp, rfl, List.prefix_rfl, by simp only; omega, fun _ => by simp only; omega⟩

/-- More room changes nothing but where a full buffer cuts the output. -/
theorem loop_cap (f : Nat) (s : SEnc) (base : OptBase) (h : InHdr s.oe.st) (cap : Nat) (hcap : s.cap ≤ cap)
    (hlen : s.out.length ≤ s.cap) (g : Nat) (hg : cap - s.out.length + erank s.oe.st < g) (s' : SEnc) (ok : Bool)
    (e : optionLoop f s base = .ok (s', ok)) :
    ∃ t ok2, optionLoop g { s with cap := cap } base = .ok (t, ok2) ∧
      (ok = true → ok2 = true ∧ t = { s' with cap := cap }) ∧
      (ok = false → s'.out.length = s.cap ∧ s'.out <+: t.out ∧ (ok2 = true → s.cap < t.out.length)) := by
  induction f generalizing s g with
  | zero => simp [optionLoop] at e
  | succ f ih =>
    obtain ⟨o', r, hgen, hst, hr1, hr2⟩ := gen_step s.oe base h
    obtain ⟨g, rfl⟩ : ∃ g', g = g' + 1 := ⟨g - 1, by omega⟩
    rw [optionLoop, hgen] at e
    rw [optionLoop, hgen]
    cases r with
    | none =>
      simp only at e ⊢
      by_cases hd : o'.st = .optionLengthDone
      · simp only [hd, beq_self_eq_true, if_true, Except.ok.injEq, Prod.mk.injEq] at e ⊢
        obtain ⟨rfl, rfl⟩ := e
        exact ⟨_, _, ⟨rfl, rfl⟩, by simp, by simp⟩
      · have hd' : (o'.st == OState.optionLengthDone) = false := by simpa using hd
        rw [hd'] at e ⊢
        exact ih { s with oe := o' } (hst.resolve_left hd) hcap hlen g
          (by have := hr2 rfl; simp only; omega) (by simpa using e)
    | some b =>
      simp only [putc] at e ⊢
      by_cases hc : s.out.length < s.cap
      · have hc2 : s.out.length < cap := by omega
        simp only [hc, hc2, if_true] at e ⊢
        by_cases hd : o'.st = .optionLengthDone
        · simp only [hd, beq_self_eq_true, if_true, Bool.not_true, Bool.false_eq_true, if_false, Except.ok.injEq, Prod.mk.injEq] at e ⊢
          obtain ⟨rfl, rfl⟩ := e
          exact ⟨_, _, ⟨rfl, rfl⟩, by simp, by simp⟩
        · have hd' : (o'.st == OState.optionLengthDone) = false := by simpa using hd
          rw [hd'] at e ⊢
          simp only [Bool.not_true, Bool.false_eq_true, if_false] at e ⊢
          exact ih { s with oe := o', out := s.out ++ [b] } (hst.resolve_left hd) hcap
            (by simp only [List.length_append, List.length_singleton]; omega) g
            (by simp only [List.length_append, List.length_singleton]; omega) e
      · simp only [hc, if_false, Bool.not_false, if_true, Except.ok.injEq, Prod.mk.injEq] at e
        obtain ⟨rfl, rfl⟩ := e
        have hl : s.out.length = s.cap := by omega
        by_cases hc2 : s.out.length < cap
        · simp only [hc2, if_true]
          by_cases hd : o'.st = .optionLengthDone
          · simp only [hd, beq_self_eq_true, if_true, Bool.not_true, Bool.false_eq_true, if_false, Except.ok.injEq, Prod.mk.injEq]
            exact ⟨_, _, ⟨rfl, rfl⟩, by simp, fun _ => ⟨hl, by simp, fun _ => by simp; omega⟩⟩
          · have hd' : (o'.st == OState.optionLengthDone) = false := by simpa using hd
            rw [hd']
            obtain ⟨t, ok2, e1, e2, e3, e4, e5⟩ := loop_total g ⟨o', s.out ++ [b], cap⟩ base (hst.resolve_left hd)
              (by simp only [room, List.length_append, List.length_singleton]; omega)
            refine ⟨t, ok2, by simpa using e1, by simp, fun _ => ⟨hl, List.IsPrefix.trans (by simp) e3, fun _ => ?_⟩⟩
            have := e3.length_le
            simp only [List.length_append, List.length_singleton] at this; omega
        · simp only [hc2, if_false]
          exact ⟨⟨o', s.out, cap⟩, false, by simp, by simp, fun _ => ⟨hl, List.prefix_rfl, by simp⟩⟩

/-- A complete run of the option encoder up to the end of the option header. -/
inductive Emits (base : OptBase) : OptEnc → List UInt8 → OptEnc → Prop
  | done {o} : o.st = .optionLengthDone → Emits base o [] o
  | quiet {o o' bs o''} : o.st ≠ .optionLengthDone → o.generate base = .ok (o', none) → Emits base o' bs o'' →
      Emits base o bs o''
  | byte {o o' b bs o''} : o.st ≠ .optionLengthDone → o.generate base = .ok (o', some b) → Emits base o' bs o'' →
      Emits base o (b :: bs) o''

theorem Emits.det {base : OptBase} {o : OptEnc} {bs bs' : List UInt8} {p p' : OptEnc} (h : Emits base o bs p)
    (h' : Emits base o bs' p') : bs = bs' ∧ p = p' := by
  induction h generalizing bs' p' with
  | done hd =>
    cases h' with
    | done _ => exact ⟨rfl, rfl⟩
    | quiet hn _ _ => exact absurd hd hn
    | byte hn _ _ => exact absurd hd hn
  | quiet hn hg _ ih =>
    cases h' with
    | done hd => exact absurd hd hn
    | quiet _ hg' h2 => rw [hg] at hg'; cases hg'; exact ih h2
    | byte _ hg' h2 => rw [hg] at hg'; cases hg'
  | byte hn hg _ ih =>
    cases h' with
    | done hd => exact absurd hd hn
    | quiet _ hg' h2 => rw [hg] at hg'; cases hg'
    | byte _ hg' h2 => rw [hg] at hg'; cases hg'; obtain ⟨rfl, rfl⟩ := ih h2; exact ⟨rfl, rfl⟩

theorem loop_of_emits {base : OptBase} {o : OptEnc} {bs : List UInt8} {p : OptEnc} (h : Emits base o bs p)
    (f : Nat) (out : List UInt8) (cap : Nat) (hin : InHdr o.st) (hroom : out.length + bs.length ≤ cap)
    (hf : cap - out.length + erank o.st < f) :
    optionLoop f ⟨o, out, cap⟩ base = .ok (⟨p, out ++ bs, cap⟩, true) := by
  induction h generalizing f out with
  | done hd => rw [hd] at hin; exact absurd hin (by simp [InHdr])
  | @quiet o o' bs o'' hn hg h2 ih =>
    obtain ⟨o1, r, hgen, hst, hr1, hr2⟩ := gen_step o base hin
    rw [hg] at hgen; cases hgen
    obtain ⟨f, rfl⟩ : ∃ g', f = g' + 1 := ⟨f - 1, by omega⟩
    rw [optionLoop, hg]; simp only
    by_cases hd : o'.st = .optionLengthDone
    · obtain ⟨rfl, rfl⟩ := h2.det (Emits.done hd)
      simp [hd]
    · have hd' : (o'.st == OState.optionLengthDone) = false := by simpa using hd
      rw [hd']
      have := hr2 rfl
      simpa using ih f out (hst.resolve_left hd) hroom (by omega)
  | @byte o o' b bs o'' hn hg h2 ih =>
    obtain ⟨o1, r, hgen, hst, hr1, hr2⟩ := gen_step o base hin
    rw [hg] at hgen; cases hgen
    obtain ⟨f, rfl⟩ : ∃ g', f = g' + 1 := ⟨f - 1, by omega⟩
    rw [optionLoop, hg]
    have hc : out.length < cap := by simp at hroom; omega
    simp only [putc, hc, if_true]
    by_cases hd : o'.st = .optionLengthDone
    · obtain ⟨rfl, rfl⟩ := h2.det (Emits.done hd)
      simp [hd]
    · have hd' : (o'.st == OState.optionLengthDone) = false := by simpa using hd
      rw [hd']
      have := ih f (out ++ [b]) (hst.resolve_left hd) (by simp at hroom ⊢; omega)
        (by simp only [List.length_append, List.length_singleton]; omega)
      simpa using this

theorem emits_of_loop (f : Nat) (o : OptEnc) (out : List UInt8) (cap : Nat) (base : OptBase) (hin : InHdr o.st)
    (s' : SEnc) (e : optionLoop f ⟨o, out, cap⟩ base = .ok (s', true)) :
    ∃ bs, Emits base o bs s'.oe ∧ s'.out = out ++ bs := by
  induction f generalizing o out with
  | zero => simp [optionLoop] at e
  | succ f ih =>
    have hnl : o.st ≠ .optionLengthDone := by intro h; rw [h] at hin; exact absurd hin (by simp [InHdr])
    obtain ⟨o', r, hgen, hst, hr1, hr2⟩ := gen_step o base hin
    rw [optionLoop, hgen] at e
    cases r with
    | none =>
      simp only at e
      by_cases hd : o'.st = .optionLengthDone
      · simp only [hd, beq_self_eq_true, if_true, Except.ok.injEq, Prod.mk.injEq] at e
        obtain ⟨rfl, -⟩ := e
        exact ⟨[], Emits.quiet hnl hgen (Emits.done hd), by simp⟩
      · have hd' : (o'.st == OState.optionLengthDone) = false := by simpa using hd
        rw [hd'] at e
        obtain ⟨bs, h1, h2⟩ := ih o' out (hst.resolve_left hd) (by simpa using e)
        exact ⟨bs, Emits.quiet hnl hgen h1, h2⟩
    | some b =>
      simp only [putc] at e
      by_cases hc : out.length < cap
      · simp only [hc, if_true] at e
        by_cases hd : o'.st = .optionLengthDone
        · simp only [hd, beq_self_eq_true, if_true, Bool.not_true, Bool.false_eq_true, if_false, Except.ok.injEq, Prod.mk.injEq] at e
          obtain ⟨rfl, -⟩ := e
          exact ⟨[b], Emits.byte hnl hgen (Emits.done hd), rfl⟩
        · have hd' : (o'.st == OState.optionLengthDone) = false := by simpa using hd
          rw [hd'] at e
          simp only [Bool.not_true, Bool.false_eq_true, if_false] at e
          obtain ⟨bs, h1, h2⟩ := ih o' (out ++ [b]) (hst.resolve_left hd) e
          exact ⟨b :: bs, Emits.byte hnl hgen h1, by simp [h2]⟩
      · simp [hc] at e

end Verif.Proofs
