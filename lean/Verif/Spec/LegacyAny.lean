import Verif.Spec.Legacy
import Verif.Spec.Read

/-!
# What the older dispatch tells of arbitrary bytes

As `readRest`, but an option whose header ends with the bytes is not announced, whether the header is whole or not.
Only the vocabulary (`LEvent`) comes from the model.
-/
namespace Verif.Spec
open Verif.Model

/-- The calls announcing the options in `bs`; `prev` is the number of the option before.  An option is announced once
a byte follows its header; the length announced is the one on the wire, modulo 65536. -/
def toldOpts (prev : Nat) (bs : List UInt8) : List LEvent :=
  match bs with
  | [] => []
  | b :: bs =>
    if b = 0xFF then []
    else
      match h1 : readExt (b.toNat / 16) bs with
      | none => []
      | some (delta, bs1) =>
        match h2 : readExt (b.toNat % 16) bs1 with
        | none => []
        | some (len, bs2) =>
          if bs2 = [] then []
          else
            .option (UInt16.ofNat (prev + delta)) (UInt16.ofNat len) ::
              ((if len % 65536 = 0 then []
                else [.value (UInt16.ofNat (prev + delta)) (bs2.take (len % 65536)) (decide (len % 65536 ≤ bs2.length))]) ++
                toldOpts (prev + delta) (bs2.drop (len % 65536)))
termination_by bs.length
decreasing_by
  have := readExt_length h1
  have := readExt_length h2
  simp; omega

/-- The calls for a payload, if there is a byte of it. -/
def toldPayload : Option (List UInt8) → List LEvent
  | none => []
  | some [] => []
  | some p => [.payload p true, .complete]

/-- All calls for the four header bytes, a token and what follows.  Each part is told once a byte follows it. -/
def toldAny (b0 b1 b2 b3 : UInt8) (tok rest : List UInt8) : List LEvent :=
  (if tok = [] ∧ rest = [] then [] else [.header ⟨b0, b1, b2, b3⟩]) ++
  ((if tok = [] ∨ rest = [] then [] else [.token tok true]) ++
  (toldOpts 0 rest ++ toldPayload (readRest 0 0 rest).2))

theorem toldOpts_nil (prev : Nat) : toldOpts prev [] = [] := by simp [toldOpts]

theorem toldOpts_marker (prev : Nat) (bs : List UInt8) : toldOpts prev (0xFF :: bs) = [] := by simp [toldOpts]

theorem toldOpts_cut_delta {prev : Nat} {b : UInt8} {bs : List UInt8} (hb : b ≠ 0xFF)
    (h1 : readExt (b.toNat / 16) bs = none) : toldOpts prev (b :: bs) = [] := by
  rw [toldOpts, if_neg hb]
  split
  · rfl
  · rename_i h; rw [h1] at h; cases h

theorem toldOpts_cut_length {prev delta : Nat} {b : UInt8} {bs bs1 : List UInt8} (hb : b ≠ 0xFF)
    (h1 : readExt (b.toNat / 16) bs = some (delta, bs1)) (h2 : readExt (b.toNat % 16) bs1 = none) :
    toldOpts prev (b :: bs) = [] := by
  rw [toldOpts, if_neg hb]
  split
  · rfl
  · rename_i h; rw [h1] at h; cases h
    split
    · rfl
    · rename_i h; rw [h2] at h; cases h

theorem toldOpts_option {prev delta len : Nat} {b : UInt8} {bs bs1 bs2 : List UInt8} (hb : b ≠ 0xFF)
    (h1 : readExt (b.toNat / 16) bs = some (delta, bs1)) (h2 : readExt (b.toNat % 16) bs1 = some (len, bs2)) :
    toldOpts prev (b :: bs) =
      if bs2 = [] then []
      else
        .option (UInt16.ofNat (prev + delta)) (UInt16.ofNat len) ::
          ((if len % 65536 = 0 then []
            else [.value (UInt16.ofNat (prev + delta)) (bs2.take (len % 65536)) (decide (len % 65536 ≤ bs2.length))]) ++
            toldOpts (prev + delta) (bs2.drop (len % 65536))) := by
  rw [toldOpts, if_neg hb]
  split
  · rename_i h; rw [h1] at h; cases h
  · rename_i h; rw [h1] at h; cases h
    split
    · rename_i h; rw [h2] at h; cases h
    · rename_i h; rw [h2] at h; cases h; rfl

end Verif.Spec
