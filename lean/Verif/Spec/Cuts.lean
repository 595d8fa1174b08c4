import Verif.Model.Decoder
import Verif.Spec.Scan

/-! # Where the payload and the option values of a message lie in a list of buffers -/
namespace Verif.Spec
open Verif.Model

/-- The part of the payload in the buffer in which it starts, and the number of buffers after that one;
`k` is the number of bytes up to and including the marker.  If the marker ends a buffer, the payload
starts in the next one, even if that is empty. -/
def payloadPart (k : Nat) : List (List UInt8) → List UInt8 × Nat
  | [] => ([], 0)
  | c :: cs => if k = 0 ∨ k < c.length then (c.drop k, cs.length) else payloadPart (k - c.length) cs

/-- The number of empty buffers at the end of a list of buffers. -/
def trailing : List (List UInt8) → Nat
  | [] => 0
  | c :: cs => if (c :: cs).flatten = [] then cs.length + 1 else trailing cs

-- the payload 9 10 11 behind five bytes
example : payloadPart 5 [[1, 2, 3], [4], [0xFF, 9], [10, 11]] = ([9], 1) := by decide
example : payloadPart 5 [[1, 2, 3], [4, 0xFF], [9, 10, 11]] = ([9, 10, 11], 0) := by decide
example : payloadPart 5 [[1, 2, 3], [4, 0xFF], [], [9, 10, 11]] = ([], 1) := by decide
example : trailing [[1], [], [2], [], []] = 2 := by decide

/-- What lies behind the first `k` bytes, piece by piece; empty pieces are left out. -/
def piecesFrom (k : Nat) : List (List UInt8) → List (List UInt8)
  | [] => []
  | c :: cs => if k < c.length then c.drop k :: piecesFrom 0 cs else piecesFrom (k - c.length) cs

example : piecesFrom 5 [[1, 2, 3], [4, 0xFF], [], [9], [], [10, 11], []] = [[9], [10, 11]] := by decide

/-- The bytes from byte `k` of the message to the end of the buffer that holds it. -/
def restOfBuffer (k : Nat) : List (List UInt8) → List UInt8
  | [] => []
  | c :: cs => if k < c.length then c.drop k else restOfBuffer (k - c.length) cs

/-- What follows the option header at the beginning of `bs`. -/
def behindHead : List UInt8 → List UInt8
  | [] => []
  | w :: t => match readExt (w.toNat / 16) t with
    | none => []
    | some (_, t) => match readExt (w.toNat % 16) t with
      | none => []
      | some (_, t) => t

/-- What is reported of options whose encoding starts at byte `k` of the message and is the beginning of `bs`: of each value the part that lies
in the buffer in which the value starts, flagged as complete if that is all of it. -/
def cutOptions (bufs : List (List UInt8)) : Nat → List Opt → List UInt8 → List Event
  | _, [], _ => []
  | k, o :: os, bs =>
    let v := k + (bs.length - (behindHead bs).length)
    let part := (restOfBuffer v bufs).take o.value.length
    .option (UInt16.ofNat o.number) part (decide (part.length = o.value.length)) ::
      cutOptions bufs (v + o.value.length) os ((behindHead bs).drop o.value.length)

-- `ab` cut behind the `a`, then `c` whole, then nothing
example : cutOptions [[0xB2, 0x61], [0x62, 0x01, 0x63], [0x00]] 0 [⟨11, [0x61, 0x62]⟩, ⟨11, [0x63]⟩, ⟨11, []⟩]
    [0xB2, 0x61, 0x62, 0x01, 0x63, 0x00] = [.option 11 [0x61] false, .option 11 [0x63] true, .option 11 [] true] := by decide

/-- Options as they are seen when the message arrives in `bufs`: each value is only the part that lies in the buffer in which
it starts. -/
def seenOpts (bufs : List (List UInt8)) : Nat → List Opt → List UInt8 → List Opt
  | _, [], _ => []
  | k, o :: os, bs =>
    let v := k + (bs.length - (behindHead bs).length)
    ⟨o.number, (restOfBuffer v bufs).take o.value.length⟩ ::
      seenOpts bufs (v + o.value.length) os ((behindHead bs).drop o.value.length)

/-- The message, with the options as they are seen when it arrives in `bufs`; `ob` is the encoding of its options. -/
def asSeen (m : Msg) (ob : List UInt8) (bufs : List (List UInt8)) : Msg :=
  { m with opts := seenOpts bufs (4 + m.token.length) m.opts (ob ++ encPayload m.payload) }

-- `ab/c`, cut behind the `a`, is seen as `a/c`
example : (asSeen ⟨1, 0, 1, 7, [], [⟨11, [0x61, 0x62]⟩, ⟨11, [0x63]⟩], none⟩ [0xB2, 0x61, 0x62, 0x01, 0x63]
    [[0x40, 1, 0, 7, 0xB2, 0x61], [0x62, 0x01, 0x63]]).opts = [⟨11, [0x61]⟩, ⟨11, [0x63]⟩] := by decide

end Verif.Spec
