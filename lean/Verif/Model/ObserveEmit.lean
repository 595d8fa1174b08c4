import Verif.Model.Observable

/-!
# Model of the notifications of the observe example — test/template/observable-raw-responder.hpp:15-67

`snprintf` and the clock belong to the C and C++ libraries.  `snprintf` is modelled by what the C standard says: of the
text and the zero byte behind it at most `size` bytes are written, the last of them a zero byte, and the length of the
whole text is returned.
-/
namespace Verif.Model.Observable
open Verif.Model

/-- Ways in which writing a notification leaves the buffer — test/template/observable-raw-responder.hpp:26-30. -/
inductive EFault
  /-- `snprintf` writes behind the end of the buffer -/
  | write
  /-- `advance` goes behind the end of the buffer, so that what follows it is sent -/
  | advance
deriving DecidableEq, Repr

/-- `%d` of a number that is not negative, most significant digit first; the digit 0 is byte 48 —
test/template/observable-raw-responder.hpp:28. -/
def decimal (n : Nat) : List UInt8 :=
  if h : n < 10 then [UInt8.ofNat (48 + n)] else decimal (n / 10) ++ [UInt8.ofNat (48 + n % 10)]
termination_by n
decreasing_by omega

/-- `"Observed: %d"` — test/template/observable-raw-responder.hpp:28.  The number is a `uint32_t` that is printed as an
`int`; 45 is the minus sign. -/
def observedText (sequence : UInt32) : List UInt8 :=
  [79, 98, 115, 101, 114, 118, 101, 100, 58, 32] ++
    if sequence.toNat < 2 ^ 31 then decimal sequence.toNat else 45 :: decimal (2 ^ 32 - sequence.toNat)

/-- `emit_observe` — test/template/observable-raw-responder.hpp:15-42.  The arguments `encoder.payload()`, which writes the
payload marker, and `encoder.size()` are evaluated in an order the language leaves open: `sizeFirst` tells which. -/
def emitObserve (sizeFirst : Bool) (sequence : UInt32) (s : NEnc) : Except EFault NEnc :=
  let before := s.room
  let s := s.payloadHeader.1
  let size := if sizeFirst then before else s.room
  let text := observedText sequence
  if s.room < min (text.length + 1) size then .error .write
  else if s.room < text.length then .error .advance
  else .ok { s with out := s.out ++ (if text.length < size then text else text.take (size - 1) ++ [0]),
                    room := s.room - text.length }

/-- `evaluate_emit_observe` — test/template/observable-raw-responder.hpp:50-67: whether observers are notified, and the new
`last`; times in milliseconds. -/
def paceStep (last now : Int) : Bool × Int := if now - last > 1000 then (true, now) else (false, last)

/-- What reaches the observe example: a request with an observe option, or the end of a round of its main loop at a time —
test/posix/observable-raw/main.cpp:26-37. -/
inductive LoopEv (A : Type)
  | observe (addr : A) (token : List UInt8) (code : UInt8)
  | loop (now : Int)
deriving DecidableEq, Repr

/-- The history of the registrar in the observe example — test/posix/observable-raw/main.cpp:26-37; `last` is the static
variable of `evaluate_emit_observe`, 0 in the beginning (test/template/observable-raw-responder.hpp:54). -/
def paced {A : Type} : Int → List (LoopEv A) → List (Ev A)
  | _, [] => []
  | last, .observe a t c :: es => .observe a t c :: paced last es
  | last, .loop now :: es =>
    match paceStep last now with
    | (true, last) => .round :: paced last es
    | (false, last) => paced last es

/-- `emit_observe` as `for_each` calls it — test/template/observable-raw-responder.hpp:65.  Its faults are left to the
theorems; here the encoder is unchanged then. -/
def emitted {A : Type} (sizeFirst : Bool) (s : Session A) (e : NEnc) : NEnc :=
  match emitObserve sizeFirst s.sequence e with
  | .ok e => e
  | .error _ => e

/-- What the loop sends (`for_each` with `emit_observe`) — test/template/observable-raw-responder.hpp:61-65. -/
def serveObservers {A : Type} (sizeFirst : Bool) (cap room fuel : Nat) (junk : List UInt8) (es : List (LoopEv A)) :
    Except OFault (Registrar A × List (List (Sent A))) :=
  run cap room fuel junk (emitted sizeFirst) Registrar.init (paced 0 es)

end Verif.Model.Observable
