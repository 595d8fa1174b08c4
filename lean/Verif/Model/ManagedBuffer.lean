/-!
# Model of `v2::ManagedBuffer` (`src/mc/experimental.h`, `src/mc/experimental.cpp`)

`none` stands for undefined behaviour: writing past the buffer or the table of boundaries, reading a boundary never
set, and a length that wraps below zero.
-/
namespace Verif.Model

/-- `ManagedBuffer` — src/mc/experimental.h:543-556.  `bounds` are the first `boundary_count` entries of `boundaries`. -/
structure MBuf where
  chunk : List UInt8
  bounds : List (UInt8 × Nat)
  cur : Nat
  pos : Nat
deriving DecidableEq, Repr

namespace MBuf

/-- Constructor — src/mc/experimental.cpp:108-114; the content of the buffer is arbitrary. -/
def init (chunk : List UInt8) : MBuf := ⟨chunk, [], 0, 0⟩

/-- The caller copies `d` to the start of `current()` — src/mc/experimental.cpp:20-25. -/
def write (s : MBuf) (d : List UInt8) : Option MBuf :=
  if s.pos + d.length ≤ s.chunk.length then
    some { s with chunk := s.chunk.take s.pos ++ d ++ s.chunk.drop (s.pos + d.length) }
  else none

/-- `boundary` — src/mc/experimental.cpp:93-105. -/
def boundary (s : MBuf) (b : UInt8) (position : Nat) : Option MBuf :=
  if b != 0 then
    if s.bounds.length < 10 then some { s with bounds := s.bounds ++ [(b, s.pos + position)], pos := s.pos + position } else none
  else some { s with pos := s.pos + position }

/-- The search of `current_ro` — src/mc/experimental.cpp:37-54: the position of the next boundary, or the whole
length. -/
def limit (b : UInt8) (whole : Nat) : List (UInt8 × Nat) → Nat
  | [] => whole
  | x :: xs => if x.1 == b then x.2 else limit b whole xs

/-- `current_ro` — src/mc/experimental.cpp:27-61. -/
def currentRo (s : MBuf) (b : UInt8) : Option (List UInt8) :=
  if b == 0 then if s.pos ≤ s.chunk.length then some (s.chunk.drop s.pos) else none
  else
    let l := limit b s.chunk.length (s.bounds.drop s.cur)
    if s.pos ≤ l ∧ l ≤ s.chunk.length then some ((s.chunk.drop s.pos).take (l - s.pos)) else none

/-- `next` — src/mc/experimental.cpp:65-82. -/
def next (s : MBuf) : Option MBuf :=
  match s.bounds[s.cur]? with
  | none => none
  | some x => some { s with pos := s.pos + x.2, cur := if s.cur < s.bounds.length then s.cur + 1 else s.cur }

/-- `reset` — src/mc/experimental.cpp:85-90; the argument is not looked at. -/
def reset (s : MBuf) (_resetBoundaries : Bool) : MBuf := { s with pos := 0, cur := 0 }

/-- `read` — src/mc/experimental.h:73-90. -/
def read (s : MBuf) (b : UInt8) : Option (List UInt8 × MBuf) :=
  match s.currentRo b, s.next with
  | some d, some s => some (d, s)
  | _, _ => none

/-- Writing segments, each ended by a boundary (`current` and `boundary`, src/mc/experimental.cpp:20-25, 93-105). -/
def writeAll : MBuf → List (UInt8 × List UInt8) → Option MBuf
  | s, [] => some s
  | s, (b, d) :: xs =>
    match s.write d with
    | none => none
    | some s =>
      match s.boundary b d.length with
      | none => none
      | some s => writeAll s xs

end MBuf
end Verif.Model
