import Verif.Model.Decoder

/-!
# What a caller of the decoder can see

The caller hands buffers to the decoder and calls it, in any order and as often as it likes.
-/
namespace Verif.Spec
open Verif.Model

/-- What a caller may do: present a buffer (and say whether it is the final one), or call the decoder. -/
inductive Act
  | buffer (chunk : List UInt8) (last : Bool)
  | call
deriving DecidableEq, Repr

/-- What one call shows: the state the decoder says it is in, what it reports, and whether it says that
the buffer is used up; or that memory outside its buffers was touched. -/
abbrev Shown := Except Fault (DState × List Event × Bool)

/-- Everything the caller sees.  A call that touches memory outside the buffers ends the run. -/
def watch : Dec → Ctx → List Act → List Shown
  | _, _, [] => []
  | d, _, .buffer chunk last :: as => watch d ⟨chunk, 0, last⟩ as
  | d, c, .call :: as =>
    match d.stepNotify c with
    | .error e => [.error e]
    | .ok (d', c', evs) => .ok (d'.st, evs, Dec.atEnd c') :: watch d' c' as

/-- The state that such a run leaves, if no call touched memory outside the buffers. -/
def after : Dec → Ctx → List Act → Option (Dec × Ctx)
  | d, c, [] => some (d, c)
  | d, _, .buffer chunk last :: as => after d ⟨chunk, 0, last⟩ as
  | d, c, .call :: as =>
    match d.stepNotify c with
    | .error _ => none
    | .ok (d', c', _) => after d' c' as

end Verif.Spec
