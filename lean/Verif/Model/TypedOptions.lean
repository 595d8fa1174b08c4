import Verif.Model.PullDecoder
import Verif.Model.UInt

/-!
# Model of the readers of numeric options in `src/coap/decoder/netbuf.h`
-/
namespace Verif.Model.Pull

/-- `option_iterator::uint<TUInt>`, `uint16` and `uint32` — src/coap/decoder/netbuf.h:550-563, 580-581, and `uint8` (lines 565-578): the value at the
current place as a number of `w` bits. -/
def uintAt (w : Nat) (p : Pull) : Nat := if w = 8 then uintGet8 p.current.2 else uintGet w p.current.2

/-- The caller's loop over the options with `number()` and a numeric reader — test/template/observable-raw-responder.hpp:84-103,
src/coap/decoder/netbuf.h:495-526. -/
def numberLoop (w : Nat) : Nat → Pull → Except Fault (List (UInt16 × Nat))
  | 0, _ => .error .outOfFuel
  | fuel + 1, p =>
    if p.iterValid then
      match p.iterNext with
      | .error e => .error e
      | .ok q =>
        match numberLoop w fuel q with
        | .error e => .error e
        | .ok l => .ok ((p.d.holder.number, uintAt w p) :: l)
    else .ok []

/-- Header, token, then all options as numbers through the iterator — src/coap/decoder/netbuf.h:157-221, 480-526. -/
def readNumbers (w fuel : Nat) (p : Pull) : Except Fault (List (UInt16 × Nat)) :=
  match p.header with
  | .error e => .error e
  | .ok (_, p) =>
    match p.token with
    | .error e => .error e
    | .ok (_, _, p) =>
      match p.iterNew with
      | .error e => .error e
      | .ok p => numberLoop w fuel p

/-- The same with `begin_option_experimental` and `option_next`, the numbers made with `UInt::get` from `option()` —
src/coap/decoder/netbuf.h:395-442, 236-239, src/coap/uint.h:53-81. -/
def nextNumberLoop (w : Nat) : Nat → Bool → Pull → Except Fault (List (UInt16 × Nat))
  | 0, _, _ => .error .outOfFuel
  | _ + 1, false, _ => .ok []
  | fuel + 1, true, p =>
    match p.optionNext with
    | .error e => .error e
    | .ok (more, q) =>
      match nextNumberLoop w fuel more q with
      | .error e => .error e
      | .ok l => .ok ((p.d.holder.number, uintAt w p) :: l)

/-- Header, token, then all options as numbers without the iterator — src/coap/decoder/netbuf.h:157-221, 395-442. -/
def readNextNumbers (w fuel : Nat) (p : Pull) : Except Fault (List (UInt16 × Nat)) :=
  match p.header with
  | .error e => .error e
  | .ok (_, p) =>
    match p.token with
    | .error e => .error e
    | .ok (_, _, p) =>
      match p.beginOption with
      | .error e => .error e
      | .ok (more, p) => nextNumberLoop w fuel more p

end Verif.Model.Pull
