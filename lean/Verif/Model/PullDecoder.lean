import Verif.Model.Decoder

/-!
# Model of the pull-style decoder, `src/coap/decoder/netbuf.h`

The caller asks for header, token, options and payload in turn instead of receiving events.  The file is
marked obsolete, but `src/exp/retry.h`, `src/coap/observable.h` and the responders under `test/template`
still use it.  Only the one buffer given to the constructor is ever read (the code never advances
through the netbuf), so the netbuf itself is not modelled.  `ASSERT_*` log only, so the expected start
states passed to `process_iterate(State)` have no effect.
-/
namespace Verif.Model
open Header

/-- `DecoderWithContext` — src/coap/decoder/netbuf.h:31-45: a decoder and the context it reads from. -/
structure Pull where
  d : Dec
  c : Ctx
deriving DecidableEq, Repr

namespace Pull

/-- The constructor over an array — src/coap/decoder/netbuf.h:337-343; `junk` is what memory held. -/
def make (junk : Dec) (bytes : List UInt8) : Pull := ⟨Dec.fresh junk, ⟨bytes, 0, true⟩⟩

/-- `process_iterate()` — src/coap/decoder/netbuf.h:149-153, and the one with an expected state at
lines 61-79. -/
def iterate (p : Pull) : Except Fault Pull :=
  match p.d.step p.c with
  | .error e => .error e
  | .ok (d, c) => .ok ⟨d, c⟩

/-- `process_until_experimental` — src/coap/decoder/netbuf.h:90-113; `n` is `max_attempts`. -/
def processUntil (s : DState) : Nat → Pull → Except Fault (Bool × Pull)
  | 0, p => .ok (false, p)
  | n + 1, p =>
    if p.d.st ≠ s then
      match p.iterate with
      | .error e => .error e
      | .ok p => processUntil s n p
    else .ok (true, p)

/-- `header` — src/coap/decoder/netbuf.h:157-177.  The result of the search for `HeaderDone` is not
looked at. -/
def header (p : Pull) : Except Fault (Header × Pull) :=
  match processUntil .headerDone 10 p with
  | .error e => .error e
  | .ok (_, p) =>
    let h := p.d.hdr
    match p.iterate with
    | .error e => .error e
    | .ok p =>
      if p.d.st = .tokenDone then
        match p.iterate with
        | .error e => .error e
        | .ok p => .ok (h, p)
      else .ok (h, p)

/-- `preprocess_token` — src/coap/decoder/netbuf.h:118-145: the token length, or nothing when the token
is not complete. -/
def preprocessToken (p : Pull) : Except Fault (Option UInt8 × Pull) :=
  if p.d.st = .tokenDone then .ok (some 0, p)
  else if p.d.st = .optionsStart then .ok (some 0, p)
  else
    let tkl := p.d.hdr.tokenLength
    match p.iterate with
    | .error e => .error e
    | .ok p =>
      match processUntil .tokenDone 10 p with
      | .error e => .error e
      | .ok (false, p) => .ok (none, p)
      | .ok (true, p) =>
        match p.iterate with
        | .error e => .error e
        | .ok p => .ok (some tkl, p)

/-- `token(bool*)` — src/coap/decoder/netbuf.h:207-221: the token bytes and `completed`.  The C++ object
is a pointer into the token decoder; the model reads the bytes at once, before option decoding
overwrites them. -/
def token (p : Pull) : Except Fault (List UInt8 × Bool × Pull) :=
  match preprocessToken p with
  | .error e => .error e
  | .ok (tkl, p) =>
    let n := (tkl.getD 0).toNat
    if n ≤ p.d.tbuf.length then .ok (p.d.tbuf.take n, tkl.isSome, p) else .error .tokenOverread

/-- `begin_option_experimental` — src/coap/decoder/netbuf.h:398-415: whether there are options. -/
def beginOption (p : Pull) : Except Fault (Bool × Pull) :=
  match p.iterate with
  | .error e => .error e
  | .ok p =>
    if p.d.st = .optionsDone then
      match p.iterate with
      | .error e => .error e
      | .ok p => .ok (false, p)
    else .ok (true, p)

/-- `option_next` — src/coap/decoder/netbuf.h:425-442: whether another option is available. -/
def optionNext (p : Pull) : Except Fault (Bool × Pull) :=
  match p.iterate with
  | .error e => .error e
  | .ok p =>
    match p.iterate with
    | .error e => .error e
    | .ok p =>
      if p.d.st = .optionsDone then
        match p.iterate with
        | .error e => .error e
        | .ok p => .ok (p.d.st == .options, p)
      else .ok (p.d.st == .options, p)

/-- `option_number` and `option` at the current place — src/coap/decoder.h:231 and
src/coap/decoder/netbuf.h:236-239; also `option_iterator::number` and `opaque` (lines 460-463, 542-545). -/
def current (p : Pull) : UInt16 × List UInt8 := (p.d.holder.number, (p.d.optionValue p.c).1)

/-- `payload` — src/coap/decoder/netbuf.h:382-392. -/
def payload (p : Pull) : List UInt8 := p.c.remainder

/-- `option_iterator::option_iterator` — src/coap/decoder/netbuf.h:480-485, with
`partial_advance_and_get_number` (lines 466-477) and `process_option_header_experimental` (lines
263-276), which is one more `process_iterate`. -/
def iterNew (p : Pull) : Except Fault Pull :=
  match p.beginOption with
  | .error e => .error e
  | .ok (true, p) => p.iterate
  | .ok (false, p) => .ok p

/-- `option_iterator::valid` — src/coap/decoder/netbuf.h:495-498. -/
def iterValid (p : Pull) : Bool := p.d.st == .options

/-- `option_iterator::operator ++` — src/coap/decoder/netbuf.h:508-526. -/
def iterNext (p : Pull) : Except Fault Pull :=
  match p.optionNext with
  | .error e => .error e
  | .ok (true, p) => p.iterate
  | .ok (false, p) => .ok p

/-- The caller's loop `while(it.valid()) { use it.number(), it.opaque(); ++it; }` — e.g.
test/unit-tests/netbuf-test.cpp:43-45, test/template/simple-ping-responder.hpp:52-54. -/
def iterLoop : Nat → Pull → Except Fault (List (UInt16 × List UInt8) × Pull)
  | 0, _ => .error .outOfFuel
  | fuel + 1, p =>
    if p.iterValid then
      match p.iterNext with
      | .error e => .error e
      | .ok q =>
        match iterLoop fuel q with
        | .error e => .error e
        | .ok (l, q) => .ok (p.current :: l, q)
    else .ok ([], p)

/-- All options seen through the iterator — src/coap/decoder/netbuf.h:480-526. -/
def iterAll (fuel : Nat) (p : Pull) : Except Fault (List (UInt16 × List UInt8) × Pull) :=
  match p.iterNew with
  | .error e => .error e
  | .ok p => iterLoop fuel p

/-- The caller's loop `while(more) { use option_number(), option(); more = option_next(); }` over the
functions of src/coap/decoder/netbuf.h:395-442, without the iterator. -/
def nextLoop : Nat → Bool → Pull → Except Fault (List (UInt16 × List UInt8) × Pull)
  | 0, _, _ => .error .outOfFuel
  | _ + 1, false, p => .ok ([], p)
  | fuel + 1, true, p =>
    match p.optionNext with
    | .error e => .error e
    | .ok (more, q) =>
      match nextLoop fuel more q with
      | .error e => .error e
      | .ok (l, q) => .ok (p.current :: l, q)

/-- All options seen through `begin_option_experimental` and `option_next` — src/coap/decoder/netbuf.h:395-442. -/
def nextAll (fuel : Nat) (p : Pull) : Except Fault (List (UInt16 × List UInt8) × Pull) :=
  match p.beginOption with
  | .error e => .error e
  | .ok (more, p) => nextLoop fuel more p

/-- What the four calls of a reader yield: header, token, options and payload, and the state the decoder
is left in — src/coap/decoder/netbuf.h:157-239, 382-392. -/
structure Reading where
  header : Header
  token : List UInt8
  completed : Bool
  options : List (UInt16 × List UInt8)
  payload : List UInt8
  final : DState
deriving DecidableEq, Repr

/-- `header()`, `token()`, then all options by `options`, then `payload()` — the order of
test/unit-tests/netbuf-test.cpp:35-49 and test/template/simple-ping-responder.hpp:46-61. -/
def readWith (options : Pull → Except Fault (List (UInt16 × List UInt8) × Pull)) (p : Pull) :
    Except Fault Reading :=
  match p.header with
  | .error e => .error e
  | .ok (h, p) =>
    match p.token with
    | .error e => .error e
    | .ok (t, completed, p) =>
      match options p with
      | .error e => .error e
      | .ok (os, p) => .ok ⟨h, t, completed, os, p.payload, p.d.st⟩

end Pull
end Verif.Model
