import Verif.Model.NetBufEncoder
import Verif.Model.PullDecoder

/-!
# Model of copying between network buffers, `src/exp/misc.hpp`, and of its use in `src/coap/observable.h`

The copy is a template over two network buffers.  Both are seen through `processed`, `unprocessed`,
`advance`, `end`, `next` and their lengths, as in `src/platform/generic/malloc_netbuf.h`: a list of chunks,
one of which is current; `next` moves to the following chunk and changes nothing at the last one.
-/
namespace Verif.Model

/-- Ways in which copying does not return normally — src/exp/misc.hpp:9-84. -/
inductive NFault
  | sourceOverread | outOfFuel | decoder (f : Fault)
deriving DecidableEq, Repr

/-- A network buffer that is read: what the current chunk holds (`processed`, `length_processed`) and what
the chunks after it hold — src/platform/generic/malloc_netbuf.h:38-49, 66-95. -/
structure NSrc where
  cur : List UInt8
  rest : List (List UInt8)
deriving DecidableEq, Repr

/-- A network buffer that is written: what the chunks before the current one hold, what the current chunk
holds, the room left in it (`length_unprocessed`), the sizes of the chunks after it —
src/platform/generic/malloc_netbuf.h:38-60, 66-95. -/
structure NDst where
  before : List (List UInt8)
  cur : List UInt8
  room : Nat
  rest : List Nat
deriving DecidableEq, Repr

namespace NDst

/-- `next` — src/platform/generic/malloc_netbuf.h:88-95.  `NetBufDynamicExperimental` keeps its position
when it moves on, but never has a second chunk; a new chunk is taken to start empty. -/
def next (d : NDst) : NDst :=
  match d.rest with
  | [] => d
  | n :: ns => ⟨d.before ++ [d.cur], [], n, ns⟩

/-- Writing at `unprocessed` and `advance` — src/platform/generic/malloc_netbuf.h:41, 56-60. -/
def put (d : NDst) (bs : List UInt8) : NDst := { d with cur := d.cur ++ bs, room := d.room - bs.length }

end NDst

/-- The loop of `coap_netbuf_copy` — src/exp/misc.hpp:34-84.  `s` is what `src` and `src_len` still describe of
the current source chunk; `dst` and `dst_len` always describe the room of the destination.  The branches
for a destination at its end are empty, so `next` is called all the same. -/
def copyLoop : Nat → NSrc → List UInt8 → NDst → Except NFault NDst
  | 0, _, _, _ => .error .outOfFuel
  | fuel + 1, src, s, d =>
    let n := min s.length d.room
    let d := d.put (s.take n)
    let s := s.drop n
    if s.length > 0 then copyLoop fuel src s d.next
    else match src.rest with
      | [] => .ok d
      | c :: cs => copyLoop fuel ⟨c, cs⟩ c (if d.room == 0 then d.next else d)

/-- `coap_netbuf_copy` — src/exp/misc.hpp:9-32, with `reset` false (the default, and the only value used).
`skip` is an `int`; here it is not negative.  When it exceeds the chunk the length wraps around and memory
behind the source is read; this is the fault, also in the case that the destination has no room at all. -/
def netbufCopy (fuel : Nat) (src : NSrc) (d : NDst) (skip : Nat) : Except NFault NDst :=
  if skip > src.cur.length then .error .sourceOverread
  else copyLoop fuel src (src.cur.drop skip) d

/-- `ObservableMetaSession::on_message_transmitted` — src/coap/observable.h:76-105: a sent message is given
the token of the next observer.  The new buffer has chunks of `room` and then `more` bytes.  The template
has not been instantiated anywhere (it names members its iterator does not have), so only the bytes put
together are modelled, not the queue.  The header is read through `NetBufDecoder` from the first chunk. -/
def reissue (fuel : Nat) (junk : Dec) (src : NSrc) (token : List UInt8) (room : Nat) (more : List Nat) :
    Except NFault NDst :=
  match (Pull.make junk src.cur).header with
  | .error e => .error (.decoder e)
  | .ok (h, _) =>
    let h := h.setTokenLength (UInt8.ofNat token.length)
    let e := ((NEnc.init room).header h).1
    let e := (e.token token).1
    netbufCopy fuel src ⟨[], e.out, e.room, more⟩ (4 + h.tokenLength.toNat)

end Verif.Model
