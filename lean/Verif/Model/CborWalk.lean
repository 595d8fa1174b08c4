import Verif.Model.Cbor

/-!
# Model of the loop with which the CBOR example walks over a payload

`test/template/simple-cbor-responder.hpp`.  Only the loop: the rest of the responder calls two functions of the pull-style
decoder of which one is compiled out (`#ifdef UNUSED`, src/coap/decoder/netbuf.h:358-376) and the other does not exist.
-/
namespace Verif.Model.Cbor

/-- What the loop prints, one constructor per output statement — test/template/simple-cbor-responder.hpp:44-86. -/
inductive WLine
  /-- "Has cbor type: " — line 84 -/
  | type (t : UInt8)
  /-- "Fast forwarding" — line 53 -/
  | enter
  /-- "Got string: '…' - " — line 64 -/
  | text (s : List UInt8)
  /-- "Fast forwarding: … bytes" — line 69 -/
  | skip (n : Nat)
  /-- "Accompanying int: " — line 78 -/
  | int (v : Int)
deriving DecidableEq, Repr

/-- Ways in which the loop does not end normally — test/template/simple-cbor-responder.hpp:41-88. -/
inductive WFault
  /-- a write outside the buffer of the decoder -/
  | overflow
  /-- a read of memory that cannot be read -/
  | unreadable
  | outOfFuel
deriving DecidableEq, Repr

/-- The byte at `data`, `pos` bytes after the start of the payload — test/template/simple-cbor-responder.hpp:43.  `mem`
is the memory behind the payload, `none` where it cannot be read. -/
def peek (mem : Nat → Option UInt8) (chunk : List UInt8) (pos : Nat) : Option UInt8 :=
  if pos < chunk.length then some (chunk.getD pos 0) else mem (pos - chunk.length)

/-- The text of a string of `n` bytes at `data` — test/template/simple-cbor-responder.hpp:62-64. -/
def peekText (mem : Nat → Option UInt8) (chunk : List UInt8) (pos : Nat) : Nat → Option (List UInt8)
  | 0 => some []
  | n + 1 =>
    match peek mem chunk pos with
    | none => none
    | some b => (peekText mem chunk (pos + 1) n).map (b :: ·)

/-- Lines printed before the rest — test/template/simple-cbor-responder.hpp:41-88. -/
def printing (ls : List WLine) : Except WFault (List WLine) → Except WFault (List WLine)
  | .error e => .error e
  | .ok r => .ok (ls ++ r)

/-- The loop — test/template/simple-cbor-responder.hpp:41-88.  `len` is the length of the payload minus `pos` and may
become negative.  Everything is printed as with `FEATURE_MCCOAP_IOSTREAM_NATIVE`. -/
def walk (mem : Nat → Option UInt8) (chunk : List UInt8) : Nat → CDec → Nat → Except WFault (List WLine)
  | 0, _, _ => .error .outOfFuel
  | fuel + 1, d, pos =>
    if pos < chunk.length || (pos == chunk.length && d.st != .itemDone) then
      match peek mem chunk pos with
      | none => .error .unreadable
      | some b =>
        match d.iterate b with
        | none => .error .overflow
        | some (d, adv) =>
          let pos := if adv then pos + 1 else pos
          if d.st == .longStart then
            if d.isIndeterminate then printing [.enter] (walk mem chunk fuel d.fastForward pos)
            else
              let n := d.unsigned 16
              if d.type == 3 then
                match peekText mem chunk pos n with
                | none => .error .unreadable
                | some s => printing [.text s, .skip n] (walk mem chunk fuel d.fastForward (pos + n))
              else printing [.skip n] (walk mem chunk fuel d.fastForward (pos + n))
          else if d.st == .itemDone then printing [.int (d.integer 16)] (walk mem chunk fuel d pos)
          else if d.st == .headerDone then printing [.type d.type] (walk mem chunk fuel d pos)
          else walk mem chunk fuel d pos
    else .ok []

/-- The loop over a payload with a new decoder — test/template/simple-cbor-responder.hpp:34-88. -/
def walkPayload (mem : Nat → Option UInt8) (fuel : Nat) (junk : CDec) (payload : List UInt8) : Except WFault (List WLine) :=
  walk mem payload fuel junk.fresh 0

end Verif.Model.Cbor
