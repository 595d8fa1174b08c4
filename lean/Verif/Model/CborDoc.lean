import Verif.Model.Cbor

/-!
# Model of writing and reading a whole CBOR document

`NetBufEncoder` of `src/cbor/encoder.h`, one call per item, and `StreamDecoder` of `src/cbor/decoder.h`, used
as the unit tests use it (`test/unit-tests/cbor-test.cpp:337-395`).
-/
namespace Verif.Model.Cbor

/-- One call on `NetBufEncoder` — src/cbor/encoder.h:141-260. -/
inductive WCall
  | integer (v : Int)
  | string (s : List UInt8)
  | boolean (b : Bool)
  | null
  | map (count : Nat)
  | array (content : List UInt8)
  | items (content : List UInt8)
deriving DecidableEq, Repr

/-- `array` and `items` with an initializer list — src/cbor/encoder.h:219-232, 243-256: the header, then the
elements, copied one byte each without looking at the room. -/
def listNet (type : UInt8) (buf content : List UInt8) : Option (List UInt8 × Nat × Bool) :=
  match majorTypeAndInteger buf type content.length with
  | none => none
  | some (b, n) =>
    if n + content.length ≤ b.length then some (b.take n ++ content ++ b.drop (n + content.length), n + content.length, true)
    else none

/-- What a call does to `netbuf.unprocessed()`: the bytes there, by how many it advances and the result.
`map` — src/cbor/encoder.h:197-201; `integer`, `null`, `boolean`, `string` as in `Model/Cbor.lean`, 32-bit
`int`. -/
def WCall.run (buf : List UInt8) : WCall → Option (List UInt8 × Nat × Bool)
  | .integer v => (integerNet 32 buf v).map fun r => (r.1, r.2, true)
  | .string s => stringNet buf s
  | .boolean b => (booleanNet buf b).map (·, 1, true)
  | .null => (nullNet buf).map (·, 1, true)
  | .map n => (majorTypeAndInteger buf 5 n).map fun r => (r.1, r.2, true)
  | .array l => listNet 2 buf l
  | .items l => listNet 4 buf l

/-- The calls one after the other on a netbuf of one chunk: `pos` is how far it has been advanced
(`nbw_t::advance`, src/cbor/encoder.h:119, 135).  The result is the chunk, the position and whether every
call returned true. -/
def writeAll : List UInt8 → Nat → List WCall → Option (List UInt8 × Nat × Bool)
  | buf, pos, [] => some (buf, pos, true)
  | buf, pos, c :: cs =>
    match c.run (buf.drop pos) with
    | none => none
    | some (r, n, ok) =>
      match writeAll (buf.take pos ++ r) (pos + n) cs with
      | none => none
      | some (buf, pos, oks) => some (buf, pos, ok && oks)

/-- What a user of `StreamDecoder` learns about the item it stands at — src/cbor/decoder.h:301-343. -/
inductive RItem
  | integer (v : Int)
  | string (s : List UInt8)
  | bytes (s : List UInt8)
  | map (count : Nat)
  | items (count : Nat)
  | true
  | false
  | null
  | other
deriving DecidableEq, Repr

/-- The item at which the decoder stands after `process` returned false.  `is_long_start`, `type`,
`integer<int>`, `integer<unsigned>` and `string_experimental` (its result) — src/cbor/decoder.h:301-343;
`SimpleDataHelper` — src/cbor/decoder.h:387-404.  The bytes of a string are those at `context.unprocessed()`;
bytes after the end of the chunk are not represented. -/
def look (chunk : List UInt8) (d : CDec) (pos : Nat) : RItem :=
  if d.st == .longStart then
    if d.type == 3 then .string ((chunk.drop pos).take (d.unsigned 32))
    else if d.type == 2 then .bytes ((chunk.drop pos).take (d.unsigned 32))
    else if d.type == 4 then .items (d.unsigned 32)
    else .map (d.unsigned 32)
  else if d.type == 0 || d.type == 1 then .integer (d.integer 32)
  else if d.type == 7 then
    if d.additionalRaw == 21 then .true else if d.additionalRaw == 20 then .false
    else if d.additionalRaw == 22 then .null else .other
  else .other

/-- On to the next item: `string_experimental` and `fast_forward` move on by themselves
(src/cbor/decoder.h:307-319, 330-343), after other items the user calls `process`. -/
def next (junk : UInt8) (chunk : List UInt8) (fuel : Nat) (d : CDec) (pos : Nat) : Option (Option (CDec × Nat × Bool)) :=
  if d.st == .longStart then streamFastForward junk chunk fuel d pos else process junk chunk fuel d pos

/-- A user reads `n` items one after the other, beginning with the one the decoder stands at — src/cbor/decoder.h:301-343. -/
def readMore (junk : UInt8) (chunk : List UInt8) (fuel : Nat) : Nat → CDec → Nat → Option (Option (List RItem))
  | 0, _, _ => some (some [])
  | n + 1, d, pos =>
    match next junk chunk fuel d pos with
    | none => none
    | some none => some none
    | some (some (d', pos', _)) => (readMore junk chunk fuel n d' pos').map (·.map (look chunk d pos :: ·))

/-- A user reads `n` items with a new decoder: `process`, then as above — src/cbor/decoder.h:301-343. -/
def readDoc (junk : UInt8) (chunk : List UInt8) (fuel n : Nat) (d : CDec) : Option (Option (List RItem)) :=
  match process junk chunk fuel d.fresh 0 with
  | none => none
  | some none => some none
  | some (some (d', pos, _)) => readMore junk chunk fuel n d' pos

end Verif.Model.Cbor
