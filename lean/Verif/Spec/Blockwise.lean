import Verif.Spec.Wire

/-!
# A body in blocks (RFC 7959)

The body is cut into blocks of `2 ^ (szx + 4)` bytes, the last of which may be shorter.  A receiver puts the blocks together by their numbers.
-/
namespace Verif.Spec

/-- What a message with a block option says: the number of the block, whether more follow, the size of the blocks and the bytes. -/
structure Block where
  num : Nat
  more : Bool
  size : Nat
  bytes : List UInt8
deriving DecidableEq, Repr

/-- Size of the blocks. -/
def blockSize (szx : Nat) : Nat := 2 ^ (szx + 4)

/-- Block `k` of a body. -/
def blockOf (body : List UInt8) (szx k : Nat) : Block :=
  ⟨k, decide ((k + 1) * blockSize szx < body.length), blockSize szx, (body.drop (k * blockSize szx)).take (blockSize szx)⟩

/-- How many blocks a body has. -/
def blockCount (body : List UInt8) (szx : Nat) : Nat := (body.length + blockSize szx - 1) / blockSize szx

/-- The first `k` blocks, if they are there. -/
def gather (got : List Block) : Nat → Option (List UInt8)
  | 0 => some []
  | k + 1 =>
    match gather got k, got.find? (fun b => b.num == k) with
    | some l, some b => some (l ++ b.bytes)
    | _, _ => none

/-- Putting together: a block without more gives the number of blocks; each of them has to be there. -/
def assemble (got : List Block) : Option (List UInt8) :=
  match got.find? (fun b => !b.more) with
  | none => none
  | some last => gather got (last.num + 1)

end Verif.Spec
