import Verif.Model.UInt

/-!
# Model of `layer2::UInt` (`src/coap/uint.h`): a number kept in the bytes of an option value

The vector's library is not in the checkout: its storage is a fixed number of bytes, and `resize` is taken to change the size and leave
the bytes that are there, as for `option_int` (`Model/Responder`).
-/
namespace Verif.Model

/-- `layer2::UInt<buffer_size>` — src/coap/uint.h:214-223: the storage, and how much of it is in use. -/
structure StoredUInt where
  room : List UInt8
  size : Nat
deriving DecidableEq, Repr

namespace StoredUInt

/-- A new one — src/coap/uint.h:223: nothing in use, the storage as it happens to be. -/
def new (junk : List UInt8) : StoredUInt := ⟨junk, 0⟩

/-- `length` — src/coap/uint.h:226. -/
def length (s : StoredUInt) : UInt8 := UInt8.ofNat s.size

/-- `set` — src/coap/uint.h:261-269: written into the storage whatever its size is, and resized afterwards.  `none`: written outside. -/
def set (s : StoredUInt) (n : Nat) : Option StoredUInt :=
  match uintSet n s.room with
  | none => none
  | some (room, count) => some ⟨room, count.toNat⟩

/-- `get<TReturn>` — src/coap/uint.h:271-279, for an unsigned type of `w` bits other than 8; the assertion only logs. -/
def get (s : StoredUInt) (w : Nat) : Nat := uintGet w (s.room.take s.size)

/-- `get_uint8_t` — src/coap/uint.h:230-234: the first byte of the storage; the assertion only logs.  `none`: no storage. -/
def getU8 (s : StoredUInt) : Option Nat := s.room.head?.map UInt8.toNat

/-- `get_uint16_t` — src/coap/uint.h:236-241. -/
def getU16 (s : StoredUInt) : Nat := uintGet 16 (s.room.take s.length.toNat)

/-- `get_uint24_t` — src/coap/uint.h:243-248. -/
def getU24 (s : StoredUInt) : Nat := uintGet 32 (s.room.take s.length.toNat)

/-- Several numbers kept one after the other — src/coap/uint.h:261-269. -/
def setAll (s : StoredUInt) : List Nat → Option StoredUInt
  | [] => some s
  | n :: ns => match s.set n with
    | none => none
    | some s => s.setAll ns

end StoredUInt
end Verif.Model
