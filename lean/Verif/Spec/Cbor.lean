import Verif.Spec.Wire

/-! # RFC 7049 section 2: the initial bytes of a data item -/
namespace Verif.Spec

/-- `bs` are the initial bytes of an item of major type `m` with argument `a`: the value, the length or
the number of items. -/
inductive CborHead : List UInt8 → Nat → Nat → Prop
  | tiny {m a} : m < 8 → a < 24 → CborHead [UInt8.ofNat (m * 32 + a)] m a
  | ext {m i bs} : m < 8 → i < 4 → bs.length = 2 ^ i → CborHead (UInt8.ofNat (m * 32 + 24 + i) :: bs) m (beValue bs)

/-- The integer denoted by an item of major type 0 or 1. -/
def cborInt (m a : Nat) : Int := if m = 1 then -1 - (a : Int) else a

/-- Data items and the starts of containers, RFC 7049 section 2.1-2.3. -/
inductive CborAtom
  | int (v : Int)
  | text (s : List UInt8)
  | bytes (s : List UInt8)
  | array (count : Nat)
  | map (count : Nat)
  | bool (b : Bool)
  | null
deriving DecidableEq, Repr

/-- `head` followed by `content` stands for the item. -/
inductive CborItem : (head content : List UInt8) → CborAtom → Prop
  | int {b m a} : CborHead b m a → m ≤ 1 → CborItem b [] (.int (cborInt m a))
  | bytes {b s} : CborHead b 2 s.length → CborItem b s (.bytes s)
  | text {b s} : CborHead b 3 s.length → CborItem b s (.text s)
  | array {b n} : CborHead b 4 n → CborItem b [] (.array n)
  | map {b n} : CborHead b 5 n → CborItem b [] (.map n)
  | false : CborItem [0xF4] [] (.bool false)
  | true : CborItem [0xF5] [] (.bool true)
  | null : CborItem [0xF6] [] .null

/-- The bytes are a sequence of items, whose heads have at most five bytes. -/
inductive CborSeq : List UInt8 → List CborAtom → Prop
  | nil : CborSeq [] []
  | cons {head content x bs xs} : CborItem head content x → head.length ≤ 5 → CborSeq bs xs →
      CborSeq (head ++ content ++ bs) (x :: xs)

end Verif.Spec
