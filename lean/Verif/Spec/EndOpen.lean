import Verif.Spec.Scan

/-! # Bytes in the place of options that end where more is expected -/
namespace Verif.Spec

/-- The bytes end within an option: inside its header, right behind its header, or inside its value. -/
def endsOpen (bs : List UInt8) : Bool :=
  match bs with
  | [] => false
  | b :: bs =>
    if b = 0xFF then false
    else
      match h1 : readExt (b.toNat / 16) bs with
      | none => true
      | some (_, bs1) =>
        match h2 : readExt (b.toNat % 16) bs1 with
        | none => true
        | some (len, bs2) => if bs2 = [] ∨ bs2.length < len % 65536 then true else endsOpen (bs2.drop (len % 65536))
termination_by bs.length
decreasing_by
  have := readExt_length h1
  have := readExt_length h2
  simp; omega

theorem endsOpen_nil : endsOpen [] = false := by simp [endsOpen]

theorem endsOpen_marker (bs : List UInt8) : endsOpen (0xFF :: bs) = false := by simp [endsOpen]

theorem endsOpen_cut_delta {b : UInt8} {bs : List UInt8} (hb : b ≠ 0xFF) (h1 : readExt (b.toNat / 16) bs = none) :
    endsOpen (b :: bs) = true := by
  rw [endsOpen, if_neg hb]
  split
  · rfl
  · rename_i h; rw [h1] at h; cases h

theorem endsOpen_cut_length {b : UInt8} {bs bs1 : List UInt8} {delta : Nat} (hb : b ≠ 0xFF)
    (h1 : readExt (b.toNat / 16) bs = some (delta, bs1)) (h2 : readExt (b.toNat % 16) bs1 = none) :
    endsOpen (b :: bs) = true := by
  rw [endsOpen, if_neg hb]
  split
  · rfl
  · rename_i h; rw [h1] at h; cases h
    split
    · rfl
    · rename_i h; rw [h2] at h; cases h

theorem endsOpen_option {b : UInt8} {bs bs1 bs2 : List UInt8} {delta len : Nat} (hb : b ≠ 0xFF)
    (h1 : readExt (b.toNat / 16) bs = some (delta, bs1)) (h2 : readExt (b.toNat % 16) bs1 = some (len, bs2)) :
    endsOpen (b :: bs) = if bs2 = [] ∨ bs2.length < len % 65536 then true else endsOpen (bs2.drop (len % 65536)) := by
  rw [endsOpen, if_neg hb]
  split
  · rename_i h; rw [h1] at h; cases h
  · rename_i h; rw [h1] at h; cases h
    split
    · rename_i h; rw [h2] at h; cases h
    · rename_i h; rw [h2] at h; cases h; rfl

-- whole options, an empty one at the end, a value cut off, a header cut off
example : endsOpen [0xB1, 7, 0x40, 0x11, 5] = false := by simp [endsOpen, readExt]
example : endsOpen [0xB1, 7, 0x40] = true := by simp [endsOpen, readExt]
example : endsOpen [0xB1, 7, 0x42, 5] = true := by simp [endsOpen, readExt]
example : endsOpen [0xB1, 7, 0xD1] = true := by simp [endsOpen, readExt]
example : endsOpen [0xB1, 7, 0x40, 0xFF] = false := by simp [endsOpen, readExt]

end Verif.Spec
