import Verif.Spec.Cuts
import Verif.Spec.Read

/-! # Arbitrary bytes behind header and token, read from a list of buffers -/
namespace Verif.Spec

/-- As `readRest`, for bytes `bs` that start at byte `k` of what the buffers hold: of each value only the part in the buffer in
which the value starts is there, and the option counts as complete if that is all of it. -/
def cutRest (bufs : List (List UInt8)) (k prev plen : Nat) (bs : List UInt8) : List Item :=
  match bs with
  | [] => []
  | b :: bs =>
    if b = 0xFF then []
    else
      match h1 : readExt (b.toNat / 16) bs with
      | none => [⟨prev, [], cutMark plen (b.toNat % 16)⟩]
      | some (delta, bs1) =>
        match h2 : readExt (b.toNat % 16) bs1 with
        | none => [⟨prev + delta, [], cutMark plen (b.toNat % 16)⟩]
        | some (len, bs2) =>
          let v := k + ((b :: bs).length - bs2.length)
          ⟨prev + delta, (restOfBuffer v bufs).take (len % 65536), decide (len % 65536 ≤ (restOfBuffer v bufs).length)⟩ ::
            cutRest bufs (v + len % 65536) (prev + delta) (len % 65536) (bs2.drop (len % 65536))
termination_by bs.length
decreasing_by
  have := readExt_length h1
  have := readExt_length h2
  simp; omega

theorem cutRest_nil (bufs : List (List UInt8)) (k prev plen : Nat) : cutRest bufs k prev plen [] = [] := by simp [cutRest]

theorem cutRest_marker (bufs : List (List UInt8)) (k prev plen : Nat) (bs : List UInt8) :
    cutRest bufs k prev plen (0xFF :: bs) = [] := by simp [cutRest]

theorem cutRest_cut_delta {bufs : List (List UInt8)} {k prev plen : Nat} {b : UInt8} {bs : List UInt8} (hb : b ≠ 0xFF)
    (h1 : readExt (b.toNat / 16) bs = none) :
    cutRest bufs k prev plen (b :: bs) = [⟨prev, [], cutMark plen (b.toNat % 16)⟩] := by
  rw [cutRest, if_neg hb]
  split
  · rfl
  · rename_i h; rw [h1] at h; cases h

theorem cutRest_cut_length {bufs : List (List UInt8)} {k prev plen delta : Nat} {b : UInt8} {bs bs1 : List UInt8} (hb : b ≠ 0xFF)
    (h1 : readExt (b.toNat / 16) bs = some (delta, bs1)) (h2 : readExt (b.toNat % 16) bs1 = none) :
    cutRest bufs k prev plen (b :: bs) = [⟨prev + delta, [], cutMark plen (b.toNat % 16)⟩] := by
  rw [cutRest, if_neg hb]
  split
  · rename_i h; rw [h1] at h; cases h
  · rename_i h; rw [h1] at h; cases h
    split
    · rfl
    · rename_i h; rw [h2] at h; cases h

theorem cutRest_option {bufs : List (List UInt8)} {k prev plen delta len : Nat} {b : UInt8} {bs bs1 bs2 : List UInt8} (hb : b ≠ 0xFF)
    (h1 : readExt (b.toNat / 16) bs = some (delta, bs1)) (h2 : readExt (b.toNat % 16) bs1 = some (len, bs2)) :
    cutRest bufs k prev plen (b :: bs) =
      ⟨prev + delta, (restOfBuffer (k + ((b :: bs).length - bs2.length)) bufs).take (len % 65536),
        decide (len % 65536 ≤ (restOfBuffer (k + ((b :: bs).length - bs2.length)) bufs).length)⟩ ::
        cutRest bufs (k + ((b :: bs).length - bs2.length) + len % 65536) (prev + delta) (len % 65536) (bs2.drop (len % 65536)) := by
  rw [cutRest, if_neg hb]
  split
  · rename_i h; rw [h1] at h; cases h
  · rename_i h; rw [h1] at h; cases h
    split
    · rename_i h; rw [h2] at h; cases h
    · rename_i h; rw [h2] at h; cases h; rfl

-- an option of two bytes, cut behind the first; then one that is said to have twelve bytes, of which two are there
example : cutRest [[0xB2, 0x61], [0x62, 0x1C, 5], [6]] 0 0 0 [0xB2, 0x61, 0x62, 0x1C, 5, 6] =
    [⟨11, [0x61], false⟩, ⟨12, [5], false⟩] := by
  simp [cutRest, readExt, restOfBuffer]
-- a reserved nibble, whose one byte is skipped
example : cutRest [[0x2F], [0x1D]] 0 0 0 [0x2F, 0x1D] = [⟨2, [], true⟩] := by
  simp [cutRest, readExt, restOfBuffer, cutMark]

end Verif.Spec
