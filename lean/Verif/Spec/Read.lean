import Verif.Spec.Scan

/-!
# A reading of arbitrary bytes standing behind header and token

`Spec.Scan` gives the option numbers only.  Here every byte string gets a list of options with values and
completeness marks and, behind the marker `0xFF`, a payload.  The leniencies of the decoder are part of the
definition: those of `scan`, and how an option counts whose header is cut off by the end of the bytes.
-/
namespace Verif.Spec

/-- An option that was read: number, value and whether the value is taken to be all there. -/
structure Item where
  number : Nat
  value : List UInt8
  complete : Bool
deriving DecidableEq, Repr

/-- Completeness mark of an option whose header is cut off.  `nib` is the length nibble, `plen` the length of
the option before it: a length that is written in the nibble counts; an extended one is taken for zero when the
option before it was empty or when the nibble is the reserved one. -/
def cutMark (plen nib : Nat) : Bool := if nib < 13 then nib == 0 else plen == 0 || nib == 15

/-- Options and payload in `bs`; `prev` and `plen` are number and length of the option before. -/
def readRest (prev plen : Nat) (bs : List UInt8) : List Item × Option (List UInt8) :=
  match bs with
  | [] => ([], none)
  | b :: bs =>
    if b = 0xFF then ([], some bs)
    else
      match h1 : readExt (b.toNat / 16) bs with
      | none => ([⟨prev, [], cutMark plen (b.toNat % 16)⟩], none)
      | some (delta, bs1) =>
        match h2 : readExt (b.toNat % 16) bs1 with
        | none => ([⟨prev + delta, [], cutMark plen (b.toNat % 16)⟩], none)
        | some (len, bs2) =>
          let r := readRest (prev + delta) (len % 65536) (bs2.drop (len % 65536))
          (⟨prev + delta, bs2.take (len % 65536), decide (len % 65536 ≤ bs2.length)⟩ :: r.1, r.2)
termination_by bs.length
decreasing_by
  have := readExt_length h1
  have := readExt_length h2
  simp; omega

theorem readRest_nil (prev plen : Nat) : readRest prev plen [] = ([], none) := by simp [readRest]

theorem readRest_marker (prev plen : Nat) (bs : List UInt8) : readRest prev plen (0xFF :: bs) = ([], some bs) := by
  simp [readRest]

theorem readRest_cut_delta {prev plen : Nat} {b : UInt8} {bs : List UInt8} (hb : b ≠ 0xFF)
    (h1 : readExt (b.toNat / 16) bs = none) :
    readRest prev plen (b :: bs) = ([⟨prev, [], cutMark plen (b.toNat % 16)⟩], none) := by
  rw [readRest, if_neg hb]
  split
  · rfl
  · rename_i h; rw [h1] at h; cases h

theorem readRest_cut_length {prev plen delta : Nat} {b : UInt8} {bs bs1 : List UInt8} (hb : b ≠ 0xFF)
    (h1 : readExt (b.toNat / 16) bs = some (delta, bs1)) (h2 : readExt (b.toNat % 16) bs1 = none) :
    readRest prev plen (b :: bs) = ([⟨prev + delta, [], cutMark plen (b.toNat % 16)⟩], none) := by
  rw [readRest, if_neg hb]
  split
  · rename_i h; rw [h1] at h; cases h
  · rename_i h; rw [h1] at h; cases h
    split
    · rfl
    · rename_i h; rw [h2] at h; cases h

theorem readRest_option {prev plen delta len : Nat} {b : UInt8} {bs bs1 bs2 : List UInt8} (hb : b ≠ 0xFF)
    (h1 : readExt (b.toNat / 16) bs = some (delta, bs1)) (h2 : readExt (b.toNat % 16) bs1 = some (len, bs2)) :
    readRest prev plen (b :: bs) =
      (⟨prev + delta, bs2.take (len % 65536), decide (len % 65536 ≤ bs2.length)⟩ ::
        (readRest (prev + delta) (len % 65536) (bs2.drop (len % 65536))).1,
       (readRest (prev + delta) (len % 65536) (bs2.drop (len % 65536))).2) := by
  rw [readRest, if_neg hb]
  split
  · rename_i h; rw [h1] at h; cases h
  · rename_i h; rw [h1] at h; cases h
    split
    · rename_i h; rw [h2] at h; cases h
    · rename_i h; rw [h2] at h; cases h; rfl

/-- The numbers are those of `scan`. -/
theorem readRest_numbers (prev plen : Nat) (bs : List UInt8) :
    (readRest prev plen bs).1.map (·.number) = scan prev bs := by
  fun_induction readRest prev plen bs with
  | case1 => simp [scan]
  | case2 => simp [scan]
  | case3 _ _ _ _ hb h1 => rw [scan_cut_delta hb h1]; rfl
  | case4 _ _ _ _ hb _ _ h1 h2 => rw [scan_cut_length hb h1 h2]; rfl
  | case5 _ _ _ _ hb _ _ h1 _ _ h2 r ih => rw [scan_option hb h1 h2, List.map_cons, ih]

/-- Values are shorter than 65536. -/
theorem readRest_values (prev plen : Nat) (bs : List UInt8) :
    ∀ i ∈ (readRest prev plen bs).1, i.value.length < 65536 := by
  fun_induction readRest prev plen bs with
  | case1 => simp
  | case2 => simp
  | case3 => simp
  | case4 => simp
  | case5 _ _ _ _ hb _ _ h1 len bs2 h2 r ih =>
    intro i hi
    rcases List.mem_cons.mp hi with rfl | hi
    · have : len % 65536 < 65536 := Nat.mod_lt _ (by omega)
      simp only [List.length_take]; omega
    · exact ih i hi

end Verif.Spec
