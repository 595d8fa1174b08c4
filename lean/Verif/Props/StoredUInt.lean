import Verif.Model.StoredUInt
import Verif.Props.UInt

/-!
# C78: a number kept as an option value
-/
namespace Verif.Props
open Verif.Model Verif.Spec Verif.Proofs

/-- What `set` does, for every number that fits the storage. -/
theorem stored_set (s : StoredUInt) (n : Nat) (hn : n < 2 ^ 64) (hf : n < 256 ^ s.room.length) :
    s.set n = some ⟨beBytes (byteLen n) n ++ s.room.drop (byteLen n), byteLen n⟩ := by
  have h8 := byteLen_le8 hn
  have hl := byteLen_le hf
  rw [StoredUInt.set, uintSet_eq hn, if_pos hl]
  simp [Nat.mod_eq_of_lt (show byteLen n < 256 by omega)]

/-- The storage keeps its size. -/
theorem stored_room {s s' : StoredUInt} {n : Nat} (hn : n < 2 ^ 64) (h : s.set n = some s') : s'.room.length = s.room.length := by
  rw [StoredUInt.set, uintSet_eq hn] at h
  split at h <;> rename_i heq
  · simp at h
  · split at heq
    · rename_i hl
      simp only [Option.some.injEq, Prod.mk.injEq] at heq h
      rw [← h, ← heq.1]
      simp only [List.length_append, beBytes_length, List.length_drop]
      omega
    · simp at heq

/-- C78 (kept and given back).  A number that fits the storage is kept in its shortest form and given back, by every reader wide enough
exactly and by the others without the higher bits, whatever the storage held before and however much of it was in use. -/
theorem stored_roundtrip_partial (s : StoredUInt) (n : Nat) (hn : n < 2 ^ 64) (hf : n < 256 ^ s.room.length) :
    ∃ s', s.set n = some s' ∧ s'.room.length = s.room.length ∧ (∀ w, 8 ≤ w → s'.get w = n % 2 ^ w) ∧ s'.getU16 = n % 2 ^ 16 ∧
      s'.getU24 = n % 2 ^ 32 ∧ s'.length.toNat ≤ 8 ∧ n < 256 ^ s'.length.toNat ∧ (∀ k, n < 256 ^ k → s'.length.toNat ≤ k) := by
  have h8 := byteLen_le8 hn
  have hs := stored_set s n hn hf
  refine ⟨_, hs, stored_room hn hs, ?_, ?_, ?_, ?_, ?_, ?_⟩
  · intro w hw
    simp only [StoredUInt.get]
    rw [List.take_append_of_le_length (by simp), List.take_of_length_le (by simp), uintGet_eq w hw, beBytes_byteLen_value]
  · simp only [StoredUInt.getU16, StoredUInt.length, UInt8.toNat_ofNat', Nat.mod_eq_of_lt (show byteLen n < 2 ^ 8 by omega)]
    rw [List.take_append_of_le_length (by simp), List.take_of_length_le (by simp), uintGet_eq 16 (by omega), beBytes_byteLen_value]
  · simp only [StoredUInt.getU24, StoredUInt.length, UInt8.toNat_ofNat', Nat.mod_eq_of_lt (show byteLen n < 2 ^ 8 by omega)]
    rw [List.take_append_of_le_length (by simp), List.take_of_length_le (by simp), uintGet_eq 32 (by omega), beBytes_byteLen_value]
  · simp only [StoredUInt.length, UInt8.toNat_ofNat', Nat.mod_eq_of_lt (show byteLen n < 2 ^ 8 by omega)]
    exact h8
  · simp only [StoredUInt.length, UInt8.toNat_ofNat', Nat.mod_eq_of_lt (show byteLen n < 2 ^ 8 by omega)]
    exact lt_pow_byteLen n
  · intro k hk
    simp only [StoredUInt.length, UInt8.toNat_ofNat', Nat.mod_eq_of_lt (show byteLen n < 2 ^ 8 by omega)]
    exact byteLen_le hk

/-- C78 (the last one counts).  After any numbers that fit, the last one is given back. -/
theorem stored_last (s : StoredUInt) (ns : List Nat) (n : Nat) (hns : ∀ k ∈ ns ++ [n], k < 2 ^ 64 ∧ k < 256 ^ s.room.length) :
    ∃ s', s.setAll (ns ++ [n]) = some s' ∧ ∀ w, 8 ≤ w → s'.get w = n % 2 ^ w := by
  induction ns generalizing s with
  | nil =>
    have h := hns n (by simp)
    obtain ⟨s', h1, -, h2, -⟩ := stored_roundtrip_partial s n h.1 h.2
    exact ⟨s', by simp [StoredUInt.setAll, h1], h2⟩
  | cons k ns ih =>
    have h := hns k (by simp)
    obtain ⟨s1, h1, hl, -⟩ := stored_roundtrip_partial s k h.1 h.2
    obtain ⟨s2, h2, h3⟩ := ih s1 (by rw [hl]; exact fun j hj => hns j (by simp at hj ⊢; right; exact hj))
    exact ⟨s2, by simp [StoredUInt.setAll, h1, h2], h3⟩

/-- C78 (too large).  Exactly the numbers that do not fit are written past the storage. -/
theorem stored_overflow (s : StoredUInt) (n : Nat) (hn : n < 2 ^ 64) : s.set n = none ↔ 256 ^ s.room.length ≤ n := by
  constructor
  · intro h
    by_cases hf : n < 256 ^ s.room.length
    · rw [stored_set s n hn hf] at h; simp at h
    · omega
  · intro h
    rw [StoredUInt.set, uintSet_eq hn, if_neg]
    intro hl
    have h1 := lt_pow_byteLen n
    have h2 : 256 ^ byteLen n ≤ 256 ^ s.room.length := Nat.pow_le_pow_right (by omega) hl
    omega

/-- C78 (one byte).  The reader for one byte gives back the numbers from 1 to 255. -/
theorem stored_byte (s : StoredUInt) (n : Nat) (h1 : 0 < n) (h2 : n < 256) (hr : s.room ≠ []) :
    ∃ s', s.set n = some s' ∧ s'.getU8 = some n := by
  have hl : 0 < s.room.length := List.length_pos_iff.2 hr
  have hf : n < 256 ^ s.room.length := Nat.lt_of_lt_of_le h2 (by simpa using Nat.pow_le_pow_right (show 0 < 256 by omega) hl)
  refine ⟨_, stored_set s n (by omega) hf, ?_⟩
  have hb : byteLen n = 1 := by
    rw [byteLen_pos (by omega), Nat.div_eq_of_lt h2, byteLen_zero]
  simp [StoredUInt.getU8, hb, beBytes, Nat.mod_eq_of_lt h2]

/-- C78 (what does not hold).  Of zero, the reader for one byte gives back whatever the storage held: after any number from 1 to 255 and
then zero, it gives the old number. -/
theorem stored_zero_stale (s : StoredUInt) (a : Nat) (h1 : 0 < a) (h2 : a < 256) (hr : s.room ≠ []) :
    ∃ s', s.setAll [a, 0] = some s' ∧ s'.getU8 = some a ∧ s'.get 32 = 0 := by
  obtain ⟨s1, h3, h4⟩ := stored_byte s a h1 h2 hr
  have hz := stored_set s1 0 (by omega) (Nat.pow_pos (by omega))
  rw [byteLen_zero] at hz
  refine ⟨⟨s1.room, 0⟩, by simp [StoredUInt.setAll, h3, hz, beBytes], h4, by simp [StoredUInt.get, uintGet]⟩

/-- C78 (what does not hold).  Of a larger number the reader for one byte gives back the highest byte instead of the lowest. -/
theorem stored_byte_highest (s : StoredUInt) (n : Nat) (h1 : 256 ≤ n) (h2 : n < 65536) (hr : 2 ≤ s.room.length) :
    ∃ s', s.set n = some s' ∧ s'.getU8 = some (n / 256) := by
  have hf : n < 256 ^ s.room.length := Nat.lt_of_lt_of_le h2 (by simpa using Nat.pow_le_pow_right (show 0 < 256 by omega) hr)
  refine ⟨_, stored_set s n (by omega) hf, ?_⟩
  have hd : n / 256 / 256 = 0 := by omega
  have hb : byteLen n = 2 := by
    rw [byteLen_pos (by omega), byteLen_pos (by omega), hd, byteLen_zero]
  simp [StoredUInt.getU8, hb, beBytes]
  omega

/-- C78, exactly which numbers the reader for one byte gives back: those from 1 to 255, and zero if the first byte of the storage happens
to be zero. -/
theorem stored_byte_iff (s : StoredUInt) (n : Nat) (hn : n < 2 ^ 64) (hf : n < 256 ^ s.room.length) :
    ∃ s', s.set n = some s' ∧ (s'.getU8 = some n ↔ (0 < n ∧ n < 256) ∨ (n = 0 ∧ s.room.head? = some 0)) := by
  by_cases h0 : n = 0
  · subst h0
    have hz := stored_set s 0 (by omega) hf
    rw [byteLen_zero] at hz
    refine ⟨_, hz, ?_⟩
    cases hr : s.room with
    | nil => simp [StoredUInt.getU8, beBytes, hr]
    | cons b r =>
      simp only [StoredUInt.getU8, beBytes, List.nil_append, List.drop_zero, List.head?_cons, Option.map_some, Option.some.injEq, hr,
        Nat.lt_irrefl, false_and, false_or, true_and]
      exact ⟨fun h => UInt8.toNat_inj.1 h, fun h => by rw [h]; rfl⟩
  · by_cases h1 : n < 256
    · have hr : s.room ≠ [] := by
        intro hr
        rw [hr] at hf
        simp at hf
        exact h0 hf
      obtain ⟨s', e1, e2⟩ := stored_byte s n (by omega) h1 hr
      exact ⟨s', e1, by simp [e2, h1]; omega⟩
    · refine ⟨_, stored_set s n hn hf, ?_⟩
      constructor
      · intro h
        simp only [StoredUInt.getU8, Option.map_eq_some_iff] at h
        obtain ⟨b, -, hb⟩ := h
        have := b.toNat_lt
        omega
      · rintro (⟨_, h⟩ | ⟨h, _⟩) <;> omega

/-- C78 (three bytes).  `set_uint24_t` writes the low 24 bits into the first three bytes, leaves the others, and every reader gets them back;
it is undefined exactly when there are less than three bytes. -/
theorem stored_uint24 (n : Nat) (buf : List UInt8) :
    (3 ≤ buf.length → ∃ out, uintSet24 n buf = some (out ++ buf.drop 3) ∧ out.length = 3 ∧ ∀ w, 24 ≤ w → uintGet w out = n % 2 ^ 24) ∧
    (buf.length < 3 → uintSet24 n buf = none) := by
  constructor
  · intro h
    obtain ⟨out, h1, h2, h3⟩ := (uint_set_fixed 3 n buf).1 h
    refine ⟨out, h1, h2, ?_⟩
    intro w hw
    rw [uintGet_eq w (by omega), h3]
    have : 2 ^ 24 ≤ 2 ^ w := Nat.pow_le_pow_right (by omega) hw
    simp only [Nat.reducePow] at this ⊢
    exact Nat.mod_eq_of_lt (by omega)
  · exact (uint_set_fixed 3 n buf).2

example : ((StoredUInt.new [9, 9, 9, 9]).set 0xFEDCBA) = some ⟨[0xFE, 0xDC, 0xBA, 9], 3⟩ := by decide +kernel
example : ((StoredUInt.new [9, 9, 9, 9]).set 0xFEDCBA).map (·.get 32) = some 0xFEDCBA := by decide +kernel
example : ((StoredUInt.new [9, 9, 9, 9]).set 0xFEDCBA).map (·.getU16) = some 0xDCBA := by decide +kernel
example : ((StoredUInt.new [9, 9]).set 0x10000) = none := by decide +kernel
example : ((StoredUInt.new [9, 9, 9, 9]).setAll [7, 0]).bind (·.getU8) = some 7 := by decide +kernel
example : uintSet24 0x1123456 [0, 0, 0, 5] = some [0x12, 0x34, 0x56, 5] := by decide +kernel

/-- C78 (nothing kept).  A new one is empty and reads as zero, whatever is in its memory - except through the reader for one byte, which
gives that. -/
theorem stored_new (junk : List UInt8) : (StoredUInt.new junk).length = 0 ∧ (∀ w, (StoredUInt.new junk).get w = 0) ∧
    (StoredUInt.new junk).getU16 = 0 ∧ (StoredUInt.new junk).getU24 = 0 ∧
    ∀ b rest, junk = b :: rest → (StoredUInt.new junk).getU8 = some b.toNat := by
  refine ⟨rfl, fun w => ?_, ?_, ?_, fun b rest h => by subst h; rfl⟩ <;>
    simp [StoredUInt.new, StoredUInt.get, StoredUInt.getU16, StoredUInt.getU24, StoredUInt.length, uintGet]

end Verif.Props
