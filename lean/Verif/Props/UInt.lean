import Verif.Proofs.UInt

/-! # CoAP uint, token generator and block option properties (C06–C11) -/
namespace Verif.Props
open Verif.Model Verif.Spec Verif.Proofs

/-- C06: encoding then decoding the produced bytes into a type of at least the same width gives the
value back, whatever the buffer held. -/
theorem uint_roundtrip (n w : Nat) (hn : n < 2 ^ 64) (hw : 8 ≤ w) (hnw : n < 2 ^ w) (buf : List UInt8)
    (hb : 8 ≤ buf.length) :
    ∃ buf' k, uintSet n buf = some (buf', k) ∧ uintGet w (buf'.take k.toNat) = n := by
  have h8 := byteLen_le8 hn
  refine ⟨_, _, by rw [uintSet_eq hn, if_pos (by omega)], ?_⟩
  have : (UInt8.ofNat (byteLen n)).toNat = byteLen n := by simp; omega
  rw [this, List.take_append_of_le_length (by simp), List.take_of_length_le (by simp),
    uintGet_eq w hw, beBytes_byteLen_value, Nat.mod_eq_of_lt hnw]

/-- C06: also for the 8-bit decoder. -/
theorem uint_roundtrip8 (n : Nat) (hn : n < 256) (buf : List UInt8) (hb : 1 ≤ buf.length) :
    ∃ buf' k, uintSet n buf = some (buf', k) ∧ uintGet8 (buf'.take k.toNat) = n := by
  have h1 : byteLen n ≤ 1 := byteLen_le (by simpa using hn)
  refine ⟨_, _, by rw [uintSet_eq (by omega), if_pos (by omega)], ?_⟩
  have : (UInt8.ofNat (byteLen n)).toNat = byteLen n := by simp; omega
  rw [this, List.take_append_of_le_length (by simp), List.take_of_length_le (by simp)]
  by_cases h : n = 0
  · subst h; simp [byteLen_zero, beBytes, uintGet8]
  · have : byteLen n = 1 := by have := byteLen_pos h; omega
    simp [this, beBytes, uintGet8, Nat.mod_eq_of_lt hn]

example : uintSet 0x123456 [9, 9, 9, 9] = some ([0x12, 0x34, 0x56, 9], 3) ∧
    uintGet 32 [0x12, 0x34, 0x56] = 0x123456 := by decide +kernel

/-- C07: exactly the shortest big-endian form is written, in front of untouched bytes; zero takes no
bytes, and any byte string of the same value is at least as long (and equal when equally long). -/
theorem uint_shortest (n : Nat) (hn : n < 2 ^ 64) (buf : List UInt8) (hb : 8 ≤ buf.length) :
    ∃ out, uintSet n buf = some (out ++ buf.drop out.length, UInt8.ofNat out.length) ∧
      out.length ≤ 8 ∧ beValue out = n ∧ out.head? ≠ some 0 ∧ (n = 0 → out = []) ∧
      ∀ other, beValue other = n →
        out.length ≤ other.length ∧ (other.length = out.length → other = out) := by
  have h8 := byteLen_le8 hn
  refine ⟨beBytes (byteLen n) n, ?_, by simpa using h8, beBytes_byteLen_value n, ?_, ?_, ?_⟩
  · rw [uintSet_eq hn, if_pos (by omega)]; simp
  · intro h0
    by_cases h : n = 0
    · subst h; simp [byteLen_zero, beBytes] at h0
    · have hv := beBytes_byteLen_value n
      have hl := beBytes_length (byteLen n) n
      have hp := pow_le_of_byteLen h
      cases hb' : beBytes (byteLen n) n with
      | nil => simp [hb'] at h0
      | cons b bs =>
        rw [hb'] at h0 hv hl
        simp only [List.head?_cons, Option.some.injEq] at h0
        subst h0
        simp only [List.length_cons] at hl
        have := beValue_lt bs
        rw [← hl] at hp
        simp [beValue] at hv
        simp at hp
        omega
  · intro h; subst h; simp [byteLen_zero, beBytes]
  · intro other ho
    have hlt := beValue_lt other
    rw [ho] at hlt
    have := byteLen_le hlt
    refine ⟨by simpa using this, fun hl => beValue_inj hl ?_⟩
    rw [ho, beBytes_byteLen_value]

example : uintSet 0 [1, 2] = some ([1, 2], 0) ∧ uintSet 256 [1, 2] = some ([1, 0], 2) := by
  decide +kernel

/-- C08: decoding gives the big-endian value modulo the width, for byte strings of any length. -/
theorem uint_decode_value (w : Nat) (hw : 16 ≤ w) (bs : List UInt8) :
    uintGet w bs = beValue bs % 2 ^ w := uintGet_eq w (by omega) bs

/-- C08: leading zero bytes never matter. -/
theorem uint_decode_leading_zeros (w k : Nat) (hw : 16 ≤ w) (bs : List UInt8) :
    uintGet w (List.replicate k 0 ++ bs) = uintGet w bs := by
  rw [uint_decode_value w hw, uint_decode_value w hw, beValue_append]
  have : beValue (List.replicate k (0 : UInt8)) = 0 := by
    induction k with
    | zero => rfl
    | succ k ih => simp [List.replicate_succ, beValue, ih]
  simp [this]

/-- C08: the 8-bit decoder on at most one byte. -/
theorem uint_decode_value8 (bs : List UInt8) (h : bs.length ≤ 1) : uintGet8 bs = beValue bs := by
  match bs, h with
  | [], _ => rfl
  | [b], _ => simp [uintGet8, beValue]

example : uintGet 16 [0x01, 0x12, 0x34] = 0x1234 := by decide

/-- C09: the fixed-length writer changes exactly the first `k` bytes and leaves `n mod 256^k` there; it
is undefined exactly when the destination is shorter. -/
theorem uint_set_fixed (k n : Nat) (buf : List UInt8) :
    (k ≤ buf.length → ∃ out, uintSetLen k n buf = some (out ++ buf.drop k) ∧ out.length = k ∧
      beValue out = n % 256 ^ k) ∧
    (buf.length < k → uintSetLen k n buf = none) := by
  constructor
  · intro h
    exact ⟨beBytes k n, by rw [uintSetLen_eq, if_pos h], by simp, beValue_beBytes k n⟩
  · intro h; rw [uintSetLen_eq, if_neg (by omega)]

/-- C09: the padded writer, for a value that fits. -/
theorem uint_set_padded (size n : Nat) (hn : n < 2 ^ 64) (hs : size < 2 ^ 64) (hfit : n < 256 ^ size)
    (buf : List UInt8) (hb : size ≤ buf.length) :
    ∃ out, uintSetPadded n buf size = some (out ++ buf.drop size) ∧ out.length = size ∧
      beValue out = n :=
  ⟨beBytes size n, uintSetPadded_eq hn hs hfit buf hb, by simp,
    by rw [beValue_beBytes, Nat.mod_eq_of_lt hfit]⟩

/-- C09: both writers agree when the value fits. -/
theorem uint_writers_agree (size n : Nat) (hn : n < 2 ^ 64) (hs : size < 2 ^ 64) (hfit : n < 256 ^ size)
    (buf : List UInt8) (hb : size ≤ buf.length) :
    uintSetPadded n buf size = uintSetLen size n buf := by
  rw [uintSetPadded_eq hn hs hfit buf hb, uintSetLen_eq, if_pos hb]

/-- C09, boundary: a value that does not fit makes the padded writer run off the buffer (the pad
count underflows), for every destination shorter than 2^63 bytes. -/
theorem uint_set_padded_too_large (size n : Nat) (hn : n < 2 ^ 64) (hbig : 256 ^ size ≤ n)
    (buf : List UInt8) (hl : buf.length < 2 ^ 63) : uintSetPadded n buf size = none := by
  have hne : n ≠ 0 := by
    intro h; subst h
    have : 0 < 256 ^ size := Nat.pow_pos (by omega)
    omega
  have h8 := byteLen_le8 hn
  have hpos := byteLen_pos hne
  have hlt : size < byteLen n := by
    by_cases h : size < byteLen n
    · exact h
    · have h1 := lt_pow_byteLen n
      have h2 : 256 ^ byteLen n ≤ 256 ^ size := Nat.pow_le_pow_right (by omega) (by omega)
      omega
  have hu : (assess (n >>> 8) 1).toNat = byteLen n := by
    rw [assess_eq, shr8, hpos]
    simp [UInt8.toNat_add]; omega
  simp only [uintSetPadded, beq_iff_eq, hne, if_false, hu]
  rw [zeroLoop_none _ 0 buf (by omega) (by omega)]

example : uintSetPadded 0x1234 [9, 9, 9, 9, 9] 4 = some [0, 0, 0x12, 0x34, 9] := by decide +kernel
example : uintSetPadded 0x1234 [9, 9, 9] 1 = none := by decide +kernel

/-! ## Token generator -/

/-- C10: the token for counter `c` is its shortest big-endian form. -/
theorem token_generate_value (junk : UInt8) (c : UInt32) (old : List UInt8) :
    tokenGenerate junk c old = some (beBytes (byteLen c.toNat) c.toNat, c + 1) := by
  have hc : c.toNat < 2 ^ 64 := by have := c.toNat_lt; omega
  have hr : (resize junk old (byteLen c.toNat)).length = byteLen c.toNat := by
    simp [resize]; omega
  simp only [tokenGenerate, assess_toNat hc, uintSet_eq hc, hr, Nat.le_refl, if_true]
  simp [hr]

theorem tokenRun_eq (junk : UInt8) (n : Nat) (c : UInt32) (old : List UInt8) :
    tokenRun junk n c old =
      some ((List.range n).map fun i =>
        beBytes (byteLen ((c.toNat + i) % 2 ^ 32)) ((c.toNat + i) % 2 ^ 32)) := by
  induction n generalizing c old with
  | zero => rfl
  | succ n ih =>
    simp only [tokenRun, token_generate_value, ih]
    have hc := c.toNat_lt
    rw [List.range_succ_eq_map, List.map_cons, List.map_map]
    congr 2
    · simp [Nat.mod_eq_of_lt hc]
    · apply List.map_congr_left
      intro i _
      have : ((c + 1).toNat + i) % 2 ^ 32 = (c.toNat + (i + 1)) % 2 ^ 32 := by
        rw [UInt32.toNat_add]; simp; omega
      simp only [Function.comp_apply, this, Nat.succ_eq_add_one]

/-- C10: up to 2^32 consecutive tokens are pairwise distinct and at most 4 bytes long, whatever the
starting counter and the previous content of the token object. -/
theorem tokens_distinct (junk : UInt8) (n : Nat) (hn : n ≤ 2 ^ 32) (c : UInt32) (old : List UInt8) :
    ∃ ts, tokenRun junk n c old = some ts ∧ ts.length = n ∧ ts.Nodup ∧ ∀ t ∈ ts, t.length ≤ 4 := by
  refine ⟨_, tokenRun_eq junk n c old, by simp, ?_, ?_⟩
  · rw [List.Nodup, List.pairwise_map]
    refine List.Pairwise.imp_of_mem ?_ (List.nodup_range (n := n))
    intro i j hi hj hne he
    have hi := List.mem_range.1 hi; have hj := List.mem_range.1 hj
    have := congrArg beValue he
    rw [beBytes_byteLen_value, beBytes_byteLen_value] at this
    omega
  · intro t ht
    obtain ⟨i, _, rfl⟩ := List.mem_map.1 ht
    rw [beBytes_length]
    exact byteLen_le (by have := Nat.mod_lt (c.toNat + i) (show 0 < 2 ^ 32 by omega); omega)

/-- The bound is sharp: after 2^32 calls the sequence repeats. -/
theorem tokens_repeat (junk : UInt8) (c : UInt32) (old : List UInt8) :
    ∃ ts, tokenRun junk (2 ^ 32 + 1) c old = some ts ∧ ¬ ts.Nodup := by
  refine ⟨_, tokenRun_eq junk _ c old, ?_⟩
  intro h
  have := List.pairwise_iff_getElem.1 h 0 (2 ^ 32) (by simp) (by simp) (by omega)
  simp at this

example : tokenRun 0 4 254 [1, 2, 3] = some [[254], [255], [1, 0], [1, 1]] := by decide +kernel
example : tokenRun 7 2 0xFFFFFFFF [] = some [[255, 255, 255, 255], []] := by decide +kernel

/-! ## Block option -/

theorem or_low (x : UInt8) (m : Bool) (s : Fin 8) : x.toNat % 16 = 0 →
    (x ||| (m.toUInt8 <<< 3)) ||| UInt8.ofNat s = UInt8.ofNat (x.toNat + 8 * m.toNat + s) :=
  forall_u8 (p := fun x => ∀ (m : Bool) (s : Fin 8), x.toNat % 16 = 0 →
    (x ||| (m.toUInt8 <<< 3)) ||| UInt8.ofNat s = UInt8.ofNat (x.toNat + 8 * m.toNat + s))
    (by decide +kernel) x m s

theorem orAt_mid (a c : List UInt8) (x b : UInt8) (i : Nat) (hi : i = a.length) :
    orAt (a ++ x :: c) i b = some (a ++ (x ||| b) :: c) := by
  subst hi; simp [orAt]

/-- C11 (partial: block number 0 is excluded, see `block_zero_undefined`): for a positive block number
below 2^28 the encoder writes exactly the RFC 7959 value in its shortest form. -/
theorem block_encode_partial (num : UInt32) (m : Bool) (szx : UInt8) (buf : List UInt8)
    (h0 : num ≠ 0) (hn : num.toNat < 2 ^ 28) (hs : szx.toNat < 8) (hb : 4 ≤ buf.length) :
    ∃ out, blockEncode buf num m szx = some (out ++ buf.drop out.length, UInt8.ofNat out.length) ∧
      0 < out.length ∧ out.length ≤ 4 ∧ (num.toNat < 2 ^ 20 → out.length ≤ 3) ∧
      beValue out = blockValue num.toNat m szx.toNat ∧ out.head? ≠ some 0 := by
  have hne : num.toNat ≠ 0 := by intro h; exact h0 (UInt32.toNat_inj.1 h)
  have hx : (num <<< 4).toNat = 16 * num.toNat := by
    rw [UInt32.toNat_shiftLeft, show (4 : UInt32).toNat % 32 = 4 by decide, Nat.shiftLeft_eq]; omega
  have hm : m.toNat ≤ 1 := by cases m <;> simp
  generalize hL : byteLen (16 * num.toNat) = L
  have hL4 : L ≤ 4 := by rw [← hL]; exact byteLen_le (by omega)
  have hpos := byteLen_pos (n := 16 * num.toNat) (by omega)
  obtain ⟨k, rfl⟩ : ∃ k, L = k + 1 := ⟨L - 1, by omega⟩
  have hlt : 16 * num.toNat < 256 ^ (k + 1) := by rw [← hL]; exact lt_pow_byteLen _
  obtain ⟨b0, rest, rfl⟩ : ∃ b0 rest, buf = b0 :: rest := by
    cases buf with
    | nil => simp at hb
    | cons b r => exact ⟨b, r, rfl⟩
  simp only [List.length_cons] at hb
  have hsum : beBytes (k + 1) (blockValue num.toNat m szx.toNat)
      = beBytes k (16 * num.toNat / 256) ++
        [UInt8.ofNat ((UInt8.ofNat (16 * num.toNat % 256)).toNat + 8 * m.toNat + szx.toNat)] := by
    have ho : (UInt8.ofNat (16 * num.toNat % 256)).toNat = 16 * num.toNat % 256 := by simp
    rw [beBytes, ho]
    congr 2
    · unfold blockValue; omega
    · congr 1; unfold blockValue; omega
  refine ⟨beBytes (k + 1) (blockValue num.toNat m szx.toNat), ?_, by simp, by simpa using hL4, ?_, ?_, ?_⟩
  · simp only [blockEncode, writeAt, List.length_cons, Nat.zero_lt_succ, if_true, List.set_cons_zero, hx]
    rw [uintSet_eq (by omega), hL, if_pos (by simp; omega)]
    have hz : (UInt8.ofNat (k + 1) == 0) = false := by
      rw [beq_eq_false_iff_ne, ne_eq, ← UInt8.toNat_inj]
      simp; omega
    have ht : (UInt8.ofNat (k + 1)).toNat - 1 = k := by simp; omega
    simp only [hz, ht, beBytes, List.append_assoc, List.singleton_append]
    simp only [Bool.false_eq_true, if_false]
    rw [orAt_mid _ _ _ _ _ (by simp)]
    simp only []
    rw [orAt_mid _ _ _ _ _ (by simp)]
    have hol := or_low (UInt8.ofNat (16 * num.toNat % 256)) m ⟨szx.toNat, hs⟩ (by simp)
    simp only [UInt8.ofNat_toNat] at hol
    simp only [hol]
    have hgt : UInt8.ofNat (k + 1) > 0 := by
      rw [gt_iff_lt, UInt8.lt_iff_toNat_lt]; simp; omega
    rw [if_pos hgt]
    have := hsum
    rw [beBytes] at this
    rw [← List.singleton_append (l := List.drop _ _), ← List.append_assoc, ← this]
    simp
  · intro h20
    have : byteLen (16 * num.toNat) ≤ 3 := byteLen_le (by omega)
    rw [beBytes_length]; omega
  · rw [beValue_beBytes]
    apply Nat.mod_eq_of_lt
    unfold blockValue
    rw [Nat.pow_succ] at hlt ⊢
    omega
  · intro hh
    have hp := pow_le_of_byteLen (n := 16 * num.toNat) (by omega)
    rw [hL] at hp
    have hv := beValue_beBytes (k + 1) (blockValue num.toNat m szx.toNat)
    have hl := beBytes_length (k + 1) (blockValue num.toNat m szx.toNat)
    cases hbb : beBytes (k + 1) (blockValue num.toNat m szx.toNat) with
    | nil => simp [hbb] at hl
    | cons b bs =>
      rw [hbb] at hh hv hl
      simp only [List.head?_cons, Option.some.injEq] at hh
      subst hh
      simp only [List.length_cons, Nat.add_right_cancel_iff] at hl
      have hbl := beValue_lt bs
      rw [hl] at hbl
      rw [Nat.mod_eq_of_lt (by unfold blockValue; rw [Nat.pow_succ] at hlt ⊢; omega)] at hv
      simp [beValue] at hv
      simp at hp
      unfold blockValue at hv
      omega

/-- The low byte determines flag and size; RFC 7959. -/
theorem szx_byte (b : UInt8) : blockSzx8 b = 2 ^ (b.toNat % 8 + 4) ∧
    ((b &&& 0x08) != 0) = decide (b.toNat / 8 % 2 = 1) :=
  forall_u8 (p := fun b => blockSzx8 b = 2 ^ (b.toNat % 8 + 4) ∧
    ((b &&& 0x08) != 0) = decide (b.toNat / 8 % 2 = 1)) (by decide +kernel) b

/-- C11: decoding any non-empty block value of at most 4 bytes gives number, flag and size of its
numeric value. -/
theorem block_decode (v : List UInt8) (hne : v ≠ []) (hl : v.length ≤ 4) (num szx : Nat) (m : Bool)
    (hs : szx < 8) (hv : beValue v = blockValue num m szx) :
    blockDecodeNum v = num ∧ blockDecodeM v = some m ∧ blockDecodeSzx v = some (2 ^ (szx + 4)) := by
  have hm : m.toNat ≤ 1 := by cases m <;> simp
  have hlt : beValue v < 2 ^ 32 := by
    have h1 := beValue_lt v
    have h2 : 256 ^ v.length ≤ 256 ^ 4 := Nat.pow_le_pow_right (by omega) hl
    omega
  have hn : blockDecodeNum v = num := by
    rw [blockDecodeNum, uintGet_eq 32 (by omega), Nat.mod_eq_of_lt hlt, Nat.shiftRight_eq_div_pow, hv]
    unfold blockValue; omega
  obtain ⟨init, last, rfl⟩ : ∃ i l, v = i ++ [l] := ⟨_, _, (List.dropLast_concat_getLast hne).symm⟩
  have hlast : beValue (init ++ [last]) = beValue init * 256 + last.toNat := by
    rw [beValue_append]; simp [beValue]
  have := u8_lt last
  have hb : last.toNat % 16 = 8 * m.toNat + szx := by
    rw [hlast] at hv; unfold blockValue at hv; omega
  have hsz := szx_byte last
  refine ⟨hn, ?_, ?_⟩
  · simp only [blockDecodeM, lastByte, List.getLast?_concat, Option.map_some, hsz.2]
    congr 1
    cases m <;> simp at hb ⊢ <;> omega
  · simp only [blockDecodeSzx, lastByte, List.getLast?_concat, Option.map_some, hsz.1]
    congr 2; omega

/-- C11 (partial: block number 0 excluded): encode then decode. -/
theorem block_roundtrip_partial (num : UInt32) (m : Bool) (szx : UInt8) (buf : List UInt8)
    (h0 : num ≠ 0) (hn : num.toNat < 2 ^ 28) (hs : szx.toNat < 8) (hb : 4 ≤ buf.length) :
    ∃ buf' k, blockEncode buf num m szx = some (buf', k) ∧
      blockDecodeNum (buf'.take k.toNat) = num.toNat ∧ blockDecodeM (buf'.take k.toNat) = some m ∧
      blockDecodeSzx (buf'.take k.toNat) = some (2 ^ (szx.toNat + 4)) := by
  obtain ⟨out, he, hp, h4, _, hv, _⟩ := block_encode_partial num m szx buf h0 hn hs hb
  refine ⟨_, _, he, ?_⟩
  have : (UInt8.ofNat out.length).toNat = out.length := by simp; omega
  rw [this, List.take_append_of_le_length (by simp), List.take_of_length_le (by simp)]
  exact block_decode out (by intro h; simp [h] at hp) h4 _ _ _ hs hv

example : blockEncode [9, 9, 9, 9] 0x12345 true 6 = some ([0x12, 0x34, 0x5E, 9], 3) ∧
    blockDecodeNum [0x12, 0x34, 0x5E] = 0x12345 := by decide +kernel

/-- C11 is false for the first block: with block number 0 the encoder writes before the buffer, for
every flag, size and buffer. -/
theorem block_zero_undefined (buf : List UInt8) (m : Bool) (szx : UInt8) :
    blockEncode buf 0 m szx = none := by
  have : (((0 : UInt32) <<< 4).toNat) = 0 := by decide
  simp only [blockEncode, this]
  cases h : writeAt buf 0 0 with
  | none => rfl
  | some b => simp [uintSet_eq, byteLen_zero]

theorem block_high_bits_lost (num : UInt32) (m : Bool) (szx : UInt8) (buf : List UInt8) :
    blockEncode buf num m szx = blockEncode buf (UInt32.ofNat (num.toNat % 2 ^ 28)) m szx := by
  have : num <<< 4 = UInt32.ofNat (num.toNat % 2 ^ 28) <<< 4 := by
    apply UInt32.toNat_inj.1
    have hlt := num.toNat_lt
    simp only [UInt32.toNat_shiftLeft, UInt32.toNat_ofNat', Nat.shiftLeft_eq]
    have : (4 : UInt32).toNat % 32 = 4 := by decide
    rw [this]
    omega
  simp only [blockEncode, this]

/-- C11, exactly: a block number comes back, with flag and size, just when it is not 0 and below 2^28. -/
theorem block_roundtrip_iff (num : UInt32) (m : Bool) (szx : UInt8) (buf : List UInt8) (hs : szx.toNat < 8) (hb : 4 ≤ buf.length) :
    (∃ buf' k, blockEncode buf num m szx = some (buf', k) ∧
      blockDecodeNum (buf'.take k.toNat) = num.toNat ∧ blockDecodeM (buf'.take k.toNat) = some m ∧
      blockDecodeSzx (buf'.take k.toNat) = some (2 ^ (szx.toNat + 4))) ↔ num ≠ 0 ∧ num.toNat < 2 ^ 28 := by
  constructor
  · rintro ⟨buf', k, h1, h2, -, -⟩
    have h0 : num ≠ 0 := by rintro rfl; rw [block_zero_undefined] at h1; cases h1
    refine ⟨h0, Classical.byContradiction fun hn => ?_⟩
    rw [block_high_bits_lost] at h1
    have hlow : (UInt32.ofNat (num.toNat % 2 ^ 28)).toNat = num.toNat % 2 ^ 28 := by
      rw [UInt32.toNat_ofNat']; omega
    by_cases hz : UInt32.ofNat (num.toNat % 2 ^ 28) = 0
    · rw [hz, block_zero_undefined] at h1; cases h1
    · obtain ⟨b2, k2, e1, e2, -, -⟩ := block_roundtrip_partial _ m szx buf hz (by rw [hlow]; omega) hs hb
      rw [e1] at h1
      obtain ⟨rfl, rfl⟩ := Prod.mk.injEq .. ▸ Option.some.inj h1
      rw [e2, hlow] at h2
      omega
  · rintro ⟨h0, hn⟩
    exact block_roundtrip_partial num m szx buf h0 hn hs hb

/-- C11 is also false for received empty block options, the RFC form of block 0 of 16 bytes: flag and
size decoding read before the value. -/
theorem block_decode_empty_undefined : blockDecodeM [] = none ∧ blockDecodeSzx [] = none := by decide

end Verif.Props
