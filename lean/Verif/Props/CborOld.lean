import Verif.Model.CborOld
import Verif.Props.CborDoc

/-! # The pointer-based CBOR reader (C49) -/
namespace Verif.Props
open Verif.Model Verif.Model.CborOld Verif.Spec Verif.Proofs Verif.Proofs.Cbor

/-- The reader is new, or has finished an item. -/
def OReady (d : ODec) : Prop := d.buf.length = 5 ∧ (d.st = .uninitialized ∨ d.st = .majorType ∨ d.st = .done)

theorem oready_fresh (junk : ODec) (h : junk.buf.length = 5) : OReady junk.fresh := ⟨h, Or.inl rfl⟩

theorem old_fields (m v : Nat) (hm : m < 8) (hv : v < 32) :
    UInt8.ofNat (m * 32 + v) &&& 0x1F = UInt8.ofNat v ∧ UInt8.ofNat (m * 32 + v) >>> 5 = UInt8.ofNat m := by
  obtain ⟨h1, h2⟩ := head_fields m v hm hv
  exact ⟨UInt8.toNat_inj.1 (by rw [h2]; simp; omega), UInt8.toNat_inj.1 (by rw [h1]; simp; omega)⟩

/-- The first byte. -/
theorem old_first (d : ODec) (hd : OReady d) (b : UInt8) :
    ODec.processByte 4 d b = .ok (some ⟨b :: d.buf.drop 1, 1, if ODec.hasInfo ⟨[b], 0, .done⟩ then .additionalInteger else .done⟩) := by
  obtain ⟨buf, pos, st⟩ := d
  obtain ⟨h1, h2⟩ := hd
  match buf, h1 with
  | [x0, x1, x2, x3, x4], _ =>
    rcases h2 with h | h | h <;> simp only at h <;> subst h <;>
      simp [ODec.processByte, ODec.iterate, writeAt, ODec.hasInfo, ODec.info]

/-- The reader on a head: it takes exactly the head, and its value is the argument except that an argument in
one further byte is taken for 24. -/
theorem old_head (head rest : List UInt8) (m a : Nat) (hh : CborHead head m a) (h5 : head.length ≤ 5) (d : ODec) (hd : OReady d) :
    ∃ d', d.process (head ++ rest) = .ok (some (d', rest)) ∧ OReady d' ∧ d'.type.toNat = m ∧
      ∀ w, 32 ≤ w → d'.value w = .ok (if head.length = 2 then 24 else a) := by
  have hlt := cborHead_lt hh h5
  have hb5 := hd.1
  cases hh with
  | @tiny m a hm ha =>
    obtain ⟨f1, f2⟩ := old_fields m a hm (by omega)
    have hlt24 : UInt8.ofNat a < 24 := by rw [UInt8.lt_iff_toNat_lt]; simp; omega
    have hni : ODec.hasInfo ⟨[UInt8.ofNat (m * 32 + a)], 0, .done⟩ = false := by
      simp only [ODec.hasInfo, ODec.info, List.headD_cons, f1]
      have : ∀ x : UInt8, x < 24 → (x == 24 || x == 25 || x == 26 || x == 27) = false :=
        fun x => forall_u8 (p := fun x => x < 24 → (x == 24 || x == 25 || x == 26 || x == 27) = false) (by decide +kernel) x
      exact this _ hlt24
    refine ⟨⟨UInt8.ofNat (m * 32 + a) :: d.buf.drop 1, 1, .done⟩, ?_, ⟨by simp [hb5], by simp⟩, ?_, fun w hw => ?_⟩
    · rw [List.cons_append, List.nil_append, ODec.process, old_first d hd, hni]; rfl
    · simp only [ODec.type, List.headD_cons, f2]; simp; omega
    · have : UInt8.ofNat a ≤ 24 := by rw [UInt8.le_iff_toNat_le]; simp; omega
      simp only [ODec.value, ODec.info, List.headD_cons, f1, if_pos this]
      simp; omega
  | @ext m i bs hm hi hl =>
    obtain ⟨f1, f2⟩ := old_fields m (24 + i) hm (by omega)
    rw [← Nat.add_assoc] at f1 f2
    simp only [List.length_cons] at h5
    have hi2 : i = 0 ∨ i = 1 ∨ i = 2 := by
      have : i ≠ 3 := by rintro rfl; rw [hl] at h5; simp at h5
      omega
    have hinf : ∀ l p st, ODec.info ⟨UInt8.ofNat (m * 32 + 24 + i) :: l, p, st⟩ = UInt8.ofNat (24 + i) := by
      intro l p st; simp only [ODec.info, List.headD_cons, f1]
    have hty : ∀ l p st, (ODec.type ⟨UInt8.ofNat (m * 32 + 24 + i) :: l, p, st⟩).toNat = m := by
      intro l p st; simp only [ODec.type, List.headD_cons, f2]; simp; omega
    have hfirst := old_first d hd (UInt8.ofNat (m * 32 + 24 + i))
    have hhas : ODec.hasInfo ⟨[UInt8.ofNat (m * 32 + 24 + i)], 0, .done⟩ = true := by
      simp only [ODec.hasInfo, hinf]
      rcases hi2 with rfl | rfl | rfl <;> decide
    rw [hhas] at hfirst
    generalize hx : UInt8.ofNat (m * 32 + 24 + i) = x at *
    obtain ⟨buf, p, st⟩ := d
    simp only at hb5
    match buf, hb5 with
    | [x0, x1, x2, x3, x4], _ =>
      rcases hi2 with rfl | rfl | rfl
      · match bs, hl with
        | [b1], _ =>
          refine ⟨⟨[x, b1, x2, x3, x4], 2, .done⟩, ?_, ⟨by simp, by simp⟩, hty _ _ _, fun w hw => ?_⟩
          · rw [List.cons_append, ODec.process, hfirst]
            simp [ODec.process, ODec.processByte, ODec.iterate, writeAt, hinf]
          · simp [ODec.value, hinf]
      · match bs, hl with
        | [b1, b2], _ =>
          refine ⟨⟨[x, b1, b2, x3, x4], 3, .done⟩, ?_, ⟨by simp, by simp⟩, hty _ _ _, fun w hw => ?_⟩
          · rw [List.cons_append, ODec.process, hfirst]
            simp [ODec.process, ODec.processByte, ODec.iterate, writeAt, hinf]
          · have hp : beValue [b1, b2] < 2 ^ w := Nat.lt_of_lt_of_le hlt (Nat.pow_le_pow_right (by omega) hw)
            simp [ODec.value, hinf, ODec.wordsize, uintGet_eq w (by omega), Nat.mod_eq_of_lt hp]
      · match bs, hl with
        | [b1, b2, b3, b4], _ =>
          refine ⟨⟨[x, b1, b2, b3, b4], 5, .done⟩, ?_, ⟨by simp, by simp⟩, hty _ _ _, fun w hw => ?_⟩
          · rw [List.cons_append, ODec.process, hfirst]
            simp [ODec.process, ODec.processByte, ODec.iterate, writeAt, hinf]
          · have hp : beValue [b1, b2, b3, b4] < 2 ^ w := Nat.lt_of_lt_of_le hlt (Nat.pow_le_pow_right (by omega) hw)
            simp [ODec.value, hinf, ODec.wordsize, uintGet_eq w (by omega), Nat.mod_eq_of_lt hp]

theorem otype_eq {d : ODec} {m : Nat} (h : d.type.toNat = m) (k : UInt8) : (d.type == k) = decide (m = k.toNat) := by
  subst h
  by_cases hc : d.type = k
  · simp [hc]
  · simp [hc, UInt8.toNat_inj]

theorem otype_ne {d : ODec} {m : Nat} (h : d.type.toNat = m) (k : UInt8) : (d.type != k) = !decide (m = k.toNat) := by
  rw [bne, otype_eq h]

/-- What `get_int` gives for the head of an integer with argument `a`. -/
theorem old_int_head (head rest : List UInt8) (m a : Nat) (hh : CborHead head m a) (hm : m ≤ 1) (h5 : head.length ≤ 5)
    (ha : a < 2 ^ 31) (d : ODec) (hd : OReady d) :
    ∃ d', getInt d (head ++ rest) = .ok (some (cborInt m (if head.length = 2 then 24 else a), .ok, d', rest)) ∧ OReady d' := by
  obtain ⟨d', g1, g2, g3, g4⟩ := old_head head rest m a hh h5 d hd
  refine ⟨d', ?_, g2⟩
  have hs : (if head.length = 2 then 24 else a) < 2 ^ 31 := by split <;> omega
  have hm' : m = 0 ∨ m = 1 := by omega
  rcases hm' with rfl | rfl <;>
    simp only [getInt, g1, otype_eq g3, g4 32 (by omega), Cbor.CDec.toSigned, if_pos (show _ < 2 ^ (32 - 1) from hs), cborInt] <;> simp

/-- C49 (integers; partial: heads of at most five bytes that are not of two bytes): `get_int` returns the
number and moves the pointer to what follows; the reader can go on. -/
theorem old_int_partial (head rest : List UInt8) (v : Int) (hv : CborItem head [] (.int v)) (h5 : head.length ≤ 5) (h2 : head.length ≠ 2)
    (hlo : -(2 : Int) ^ 31 ≤ v) (hhi : v < 2 ^ 31) (d : ODec) (hd : OReady d) :
    ∃ d', getInt d (head ++ rest) = .ok (some (v, .ok, d', rest)) ∧ OReady d' := by
  generalize hx : CborAtom.int v = x at hv
  cases hv with
  | @int b m a hh hm =>
    simp only [CborAtom.int.injEq] at hx
    have ha : a < 2 ^ 31 := by
      subst hx
      have : m = 0 ∨ m = 1 := by omega
      rcases this with rfl | rfl <;> simp [cborInt] at hlo hhi <;> omega
    have := old_int_head head rest m a hh hm h5 ha d hd
    rwa [if_neg h2, ← hx] at this
  | _ => simp at hx

/-- C49 fails for every number in a head of two bytes (RFC 7049: 24 to 255 and -25 to -256): `get_int`
reports success and 24 or -25. -/
theorem old_int_two_bytes_wrong (head rest : List UInt8) (v : Int) (hv : CborItem head [] (.int v)) (h2 : head.length = 2)
    (d : ODec) (hd : OReady d) :
    ∃ d', getInt d (head ++ rest) = .ok (some (if 0 ≤ v then 24 else -25, .ok, d', rest)) ∧ OReady d' := by
  generalize hx : CborAtom.int v = x at hv
  cases hv with
  | @int b m a hh hm =>
    simp only [CborAtom.int.injEq] at hx
    have ha : a < 2 ^ 31 := by
      cases hh with
      | tiny _ ha => omega
      | @ext m i bs hm hi hl =>
        have := beValue_lt bs
        have hl1 : bs.length = 1 := by simpa using h2
        rw [hl1] at this; omega
    obtain ⟨d', g1, g2⟩ := old_int_head head rest m a hh hm (by omega) ha d hd
    refine ⟨d', ?_, g2⟩
    rw [g1, if_pos h2, hx]
    have : m = 0 ∨ m = 1 := by omega
    rcases this with rfl | rfl
    · rw [if_pos (by simp [cborInt])]; rfl
    · rw [if_neg (by simp [cborInt]; omega)]; rfl
  | _ => simp at hx

/-- What the encoder writes for 25 to 255. -/
theorem major_two_bytes (t : UInt8) (ht : t.toNat < 8) (n : Nat) (h : 25 ≤ n ∧ n ≤ 255) (x y : UInt8) (rest : List UInt8) :
    Cbor.majorTypeAndInteger (x :: y :: rest) t n = some (UInt8.ofNat (t.toNat * 32 + 24) :: UInt8.ofNat n :: rest, 2) := by
  have hb : byteLen n = 1 := by rw [byteLen_pos (by omega), Nat.div_eq_of_lt (by omega), byteLen_zero]
  have ha : assess n = 1 := UInt8.toNat_inj.1 (by rw [assess_toNat (by omega), hb]; rfl)
  have hp : Cbor.padSize 1 = 1 := by decide
  have hi : Cbor.infoFromWordsize 1 = UInt8.ofNat 24 := by decide
  rw [Cbor.majorTypeAndInteger, if_neg (by omega)]
  simp only [ha, hp, hi, head_byte t ht 24 (by omega), writeAt_zero]
  simp [uintSetLen_eq, beBytes, Nat.mod_eq_of_lt (show n < 256 by omega)]

/-- So no number from 25 to 255 or from -256 to -26 that the library itself writes is read back. -/
theorem old_int_round_trip_fails (v : Int) (hv : 25 ≤ v ∧ v ≤ 255 ∨ -256 ≤ v ∧ v ≤ -26) (x y : UInt8) (rest : List UInt8) (d : ODec)
    (hd : OReady d) :
    ∃ b1 b2 d' r, Cbor.integerNet 32 (x :: y :: rest) v = some (b1 :: b2 :: rest, 2) ∧
      getInt d (b1 :: b2 :: rest) = .ok (some (r, .ok, d', rest)) ∧ r ≠ v := by
  by_cases h0 : 0 ≤ v
  · have hh : CborItem [UInt8.ofNat (0 * 32 + 24), UInt8.ofNat v.toNat] [] (.int v) := by
      have := CborItem.int (CborHead.ext (m := 0) (i := 0) (bs := [UInt8.ofNat v.toNat]) (by omega) (by omega) (by simp)) (by omega)
      rwa [show cborInt 0 (beValue [UInt8.ofNat v.toNat]) = v by simp [cborInt, beValue]; omega] at this
    obtain ⟨d', g1, -⟩ := old_int_two_bytes_wrong _ rest v hh rfl d hd
    refine ⟨_, _, d', _, ?_, g1, ?_⟩
    · rw [Cbor.integerNet, if_pos h0, major_two_bytes 0 (by decide) _ (by omega)]; rfl
    · rw [if_pos h0]; omega
  · have hh : CborItem [UInt8.ofNat (1 * 32 + 24), UInt8.ofNat (-v - 1).toNat] [] (.int v) := by
      have := CborItem.int (CborHead.ext (m := 1) (i := 0) (bs := [UInt8.ofNat (-v - 1).toNat]) (by omega) (by omega) (by simp)) (by omega)
      rwa [show cborInt 1 (beValue [UInt8.ofNat (-v - 1).toNat]) = v by simp [cborInt, beValue]; omega] at this
    obtain ⟨d', g1, -⟩ := old_int_two_bytes_wrong _ rest v hh rfl d hd
    refine ⟨_, _, d', _, ?_, g1, ?_⟩
    · rw [Cbor.integerNet, if_neg h0, if_neg (by simp; omega), major_two_bytes 1 (by decide) _ (by omega)]; rfl
    · rw [if_neg h0]; omega

example : getInt (ODec.fresh ⟨[9, 9, 9, 9, 9], 7, .pop⟩) [0x19, 1, 0xF4, 0x61] = .ok (some (500, .ok, ⟨[0x19, 1, 0xF4, 9, 9], 3, .done⟩, [0x61])) := rfl
example : (getInt (ODec.fresh ⟨[9, 9, 9, 9, 9], 7, .pop⟩) [0x18, 200]).toOption = some (some (24, .ok, ⟨[0x18, 200, 9, 9, 9], 2, .done⟩, [])) := by
  decide +kernel

/-- C49 (strings; partial: heads of at most five bytes that are not of two bytes): a string that is not longer
than the given length is returned whole and the pointer moves behind it; of a longer one the beginning is
returned, the result says so, and the pointer stays inside it. -/
theorem old_string_partial (head s rest : List UInt8) (hh : CborItem head s (.text s)) (h5 : head.length ≤ 5) (h2 : head.length ≠ 2)
    (maxlen : Nat) (d : ODec) (hd : OReady d) :
    ∃ d', OReady d' ∧ getString d (head ++ s ++ rest) maxlen =
      if s.length ≤ maxlen then .ok (some (some s, .ok, d', rest))
      else .ok (some (some (s.take maxlen), .cut, d', s.drop maxlen ++ rest)) := by
  cases hh with
  | text hh =>
    obtain ⟨d', g1, g2, g3, g4⟩ := old_head head (s ++ rest) 3 s.length hh h5 d hd
    refine ⟨d', g2, ?_⟩
    simp only [getString, List.append_assoc, g1, otype_ne g3, g4 64 (by omega), if_neg h2]
    by_cases hl : s.length ≤ maxlen
    · simp [hl, Nat.not_lt.2 hl]
    · have hlt : maxlen < s.length := by omega
      simp [hl, hlt, List.take_append, List.drop_append, show maxlen - s.length = 0 by omega]
      omega

/-- C49 fails for every string of more than 24 characters whose length is in a second byte (RFC 7049: up to
255): `get_string` reports success with its first 24 characters, and the pointer stays inside the string. -/
theorem old_string_two_bytes_wrong (head s rest : List UInt8) (hh : CborItem head s (.text s)) (h2 : head.length = 2) (h24 : 24 < s.length)
    (maxlen : Nat) (hm : 24 ≤ maxlen) (d : ODec) (hd : OReady d) :
    ∃ d', OReady d' ∧ getString d (head ++ s ++ rest) maxlen = .ok (some (some (s.take 24), .ok, d', s.drop 24 ++ rest)) ∧
      s.take 24 ≠ s := by
  cases hh with
  | text hh =>
    obtain ⟨d', g1, g2, g3, g4⟩ := old_head head (s ++ rest) 3 s.length hh (by omega) d hd
    refine ⟨d', g2, ?_, fun h => ?_⟩
    · simp only [getString, List.append_assoc, g1, otype_ne g3, g4 64 (by omega), if_pos h2]
      simp [Nat.not_lt.2 hm, List.take_append, List.drop_append, show 24 - s.length = 0 by omega]
      omega
    · have := congrArg List.length h
      simp at this; omega

/-- The string is there: 30 characters. -/
example : ∃ head s, CborItem head s (.text s) ∧ head.length = 2 ∧ 24 < s.length :=
  ⟨[0x78, 30], List.replicate 30 97, .text (CborHead.ext (m := 3) (i := 0) (bs := [30]) (by omega) (by omega) (by simp)), rfl, by simp⟩
example : getString (ODec.fresh ⟨[9, 9, 9, 9, 9], 7, .pop⟩) [0x63, 97, 98, 99, 5] 2 =
    .ok (some (some [97, 98], .cut, ⟨[0x63, 9, 9, 9, 9], 1, .done⟩, [99, 5])) := rfl

/-- C49, exactly (heads of at most five bytes that are not of two bytes): the reader reads behind the given bytes just when
the string is announced, up to the given length, as longer than what is there. -/
theorem old_string_past_end_iff (head tail : List UInt8) (n : Nat) (hh : CborHead head 3 n) (h5 : head.length ≤ 5)
    (h2 : head.length ≠ 2) (maxlen : Nat) (d : ODec) (hd : OReady d) :
    getString d (head ++ tail) maxlen = .error .read ↔ tail.length < min n maxlen := by
  obtain ⟨d', g1, g2, g3, g4⟩ := old_head head tail 3 n hh h5 d hd
  simp only [getString, g1, otype_ne g3, g4 64 (by omega), if_neg h2]
  by_cases hm : n > maxlen
  · by_cases hl : maxlen ≤ tail.length
    · simp [hm, hl]; omega
    · simp [hm, hl]; omega
  · by_cases hl : n ≤ tail.length
    · simp [hm, hl]; omega
    · simp [hm, hl]; omega

/-- A length in a second byte: the reader reads behind the given bytes just when fewer than 24 are there. -/
theorem old_string_two_bytes_past_end_iff (head tail : List UInt8) (n : Nat) (hh : CborHead head 3 n) (h2 : head.length = 2)
    (maxlen : Nat) (d : ODec) (hd : OReady d) :
    getString d (head ++ tail) maxlen = .error .read ↔ tail.length < min 24 maxlen := by
  obtain ⟨d', g1, g2, g3, g4⟩ := old_head head tail 3 n hh (by omega) d hd
  simp only [getString, g1, otype_ne g3, g4 64 (by omega), if_pos h2]
  by_cases hm : 24 > maxlen
  · by_cases hl : maxlen ≤ tail.length
    · simp [hm, hl]; omega
    · simp [hm, hl]; omega
  · by_cases hl : 24 ≤ tail.length
    · simp [hm, hl]; omega
    · simp [hm, hl]; omega

-- four characters announced, two there
example : CborHead [0x64] 3 4 ∧ getString (ODec.fresh ⟨[9, 9, 9, 9, 9], 7, .pop⟩) [0x64, 97, 98] 10 = .error .read :=
  ⟨CborHead.tiny (m := 3) (a := 4) (by omega) (by omega), rfl⟩

/-- C49 (maps; partial as above): the number of entries is returned, but the result variable keeps whatever it
held. -/
theorem old_map_partial (head rest : List UInt8) (n : Nat) (hh : CborHead head 5 n) (h5 : head.length ≤ 5) (h2 : head.length ≠ 2)
    (d : ODec) (hd : OReady d) :
    ∃ d', OReady d' ∧ getMap d (head ++ rest) = .ok (some (n, none, d', rest)) := by
  obtain ⟨d', g1, g2, g3, g4⟩ := old_head head rest 5 n hh h5 d hd
  exact ⟨d', g2, by simp [getMap, g1, otype_ne g3, g4 32 (by omega), h2]⟩

example : getMap (ODec.fresh ⟨[9, 9, 9, 9, 9], 7, .pop⟩) [0xA2, 1] = .ok (some (2, none, ⟨[0xA2, 9, 9, 9, 9], 1, .done⟩, [1])) := rfl

/-- C49: asking for another type than the item has is reported, whatever the item; the pointer has moved
behind the head all the same. -/
theorem old_wrong_type (head rest : List UInt8) (m a : Nat) (hh : CborHead head m a) (h5 : head.length ≤ 5) (maxlen : Nat)
    (d : ODec) (hd : OReady d) :
    ∃ d', OReady d' ∧
      (2 ≤ m → getInt d (head ++ rest) = .ok (some (0, .invalidType, d', rest))) ∧
      (m ≠ 5 → getMap d (head ++ rest) = .ok (some (0, some .invalidType, d', rest))) ∧
      (m ≠ 3 → getString d (head ++ rest) maxlen = .ok (some (none, .invalidType, d', rest))) := by
  obtain ⟨d', g1, g2, g3, g4⟩ := old_head head rest m a hh h5 d hd
  refine ⟨d', g2, fun h => ?_, fun h => ?_, fun h => ?_⟩
  · simp [getInt, g1, otype_eq g3, show m ≠ 0 by omega, show m ≠ 1 by omega]
  · simp [getMap, g1, otype_ne g3, h]
  · simp [getString, g1, otype_ne g3, h]

/-- C49 fails: an argument of eight bytes, if five of them are there, makes the reader write outside its own
array, whichever of the three calls is used. -/
theorem old_long_argument_overflow (b b1 b2 b3 b4 b5 : UInt8) (rest : List UInt8) (hb : b.toNat % 32 = 27) (maxlen : Nat) (d : ODec)
    (hd : OReady d) :
    getInt d (b :: b1 :: b2 :: b3 :: b4 :: b5 :: rest) = .error .write ∧ getMap d (b :: b1 :: b2 :: b3 :: b4 :: b5 :: rest) = .error .write ∧
    getString d (b :: b1 :: b2 :: b3 :: b4 :: b5 :: rest) maxlen = .error .write := by
  have hinf0 : b &&& 0x1F = 27 := forall_u8 (p := fun x => x.toNat % 32 = 27 → x &&& 0x1F = 27) (by decide +kernel) b hb
  have hinf : ∀ l p st, ODec.info ⟨b :: l, p, st⟩ = 27 := by intro l p st; simp only [ODec.info, List.headD_cons, hinf0]
  have hfirst := old_first d hd b
  have hb5 := hd.1
  have hp : d.process (b :: b1 :: b2 :: b3 :: b4 :: b5 :: rest) = .error .write := by
    rw [ODec.process, hfirst]
    obtain ⟨buf, p, st⟩ := d
    simp only at hb5
    match buf, hb5 with
    | [x0, x1, x2, x3, x4], _ =>
      simp [ODec.hasInfo, hinf, ODec.process, ODec.processByte, ODec.iterate, writeAt]
  simp [getInt, getMap, getString, hp]

/-- C49 fails: for an item with a reserved or indefinite length (28 to 31) the reader reads outside its own
array. -/
theorem old_indefinite_overread (b : UInt8) (rest : List UInt8) (hb : 28 ≤ b.toNat % 32) (maxlen : Nat) (d : ODec) (hd : OReady d) :
    (b.toNat / 32 ≤ 1 → getInt d (b :: rest) = .error .read) ∧ (b.toNat / 32 = 5 → getMap d (b :: rest) = .error .read) ∧
    (b.toNat / 32 = 3 → getString d (b :: rest) maxlen = .error .read) := by
  have h1 : 28 ≤ b &&& 0x1F := forall_u8 (p := fun x => 28 ≤ x.toNat % 32 → 28 ≤ x &&& 0x1F) (by decide +kernel) b hb
  have hty : (b >>> 5).toNat = b.toNat / 32 := forall_u8 (p := fun x => (x >>> 5).toNat = x.toNat / 32) (by decide +kernel) b
  have hfirst := old_first d hd b
  have hx : ∀ x : UInt8, 28 ≤ x → (x == 24 || x == 25 || x == 26 || x == 27) = false ∧ ¬x ≤ 24 ∧
      (if x == 24 then 1 else if x == 25 then 2 else if x == 26 then 4 else if x == 27 then 8 else 255) = 255 :=
    fun x => forall_u8 (p := fun x => 28 ≤ x → (x == 24 || x == 25 || x == 26 || x == 27) = false ∧ ¬x ≤ 24 ∧
      (if x == 24 then 1 else if x == 25 then 2 else if x == 26 then 4 else if x == 27 then 8 else 255) = 255) (by decide +kernel) x
  obtain ⟨e1, e2, e3⟩ := hx _ h1
  have hp : d.process (b :: rest) = .ok (some (⟨b :: d.buf.drop 1, 1, .done⟩, rest)) := by
    rw [ODec.process, hfirst]
    simp only [ODec.hasInfo, ODec.info, List.headD_cons, e1]; rfl
  have hv : ∀ w, ODec.value w ⟨b :: d.buf.drop 1, 1, .done⟩ = .error .read := by
    intro w
    have hw : ODec.wordsize ⟨b :: d.buf.drop 1, 1, .done⟩ = 255 := e3
    have h2 : ¬ODec.info ⟨b :: d.buf.drop 1, 1, .done⟩ ≤ 24 := e2
    rw [ODec.value, if_neg h2, hw, if_neg (by simp [hd.1])]
  have ht : ∀ k, b.toNat / 32 = k → (ODec.type ⟨b :: d.buf.drop 1, 1, .done⟩).toNat = k := by
    intro k hk; simp only [ODec.type, List.headD_cons, hty, hk]
  refine ⟨fun h => ?_, fun h => ?_, fun h => ?_⟩
  · have : b.toNat / 32 = 0 ∨ b.toNat / 32 = 1 := by omega
    rcases this with h | h <;> simp only [getInt, hp, otype_eq (ht _ h), hv] <;> rfl
  · simp only [getMap, hp, otype_ne (ht _ h), hv]; rfl
  · simp only [getString, hp, otype_ne (ht _ h), hv]; rfl

/-- C49 fails: when the bytes end inside a head, the reader goes on reading behind them; the length that was
given plays no part. -/
theorem old_reads_past_end (head tail : List UInt8) (m a : Nat) (hh : CborHead (head ++ tail) m a) (ht : tail ≠ []) (maxlen : Nat) (d : ODec)
    (hd : OReady d) (h5 : (head ++ tail).length ≤ 5) :
    getInt d head = .error .read ∧ getMap d head = .error .read ∧ getString d head maxlen = .error .read := by
  have hp : d.process head = .error .read := by
    by_cases hne : head = []
    · subst hne; rfl
    · obtain ⟨b, bs, rfl⟩ := List.exists_cons_of_ne_nil hne
      generalize hw : b :: bs ++ tail = w at hh
      cases hh with
      | @tiny m a hm ha => simp at hw; exact absurd hw.2.2 ht
      | @ext m i ws hm hi hl =>
        simp only [List.cons_append, List.cons.injEq] at hw
        obtain ⟨f1, f2⟩ := old_fields m (24 + i) hm (by omega)
        rw [← Nat.add_assoc, ← hw.1] at f1
        have htl := List.length_pos_iff.2 ht
        have hlen : bs.length + tail.length = 2 ^ i := by rw [← hl, ← hw.2]; simp
        simp only [List.cons_append, List.length_cons, List.length_append] at h5
        have hi2 : i = 0 ∨ i = 1 ∨ i = 2 := by
          have : i ≠ 3 := by rintro rfl; simp at hlen; omega
          omega
        have hinf : ∀ l p st, ODec.info ⟨b :: l, p, st⟩ = UInt8.ofNat (24 + i) := by
          intro l p st; simp only [ODec.info, List.headD_cons, f1]
        have hhas : ODec.hasInfo ⟨[b], 0, .done⟩ = true := by
          simp only [ODec.hasInfo, hinf]
          rcases hi2 with rfl | rfl | rfl <;> decide
        have hfirst := old_first d hd b
        rw [hhas] at hfirst
        have hb5 := hd.1
        rw [ODec.process, hfirst]
        obtain ⟨buf, p, st⟩ := d
        simp only at hb5
        match buf, hb5 with
        | [x0, x1, x2, x3, x4], _ =>
          rcases hi2 with rfl | rfl | rfl
          · have : bs = [] := List.length_eq_zero_iff.1 (by simp at hlen; omega)
            subst this; simp [ODec.process]
          · have hb : bs.length ≤ 1 := by simp at hlen; omega
            match bs, hb with
            | [], _ => simp [ODec.process]
            | [c1], _ => simp [ODec.process, ODec.processByte, ODec.iterate, writeAt, hinf]
          · have hb : bs.length ≤ 3 := by simp at hlen; omega
            match bs, hb with
            | [], _ => simp [ODec.process]
            | [c1], _ => simp [ODec.process, ODec.processByte, ODec.iterate, writeAt, hinf]
            | [c1, c2], _ => simp [ODec.process, ODec.processByte, ODec.iterate, writeAt, hinf]
            | [c1, c2, c3], _ => simp [ODec.process, ODec.processByte, ODec.iterate, writeAt, hinf]
  simp [getInt, getMap, getString, hp]

/-- The bytes end after the first byte of a 500. -/
example : CborHead ([0x19, 1] ++ [0xF4]) 0 500 := CborHead.ext (m := 0) (i := 1) (bs := [1, 0xF4]) (by omega) (by omega) (by simp)

theorem observeByte_silent (fuel : Nat) (d : ODec) (v : UInt8) (r : ODec × List ODec) (h : observeByte fuel d v = .ok (some r)) :
    r.2 = [] := by
  induction fuel generalizing d r with
  | zero => simp [observeByte] at h
  | succ n ih =>
    rw [observeByte] at h
    cases hi : d.iterate v with
    | error e => simp [hi] at h
    | ok p =>
      obtain ⟨d', fin⟩ := p
      cases fin with
      | true => simp [hi] at h; rw [← h]
      | false =>
        have hnd : d'.st ≠ .done := by
          intro hc
          obtain ⟨buf, pos, st⟩ := d
          cases st <;> simp only [ODec.iterate] at hi
          case uninitialized => split at hi <;> simp at hi; rw [← hi] at hc; simp at hc
          case majorType => split at hi <;> simp at hi; rw [← hi] at hc; simp at hc
          case majorTypeDone => simp at hi
          case additionalInteger =>
            split at hi
            · simp at hi
            · have both : ∀ (fin : Bool) (x y : ODec), (if fin = true then Except.ok (x, false) else .ok (y, true)) = Except.ok (ε := OFault) (d', false) →
                  x = d' := by intro fin x y h; cases fin <;> simp at h; exact h
              rw [← both _ _ _ hi] at hc; simp at hc
          case additionalIntegerDone => simp at hi
          case done => simp at hi; rw [← hi] at hc; simp at hc
          case pop => simp at hi; rw [← hi] at hc; simp at hc
        simp only [hi] at h
        cases ho : observeByte n d' v with
        | error e => simp [ho] at h
        | ok q =>
          cases q with
          | none => simp [ho] at h
          | some q =>
            have := ih d' q ho
            simp only [ho, Except.ok.injEq, Option.some.injEq] at h
            rw [← h]
            simp [hnd, this]

/-- C49 fails: whatever the bytes are, the observer of `DecodeToObserver` is never called. -/
theorem old_observer_never_called (d : ODec) (bytes : List UInt8) (r : ODec × List ODec) (h : observe d bytes = .ok (some r)) :
    r.2 = [] := by
  induction bytes generalizing d r with
  | nil => simp [observe] at h; rw [← h]
  | cons v rest ih =>
    rw [observe] at h
    cases ho : observeByte 4 d v with
    | error e => simp [ho] at h
    | ok q =>
      cases q with
      | none => simp [ho] at h
      | some q =>
        simp only [ho] at h
        cases hr : observe q.1 rest with
        | error e => simp [hr] at h
        | ok t =>
          cases t with
          | none => simp [hr] at h
          | some t =>
            simp only [hr, Except.ok.injEq, Option.some.injEq] at h
            rw [← h]
            simp [observeByte_silent 4 d v q ho, ih q.1 t hr]

/-- Between two bytes, if no head asked for eight bytes. -/
def OGood (d : ODec) : Prop :=
  OReady d ∨ d.buf.length = 5 ∧ d.st = .additionalInteger ∧
    (d.info = 24 ∧ d.pos = 1 ∨ d.info = 25 ∧ (d.pos = 1 ∨ d.pos = 2) ∨
      d.info = 26 ∧ (d.pos = 1 ∨ d.pos = 2 ∨ d.pos = 3 ∨ d.pos = 4))

theorem observeByte_good (d : ODec) (hd : OGood d) (v : UInt8) (hv : v.toNat % 32 ≠ 27) :
    ∃ r, observeByte 4 d v = .ok (some r) ∧ OGood r.1 := by
  obtain ⟨buf, pos, st⟩ := d
  have hx := forall_u8 (p := fun x => x.toNat % 32 ≠ 27 → (x &&& 0x1F) = 24 ∨ (x &&& 0x1F) = 25 ∨ (x &&& 0x1F) = 26 ∨
    ((x &&& 0x1F) == 24 || (x &&& 0x1F) == 25 || (x &&& 0x1F) == 26 || (x &&& 0x1F) == 27) = false) (by decide +kernel) v hv
  rcases hd with ⟨h1, h2⟩ | ⟨h1, h2, h3⟩
  · match buf, h1 with
    | [x0, x1, x2, x3, x4], _ =>
      rcases hx with h | h | h | h
      iterate 3
        refine ⟨(⟨[v, x1, x2, x3, x4], 1, .additionalInteger⟩, []), ?_, Or.inr ⟨rfl, rfl, by simp [ODec.info, h]⟩⟩
        rcases h2 with h2 | h2 | h2 <;> simp only at h2 <;> subst h2 <;>
          simp [observeByte, ODec.iterate, writeAt, ODec.hasInfo, ODec.info, h]
      · refine ⟨(⟨[v, x1, x2, x3, x4], 1, .done⟩, []), ?_, Or.inl ⟨rfl, by simp⟩⟩
        rcases h2 with h2 | h2 | h2 <;> simp only at h2 <;> subst h2 <;>
          simp only [observeByte, ODec.iterate, writeAt, ODec.hasInfo, ODec.info] <;> simp [h]
  · simp only at h1 h2 h3
    subst h2
    match buf, h1 with
    | [x0, x1, x2, x3, x4], _ =>
      simp only [ODec.info, List.headD_cons] at h3
      rcases h3 with ⟨hi, hp⟩ | ⟨hi, hp | hp⟩ | ⟨hi, hp | hp | hp | hp⟩ <;> subst hp
      · exact ⟨(⟨[x0, v, x2, x3, x4], 2, .done⟩, []), by simp [observeByte, ODec.iterate, writeAt, ODec.info, hi], Or.inl ⟨rfl, by simp⟩⟩
      · exact ⟨(⟨[x0, v, x2, x3, x4], 2, .additionalInteger⟩, []), by simp [observeByte, ODec.iterate, writeAt, ODec.info, hi],
          Or.inr ⟨rfl, rfl, by simp [ODec.info, hi]⟩⟩
      · exact ⟨(⟨[x0, x1, v, x3, x4], 3, .done⟩, []), by simp [observeByte, ODec.iterate, writeAt, ODec.info, hi], Or.inl ⟨rfl, by simp⟩⟩
      · exact ⟨(⟨[x0, v, x2, x3, x4], 2, .additionalInteger⟩, []), by simp [observeByte, ODec.iterate, writeAt, ODec.info, hi],
          Or.inr ⟨rfl, rfl, by simp [ODec.info, hi]⟩⟩
      · exact ⟨(⟨[x0, x1, v, x3, x4], 3, .additionalInteger⟩, []), by simp [observeByte, ODec.iterate, writeAt, ODec.info, hi],
          Or.inr ⟨rfl, rfl, by simp [ODec.info, hi]⟩⟩
      · exact ⟨(⟨[x0, x1, x2, v, x4], 4, .additionalInteger⟩, []), by simp [observeByte, ODec.iterate, writeAt, ODec.info, hi],
          Or.inr ⟨rfl, rfl, by simp [ODec.info, hi]⟩⟩
      · exact ⟨(⟨[x0, x1, x2, x3, v], 5, .done⟩, []), by simp [observeByte, ODec.iterate, writeAt, ODec.info, hi], Or.inl ⟨rfl, by simp⟩⟩

/-- C49: over any bytes of which none has its low five bits at 27, `DecodeToObserver` comes to its end inside
its array, and makes no call. -/
theorem old_observer_silent (d : ODec) (hd : OGood d) (bytes : List UInt8) (hb : ∀ b ∈ bytes, b.toNat % 32 ≠ 27) :
    ∃ d', observe d bytes = .ok (some (d', [])) ∧ OGood d' := by
  induction bytes generalizing d with
  | nil => exact ⟨d, rfl, hd⟩
  | cons v rest ih =>
    obtain ⟨⟨d1, c⟩, h1, h2⟩ := observeByte_good d hd v (hb v (by simp))
    obtain ⟨d2, h3, h4⟩ := ih d1 h2 fun b h => hb b (by simp [h])
    have hc : c = [] := observeByte_silent 4 d v _ h1
    subst hc
    exact ⟨d2, by simp [observe, h1, h3], h4⟩

/-- Two integers and a boolean, without any call. -/
example : observe (ODec.fresh ⟨[9, 9, 9, 9, 9], 7, .pop⟩) [5, 0x19, 1, 0xF4, 0xF5] = .ok (some (⟨[0xF5, 1, 0xF4, 9, 9], 1, .done⟩, [])) := rfl

end Verif.Props
