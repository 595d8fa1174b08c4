import Verif.Proofs.Cbor

/-! # CBOR (C40, C41) -/
namespace Verif.Props
open Verif.Model Verif.Model.Cbor Verif.Spec Verif.Proofs Verif.Proofs.Cbor

/-- The argument of a head is at most what its bytes can hold. -/
theorem cborHead_lt {b : List UInt8} {m a : Nat} (h : CborHead b m a) (h5 : b.length ≤ 5) : a < 2 ^ 32 := by
  cases h with
  | tiny _ ha => omega
  | @ext m i bs hm hi hl =>
    have := beValue_lt bs
    have h4 : bs.length ≤ 4 := by simp at h5; omega
    have : 256 ^ bs.length ≤ 256 ^ 4 := Nat.pow_le_pow_right (by omega) h4
    omega

/-- C40 (first half, partial: 24, -25 and the smallest integer are excluded): the bytes written for an
integer are exactly a valid item head that denotes this integer.  The encoder does not look at the room:
with too little of it, it writes outside the buffer (`none`). -/
theorem cbor_integer_written_partial (v : Int) (hlo : -(2 : Int) ^ 31 < v) (hhi : v < 2 ^ 31) (h24 : v ≠ 24) (h25 : v ≠ -25) :
    ∃ b m a, CborHead b m a ∧ (m = 0 ∨ m = 1) ∧ cborInt m a = v ∧ b.length ≤ 5 ∧
      ∀ buf, integerNet 32 buf v = if b.length ≤ buf.length then some (b ++ buf.drop b.length, b.length) else none := by
  by_cases hv : 0 ≤ v
  · obtain ⟨b, h1, h2, h3, h4⟩ := major_eq 0 (by decide) v.toNat (by omega) (by omega)
    refine ⟨b, 0, v.toNat, h1, Or.inl rfl, by simp [cborInt]; omega, h3 (by omega), fun buf => ?_⟩
    rw [integerNet, if_pos hv, h4]
  · obtain ⟨b, h1, h2, h3, h4⟩ := major_eq 1 (by decide) (-v - 1).toNat (by omega) (by omega)
    refine ⟨b, 1, (-v - 1).toNat, h1, Or.inr rfl, by simp [cborInt]; omega, h3 (by omega), fun buf => ?_⟩
    rw [integerNet, if_neg hv, if_neg (by simp; omega), h4]

example : integerNet 32 (List.replicate 9 0) 70000 = some ([0x1A, 0, 1, 0x11, 0x70, 0, 0, 0, 0], 5) := by decide +kernel
example : integerNet 32 (List.replicate 3 0) (-500) = some ([0x39, 1, 0xF3], 3) := by decide +kernel
example : integerNet 32 (List.replicate 2 0) (-500) = none := by decide +kernel

/-- C40 fails for 24 and -25: one byte is written that is not a complete item head. -/
theorem cbor_24_invalid (x : UInt8) (rest : List UInt8) :
    integerNet 32 (x :: rest) 24 = some (0x18 :: rest, 1) ∧ integerNet 32 (x :: rest) (-25) = some (0x38 :: rest, 1) ∧
    (¬∃ m a, CborHead [0x18] m a) ∧ ¬∃ m a, CborHead [0x38] m a := by
  have no : ∀ c : UInt8, c.toNat % 32 = 24 → ¬∃ m a, CborHead [c] m a := by
    rintro c hc ⟨m, a, h⟩
    generalize hl : [c] = l at h
    cases h with
    | @tiny m a hm ha =>
      simp only [List.cons.injEq, and_true] at hl
      rw [hl] at hc; simp at hc; omega
    | @ext m i bs hm hi hb =>
      simp only [List.cons.injEq] at hl
      rw [← hl.2] at hb
      have := Nat.two_pow_pos i
      simp at hb; omega
  exact ⟨rfl, rfl, no _ (by decide), no _ (by decide)⟩

/-- C40 fails for the other encoder class (`EncoderBase::integer`): every negative integer from -1 down,
except -24, is written as the item that denotes the integer below it. -/
theorem cbor_base_negative_off_by_one (v : Int) (hlo : -(2 : Int) ^ 31 < v) (hv : v < 0) (h24 : v ≠ -24) :
    ∃ b a, CborHead b 1 a ∧ cborInt 1 a = v - 1 ∧
      ∀ buf, integerBase 32 buf v = if b.length ≤ buf.length then some (b ++ buf.drop b.length, b.length) else none := by
  obtain ⟨b, h1, h2, h3, h4⟩ := major_eq 1 (by decide) (-v).toNat (by omega) (by omega)
  refine ⟨b, (-v).toNat, h1, by simp [cborInt]; omega, fun buf => ?_⟩
  rw [integerBase, if_neg (by omega), if_neg (by simp; omega), h4]

/-- C40: on integers that are not negative the other encoder class does the same. -/
theorem cbor_base_same (v : Int) (hv : 0 ≤ v) (w : Nat) (buf : List UInt8) : integerBase w buf v = integerNet w buf v := by
  rw [integerBase, integerNet, if_pos hv, if_pos hv]

/-- C40 fails for the smallest integer of 32 and of 64 bits, in both encoder classes: whatever the buffer, it cannot be negated (`none`). -/
theorem cbor_smallest_undefined (buf : List UInt8) :
    integerNet 32 buf (-2147483648) = none ∧ integerBase 32 buf (-2147483648) = none ∧
    integerNet 64 buf (-9223372036854775808) = none ∧ integerBase 64 buf (-9223372036854775808) = none := by
  refine ⟨?_, ?_, ?_, ?_⟩ <;> rfl

/-- C41 (partial: arguments of up to four bytes): from the start of an item at any place in any bytes, the
decoder stops right after the head and reports the major type and the argument. -/
theorem cbor_head_decoded_partial (junk : UInt8) (before head rest : List UInt8) (m a : Nat) (hh : CborHead head m a)
    (h5 : head.length ≤ 5) (d : CDec) (hst : d.st = .headerStart ∨ d.st = .itemDone) (hb : 4 ≤ d.buf.length) :
    ∃ d', (∀ fuel, 11 ≤ fuel → process junk (before ++ head ++ rest) fuel d before.length =
        some (some (d', before.length + head.length, false))) ∧
      d'.type.toNat = m ∧ d'.unsigned 32 = a ∧ d'.buf.length = d.buf.length ∧
      d'.st = (if m = 0 ∨ m = 1 ∨ m = 6 ∨ m = 7 then .itemDone else .longStart) ∧
      (m = 1 → d'.isTiny = true → a < 24 ∧ d'.integer 32 = a) ∧
      (m ≠ 1 ∨ d'.isTiny = false → a < 2 ^ 31 → d'.integer 32 = cborInt m a) ∧
      (d'.isTiny = true ↔ head.length = 1) := by
  obtain ⟨d', h1, h2, h3, h4, h5'⟩ := process_head junk (before ++ head ++ rest) head rest m a hh h5 d before.length hst hb (by simp)
  have hlt := cborHead_lt hh h5
  refine ⟨d', h5', h2, ?_, h3, h1, ?_, ?_, ?_⟩
  · rcases h4 with ⟨e1, e2, -, -⟩ | ⟨e1, e2, e3, e4, e5⟩
    · rw [CDec.unsigned, if_pos e1, e2]
    · rw [CDec.unsigned, if_neg (by simp [e1]), uintGet_eq 32 (by omega), e2, Nat.mod_eq_of_lt hlt]
  · intro hm ht
    rcases h4 with ⟨e1, e2, e3, e4⟩ | ⟨e1, -⟩
    · exact ⟨e4, by rw [CDec.integer, if_pos e1, e2]⟩
    · rw [e1] at ht; exact absurd ht (by simp)
  · intro hm hs
    rcases h4 with ⟨e1, e2, -, -⟩ | ⟨e1, e2, e3, e4, e5⟩
    · have hm1 : m ≠ 1 := hm.resolve_right (by simp [e1])
      rw [CDec.integer, if_pos e1, e2]; simp [cborInt, hm1]
    · have hg : uintGet 32 (d'.buf.take d'.additionalLength.toNat) = a := by
        rw [uintGet_eq 32 (by omega), e2, Nat.mod_eq_of_lt hlt]
      have hty : (d'.type == 1) = decide (m = 1) := by
        by_cases hc : m = 1
        · subst hc
          have : d'.type = 1 := UInt8.toNat_inj.1 (by simpa using h2)
          simp [this]
        · have : d'.type ≠ 1 := by intro h; rw [h] at h2; exact hc (by simpa using h2.symm)
          simp [this, hc]
      simp only [CDec.integer, e1, hg, CDec.toSigned, hty, if_pos (show a < 2 ^ (32 - 1) by simpa using hs)]
      by_cases hc : m = 1 <;> simp [cborInt, hc]
  · rcases h4 with ⟨e1, -, e3, -⟩ | ⟨e1, e2, e3, e4, e5⟩
    · simp [e1, e3]
    · simp only [e1, Bool.false_eq_true, false_iff]
      intro h1
      have h0 : d'.additionalLength.toNat = 0 := by omega
      have : d'.additionalLength ≠ 0 := by
        have hx : ∀ x : UInt8, (x &&& 0x1F) < 24 ∨ (1 : UInt8) <<< ((x &&& 0x1F) - 24) ≠ 0 :=
          fun x => forall_u8 (p := fun x => (x &&& 0x1F) < 24 ∨ (1 : UInt8) <<< ((x &&& 0x1F) - 24) ≠ 0) (by decide +kernel) x
        rcases hx d'.hdr with h | h
        · rw [CDec.isTiny, CDec.additionalRaw] at e1; simp [h] at e1
        · exact h
      exact this (UInt8.toNat_inj.1 (by simpa using h0))

example : (process 0 [0x19, 1, 0xF4, 0x05] 11 (CDec.fresh ⟨[9, 9, 9, 9], 0, 0, .long⟩) 0).map (·.map fun r => (r.1.integer 32, r.2)) =
    some (some (500, 3, false)) := by decide +kernel

/-- C40 (partial: not negative except 24, or below -25): the round trip through encoder and decoder. -/
theorem cbor_round_trip_partial (v : Int) (hv : 0 ≤ v ∧ v < 2 ^ 31 ∧ v ≠ 24 ∨ -(2 : Int) ^ 31 < v ∧ v < -25) :
    ∃ b m, b.length ≤ 5 ∧ (∀ buf, b.length ≤ buf.length → integerNet 32 buf v = some (b ++ buf.drop b.length, b.length)) ∧
      ∀ (junk : UInt8) (before rest : List UInt8) (d : CDec), d.st = .headerStart ∨ d.st = .itemDone → 4 ≤ d.buf.length →
        ∃ d', d'.type.toNat = m ∧ (m = if 0 ≤ v then 0 else 1) ∧ d'.integer 32 = v ∧ d'.st = .itemDone ∧
          ∀ fuel, 11 ≤ fuel → process junk (before ++ b ++ rest) fuel d before.length =
            some (some (d', before.length + b.length, false)) := by
  obtain ⟨b, m, a, h1, h2, h3, h4, h5⟩ := cbor_integer_written_partial v (by omega) (by omega) (by omega) (by omega)
  have hm : m = if 0 ≤ v then 0 else 1 := by
    unfold cborInt at h3
    rcases h2 with rfl | rfl
    · rw [if_pos]; simp at h3; omega
    · rw [if_neg]; simp at h3; omega
  refine ⟨b, m, h4, fun buf hb => by rw [h5, if_pos hb], fun junk before rest d hst hb => ?_⟩
  obtain ⟨d', g1, g2, g3, g4, g5, g6, g7, g8⟩ := cbor_head_decoded_partial junk before b rest m a h1 h4 d hst hb
  refine ⟨d', g2, hm, ?_, ?_, g1⟩
  · rw [← h3]
    apply g7
    · rcases h2 with rfl | rfl
      · exact Or.inl (by omega)
      · right
        cases ht : d'.isTiny with
        | false => rfl
        | true =>
          have := (g6 rfl ht).1
          simp [cborInt] at h3
          omega
    · unfold cborInt at h3; split at h3 <;> omega
  · rw [g5, if_pos]; rcases h2 with rfl | rfl <;> simp

/-- C40 fails for -1 to -24: every one of them is decoded as a different number, 0 to 23. -/
theorem cbor_small_negative_fails (v : Int) (hv : -24 ≤ v ∧ v ≤ -1) (junk : UInt8) (x : UInt8) (rest : List UInt8) (d : CDec)
    (hst : d.st = .headerStart ∨ d.st = .itemDone) (hb : 4 ≤ d.buf.length) :
    ∃ c d', integerNet 32 (x :: rest) v = some (c :: rest, 1) ∧
      process junk (c :: rest) 11 d 0 = some (some (d', 1, false)) ∧ d'.integer 32 = -1 - v ∧ d'.integer 32 ≠ v := by
  have hw : integerNet 32 (x :: rest) v = some (UInt8.ofNat (1 * 32 + (-v - 1).toNat) :: rest, 1) := by
    rw [integerNet, if_neg (by omega), if_neg (by simp; omega), majorTypeAndInteger, if_pos (by omega),
      head_byte 1 (by decide) _ (by omega)]
    simp [writeAt]
  have hh : CborHead [UInt8.ofNat (1 * 32 + (-v - 1).toNat)] 1 (-v - 1).toNat := .tiny (by omega) (by omega)
  obtain ⟨d', g1, g2, g3, g4, g5, g6, g7, g8⟩ := cbor_head_decoded_partial junk [] _ rest 1 _ hh (by simp) d hst hb
  have := (g6 rfl (g8.2 rfl)).2
  refine ⟨_, d', hw, by simpa using g1 11 (by omega), ?_, ?_⟩ <;> rw [this] <;> omega

/-- C41 fails: if a head asks for an eight-byte argument or uses a reserved value (27 to 31) and five more
bytes follow, the decoder writes outside its four-byte buffer. -/
theorem cbor_long_argument_overflow (junk b b1 b2 b3 b4 b5 : UInt8) (rest : List UInt8) (hb : 27 ≤ b.toNat % 32) (d : CDec)
    (hst : d.st = .headerStart) (hl : d.buf.length = 4) :
    process junk (b :: b1 :: b2 :: b3 :: b4 :: b5 :: rest) 9 d 0 = none := by
  obtain ⟨buf, hdr, p, st⟩ := d
  simp only at hst hl; subst hst
  obtain ⟨a1, a2, a3, a4, rfl⟩ : ∃ a1 a2 a3 a4, buf = [a1, a2, a3, a4] := by
    match buf, hl with
    | [a1, a2, a3, a4], _ => exact ⟨a1, a2, a3, a4, rfl⟩
  have hx : ∀ x : UInt8, 27 ≤ x.toNat % 32 → ((x &&& 0x1F) < 24) = False ∧ 8 ≤ ((1 : UInt8) <<< ((x &&& 0x1F) - 24)).toNat := by
    intro x
    have := forall_u8 (p := fun x => 27 ≤ x.toNat % 32 → ¬((x &&& 0x1F) < 24) ∧ 8 ≤ ((1 : UInt8) <<< ((x &&& 0x1F) - 24)).toNat)
      (by decide +kernel) x
    intro h; exact ⟨eq_false (this h).1, (this h).2⟩
  obtain ⟨h1, h2⟩ := hx b hb
  generalize hk : ((1 : UInt8) <<< ((b &&& 0x1F) - 24)).toNat = k at h2
  have n1 : ¬(1 = k) := by omega
  have n2 : ¬(2 = k) := by omega
  have n3 : ¬(3 = k) := by omega
  have n4 : ¬(4 = k) := by omega
  simp [process, CDec.iterate, CDec.isTiny, CDec.additionalRaw, CDec.additionalLength, h1, hk, n1, n2, n3, n4, writeAt]

example : process 0 [0x1B, 0, 0, 0, 1, 0, 0, 0, 0] 9 (CDec.fresh ⟨[0, 0, 0, 0], 0, 0, .headerStart⟩) 0 = none := by decide +kernel

/-- What is true of the decoder between two bytes if no head asked for more than four bytes. -/
structure CborOk (d : CDec) : Prop where
  buf : 4 ≤ d.buf.length
  head : d.st = .headerDone ∨ d.st = .additionalStart ∨ d.st = .additional → d.additionalRaw.toNat < 27
  ext : d.st = .additionalStart ∨ d.st = .additional → d.isTiny = false
  room : d.st = .additional → d.pos < d.additionalLength.toNat

theorem cborOk_iterate {d : CDec} {ch : UInt8} (hd : CborOk d) (hc : ch.toNat % 32 < 27) :
    ∃ d' adv, d.iterate ch = some (d', adv) ∧ CborOk d' ∧ d'.buf.length = d.buf.length := by
  obtain ⟨buf, hdr, p, st⟩ := d
  obtain ⟨h1, h2, h3, h4⟩ := hd
  have hx := forall_u8 (p := fun x => (x &&& 0x1F).toNat < 27 → ((x &&& 0x1F) < 24) ∨
    0 < ((1 : UInt8) <<< ((x &&& 0x1F) - 24)).toNat ∧ ((1 : UInt8) <<< ((x &&& 0x1F) - 24)).toNat ≤ 4) (by decide +kernel) hdr
  have hc' : (ch &&& 0x1F).toNat < 27 := by
    have := forall_u8 (p := fun x => x.toNat % 32 < 27 → (x &&& 0x1F).toNat < 27) (by decide +kernel) ch
    exact this hc
  simp only [CDec.additionalRaw, CDec.isTiny, CDec.additionalLength] at h1 h2 h3 h4
  cases st
  case headerStart => exact ⟨_, _, rfl, ⟨h1, by simp, by simp, by simp⟩, rfl⟩
  case header => exact ⟨_, _, rfl, ⟨h1, fun _ => hc', by simp, by simp⟩, rfl⟩
  case headerDone =>
    cases ht : CDec.isTiny ⟨buf, hdr, p, .headerDone⟩ with
    | true =>
      refine ⟨⟨buf, hdr, p, if CDec.isShort ⟨buf, hdr, p, .headerDone⟩ then .itemDone else .longStart⟩, false,
        by simp [CDec.iterate, ht], ⟨h1, ?_, ?_, ?_⟩, rfl⟩ <;> simp only <;> split <;> simp
    | false =>
      exact ⟨⟨buf, hdr, p, .additionalStart⟩, false, by simp [CDec.iterate, ht], ⟨h1, fun _ => h2 (by simp), fun _ => ht, by simp⟩, rfl⟩
  case additionalStart =>
    have hr := h2 (by simp)
    have ht := h3 (by simp)
    refine ⟨_, _, rfl, ⟨h1, fun _ => hr, fun _ => ht, fun _ => ?_⟩, rfl⟩
    rcases hx hr with h | h
    · simp [h] at ht
    · exact h.1
  case additional =>
    have hr := h2 (by simp)
    have ht := h3 (by simp)
    have hp := h4 rfl
    have hl : 0 < ((1 : UInt8) <<< ((hdr &&& 0x1F) - 24)).toNat ∧ ((1 : UInt8) <<< ((hdr &&& 0x1F) - 24)).toNat ≤ 4 := by
      rcases hx hr with h | h
      · simp [h] at ht
      · exact h
    have hb : p < buf.length := by omega
    have hm : (p + 1) % 8 = p + 1 := Nat.mod_eq_of_lt (by omega)
    refine ⟨⟨buf.set p ch, hdr, p + 1, if p + 1 = ((1 : UInt8) <<< ((hdr &&& 0x1F) - 24)).toNat then .additionalDone else .additional⟩,
      true, by simp [CDec.iterate, writeAt, hb, hm, CDec.additionalLength, CDec.additionalRaw],
      ⟨by simpa using h1, fun _ => hr, fun _ => ht, ?_⟩, by simp⟩
    simp only [CDec.additionalLength, CDec.additionalRaw]
    split
    · simp
    · rename_i hne
      intro _
      omega
  case additionalDone =>
    refine ⟨_, _, rfl, ⟨h1, ?_, ?_, ?_⟩, rfl⟩ <;> simp only <;> split <;> simp
  case longStart => exact ⟨_, _, rfl, ⟨h1, by simp, by simp, by simp⟩, rfl⟩
  case long => exact ⟨_, _, rfl, ⟨h1, by simp, by simp, by simp⟩, rfl⟩
  case longDone => exact ⟨_, _, rfl, ⟨h1, by simp, by simp, by simp⟩, rfl⟩
  case itemDone => exact ⟨_, _, rfl, ⟨h1, by simp, by simp, by simp⟩, rfl⟩

/-- C41 (partial: no byte has its low five bits at 27 or more): over any bytes, from any position, the
decoder never writes outside its buffer, and it is again in a state from which this holds. -/
theorem cbor_decoder_in_bounds_partial (junk : UInt8) (chunk : List UInt8) (hj : junk.toNat % 32 < 27)
    (hc : ∀ b ∈ chunk, b.toNat % 32 < 27) (fuel : Nat) (d : CDec) (pos : Nat) (hd : CborOk d) :
    ∃ r, process junk chunk fuel d pos = some r ∧ ∀ d' pos' eof, r = some (d', pos', eof) → CborOk d' := by
  induction fuel generalizing d pos with
  | zero => exact ⟨_, rfl, by simp⟩
  | succ n ih =>
    rw [process]
    split
    · have hg : (chunk.getD pos junk).toNat % 32 < 27 := by
        by_cases h : pos < chunk.length
        · rw [List.getD_eq_getElem?_getD, List.getElem?_eq_getElem h]; exact hc _ (List.getElem_mem h)
        · rw [List.getD_eq_getElem?_getD, List.getElem?_eq_none (by omega)]; exact hj
      obtain ⟨d', adv, h1, h2, h3⟩ := cborOk_iterate hd hg
      simp only [h1]
      split
      · exact ⟨_, rfl, by intro a b c h; cases h; exact h2⟩
      · exact ih _ _ h2
    · exact ⟨_, rfl, by intro a b c h; cases h; exact hd⟩

theorem cborOk_fresh (junk : CDec) (h : 4 ≤ junk.buf.length) : CborOk (CDec.fresh junk) :=
  ⟨h, by simp [CDec.fresh], by simp [CDec.fresh], by simp [CDec.fresh]⟩

example : CborOk (CDec.fresh ⟨[0, 0, 0, 0], 0xFF, 7, .long⟩) := cborOk_fresh _ (by simp)

theorem advance_in (pos len : Nat) (h : pos + len < 2 ^ 31) : advance pos len = some (pos + len) := by
  have e : CDec.toSigned 32 len = len := by rw [CDec.toSigned, if_pos (by omega)]
  rw [advance, e]
  rw [if_pos ⟨by omega, by omega⟩]
  simp; omega

/-- C41 (partial): after the head of a string or byte string that lies within the bytes, `fast_forward`
skips exactly its content and stops right after the head of the next item, reporting type and argument. -/
theorem cbor_string_skipped_partial (junk : UInt8) (before content head rest : List UInt8) (m a : Nat) (hh : CborHead head m a)
    (h5 : head.length ≤ 5) (d : CDec) (ht : d.type = 2 ∨ d.type = 3) (hl : d.unsigned 32 = content.length)
    (hb : 4 ≤ d.buf.length) (hs : before.length + content.length < 2 ^ 31) :
    ∃ d', (∀ fuel, 11 ≤ fuel → streamFastForward junk (before ++ content ++ head ++ rest) fuel d before.length =
        some (some (d', before.length + content.length + head.length, false))) ∧
      d'.type.toNat = m ∧ d'.unsigned 32 = a ∧
      d'.st = (if m = 0 ∨ m = 1 ∨ m = 6 ∨ m = 7 then .itemDone else .longStart) := by
  obtain ⟨d', g1, g2, g3, g4, g5, -⟩ := cbor_head_decoded_partial junk (before ++ content) head rest m a hh h5 d.fastForward
    (Or.inl rfl) hb
  have hi : d.isIndeterminate = false := by rcases ht with h | h <;> simp [CDec.isIndeterminate, h]
  refine ⟨d', fun fuel hf => ?_, g2, g3, g5⟩
  rw [streamFastForward, hi, hl, advance_in _ _ hs]
  simpa using g1 fuel hf

/-- C41 (partial): for an array or map, `fast_forward` goes to the first item inside. -/
theorem cbor_container_entered_partial (junk : UInt8) (before head rest : List UInt8) (m a : Nat) (hh : CborHead head m a)
    (h5 : head.length ≤ 5) (d : CDec) (ht : d.type = 4 ∨ d.type = 5) (hb : 4 ≤ d.buf.length) :
    ∃ d', (∀ fuel, 11 ≤ fuel → streamFastForward junk (before ++ head ++ rest) fuel d before.length =
        some (some (d', before.length + head.length, false))) ∧
      d'.type.toNat = m ∧ d'.unsigned 32 = a ∧
      d'.st = (if m = 0 ∨ m = 1 ∨ m = 6 ∨ m = 7 then .itemDone else .longStart) := by
  obtain ⟨d', g1, g2, g3, g4, g5, -⟩ := cbor_head_decoded_partial junk before head rest m a hh h5 d.fastForward
    (Or.inl rfl) hb
  have hi : d.isIndeterminate = true := by rcases ht with h | h <;> simp [CDec.isIndeterminate, h]
  refine ⟨d', fun fuel hf => ?_, g2, g3, g5⟩
  rw [streamFastForward, hi]
  simpa using g1 fuel hf

/-- The string "abc" followed by the integer 500. -/
example : ∃ d, process 0 [0x63, 97, 98, 99, 0x19, 1, 0xF4] 11 (CDec.fresh ⟨[0, 0, 0, 0], 0, 0, .long⟩) 0 = some (some (d, 1, false)) ∧
    d.st = .longStart ∧ d.type = 3 ∧ d.unsigned 32 = 3 ∧
    (streamFastForward 0 [0x63, 97, 98, 99, 0x19, 1, 0xF4] 11 d 1).map (·.map fun r => (r.1.integer 32, r.2)) =
      some (some (500, 7, false)) := by
  refine ⟨_, rfl, ?_⟩; decide +kernel

/-- C41 fails at the end of the bytes: when the last item is a string, `fast_forward` reads the byte after the
end of the buffer, takes it as the head of a further item and stands beyond the end. -/
theorem cbor_reads_past_end (chunk : List UInt8) (junk : UInt8) (d : CDec) (ht : d.type = 2 ∨ d.type = 3) (pos : Nat)
    (he : pos + d.unsigned 32 = chunk.length) (hs : chunk.length < 2 ^ 31) :
    ∃ d', streamFastForward junk chunk 11 d pos = some (some (d', chunk.length + 1, true)) ∧
      d'.hdr = junk ∧ d'.type = junk >>> 5 ∧ d'.st = .headerDone := by
  have hi : d.isIndeterminate = false := by rcases ht with h | h <;> simp [CDec.isIndeterminate, h]
  refine ⟨⟨d.buf, junk, d.pos, .headerDone⟩, ?_, rfl, rfl, rfl⟩
  rw [streamFastForward, hi, advance_in _ _ (by omega), he]
  simp only [Bool.false_eq_true, if_false]
  have h0 : ¬(chunk.length + 1 < chunk.length) := by omega
  rw [process]; simp [CDec.iterate, CDec.fastForward]
  rw [process]; simp [CDec.iterate]
  rw [process]; simp
  intro h; exact absurd h h0

/-- The message is the string "abc" and nothing else; the byte behind it is 0x81. -/
example : ∃ d, process 0x81 [0x63, 97, 98, 99] 11 (CDec.fresh ⟨[0, 0, 0, 0], 0, 0, .long⟩) 0 = some (some (d, 1, false)) ∧
    d.type = 3 ∧ 1 + d.unsigned 32 = 4 := by
  refine ⟨_, rfl, ?_⟩; decide +kernel

/-- An integer comes back: the encoder writes some bytes for it, whatever the buffer, and the decoder, wherever they stand and whatever
follows, makes the integer of them and stops behind them. -/
def CborComesBack (v : Int) : Prop :=
  ∃ b, b.length ≤ 5 ∧ (∀ buf, b.length ≤ buf.length → integerNet 32 buf v = some (b ++ buf.drop b.length, b.length)) ∧
    ∀ (junk : UInt8) (before rest : List UInt8) (d : CDec), d.st = .headerStart ∨ d.st = .itemDone → 4 ≤ d.buf.length →
      ∃ d', d'.integer 32 = v ∧ process junk (before ++ b ++ rest) 11 d before.length =
        some (some (d', before.length + b.length, false))

/-- C40, exactly: the 32-bit integers that come back are those from 0 on other than 24, and those below -25 other than the
smallest. -/
theorem cbor_round_trip_iff (v : Int) (hlo : -(2 : Int) ^ 31 ≤ v) (hhi : v < 2 ^ 31) :
    CborComesBack v ↔ (0 ≤ v ∧ v ≠ 24) ∨ (v < -25 ∧ v ≠ -(2 : Int) ^ 31) := by
  constructor
  · rintro ⟨b, hb5, hw, hr⟩
    have hwb := hw (List.replicate 5 0) (by simpa using hb5)
    have one : ∀ c : UInt8, some (c :: List.replicate 4 0, 1) = some (b ++ (List.replicate 5 (0 : UInt8)).drop b.length, b.length) →
        b = [c] := by
      intro c h
      simp only [Option.some.injEq, Prod.mk.injEq] at h
      obtain ⟨x, rfl⟩ := List.length_eq_one_iff.1 h.2.symm
      rw [← (List.cons.inj h.1).1]
    rw [show List.replicate 5 (0 : UInt8) = 0 :: List.replicate 4 0 from rfl] at hwb one
    have h24 : v ≠ 24 := by
      rintro rfl
      rw [(cbor_24_invalid 0 _).1] at hwb
      obtain rfl := one _ hwb
      obtain ⟨d', -, h2⟩ := hr 0 [] [] (CDec.fresh ⟨[0, 0, 0, 0], 0, 0, .long⟩) (Or.inl rfl) (by simp [CDec.fresh])
      have := congrArg (Option.map (Option.map fun x => x.2.2)) h2
      simp only [Option.map_some] at this
      revert this; decide +kernel
    have h25 : v ≠ -25 := by
      rintro rfl
      rw [(cbor_24_invalid 0 _).2.1] at hwb
      obtain rfl := one _ hwb
      obtain ⟨d', -, h2⟩ := hr 0 [] [] (CDec.fresh ⟨[0, 0, 0, 0], 0, 0, .long⟩) (Or.inl rfl) (by simp [CDec.fresh])
      have := congrArg (Option.map (Option.map fun x => x.2.2)) h2
      simp only [Option.map_some] at this
      revert this; decide +kernel
    have hmin : v ≠ -(2 : Int) ^ 31 := by
      rintro rfl
      rw [show -(2 : Int) ^ 31 = -2147483648 by decide, (cbor_smallest_undefined _).1] at hwb; cases hwb
    have hneg : ¬(-24 ≤ v ∧ v ≤ -1) := by
      intro hv
      obtain ⟨c, d1, e1, e2, -, e4⟩ := cbor_small_negative_fails v hv 0 0 (List.replicate 4 0) (CDec.fresh ⟨[0, 0, 0, 0], 0, 0, .long⟩)
        (Or.inl rfl) (by simp [CDec.fresh])
      rw [e1] at hwb
      obtain rfl := one _ hwb
      obtain ⟨d', h1, h2⟩ := hr 0 [] (List.replicate 4 0) (CDec.fresh ⟨[0, 0, 0, 0], 0, 0, .long⟩) (Or.inl rfl) (by simp [CDec.fresh])
      simp only [List.nil_append, List.length_nil, List.cons_append] at h2
      rw [e2] at h2
      simp only [Option.some.injEq, Prod.mk.injEq] at h2
      rw [h2.1] at e4
      exact e4 h1
    omega
  · intro h
    obtain ⟨b, m, h5, hw, hr⟩ := cbor_round_trip_partial v (by omega)
    refine ⟨b, h5, hw, fun junk before rest d hd h4 => ?_⟩
    obtain ⟨d', -, -, e1, -, e2⟩ := hr junk before rest d hd h4
    exact ⟨d', e1, e2 11 (Nat.le_refl _)⟩

example : CborComesBack 1000000 ∧ ¬CborComesBack (-3) :=
  ⟨(cbor_round_trip_iff _ (by decide) (by decide)).2 (by omega), fun h => by
    have := (cbor_round_trip_iff _ (by decide) (by decide)).1 h; omega⟩

end Verif.Props
