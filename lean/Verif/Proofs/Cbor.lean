import Verif.Model.Cbor
import Verif.Spec.Cbor
import Verif.Proofs.UInt

/-! # CBOR heads: what the encoder writes and the decoder reads -/
namespace Verif.Proofs.Cbor
open Verif.Model Verif.Model.Cbor Verif.Spec Verif.Proofs

theorem head_byte (t : UInt8) (ht : t.toNat < 8) (v : Nat) (hv : v < 32) :
    t <<< 5 ||| UInt8.ofNat v = UInt8.ofNat (t.toNat * 32 + v) := by
  have : ∀ t : Fin 8, ∀ v : Fin 32, UInt8.ofNat t.val <<< 5 ||| UInt8.ofNat v.val = UInt8.ofNat (t.val * 32 + v.val) := by
    decide +kernel
  have h := this ⟨t.toNat, ht⟩ ⟨v, hv⟩
  simpa using h

theorem padSize_cases {value : Nat} (h24 : 24 < value) (h64 : value < 2 ^ 64) :
    ∃ i, i < 4 ∧ padSize (assess value) = UInt8.ofNat (2 ^ i) ∧ infoFromWordsize (padSize (assess value)) = UInt8.ofNat (24 + i) ∧
      value < 256 ^ 2 ^ i := by
  have hb := lt_pow_byteLen value
  have h8 := byteLen_le8 h64
  have hp : byteLen value ≠ 0 := by
    intro h; rw [h] at hb; simp at hb; omega
  have ha : assess value = UInt8.ofNat (byteLen value) := by rw [assess_eq]; simp
  rw [ha]
  generalize byteLen value = n at *
  have hn : n = 1 ∨ n = 2 ∨ n = 3 ∨ n = 4 ∨ n = 5 ∨ n = 6 ∨ n = 7 ∨ n = 8 := by omega
  rcases hn with rfl | rfl | rfl | rfl | rfl | rfl | rfl | rfl
  · exact ⟨0, by omega, by decide, by decide, by simpa using hb⟩
  · exact ⟨1, by omega, by decide, by decide, by simpa using hb⟩
  · exact ⟨2, by omega, by decide, by decide, by simp at hb ⊢; omega⟩
  · exact ⟨2, by omega, by decide, by decide, by simpa using hb⟩
  · exact ⟨3, by omega, by decide, by decide, by simp at hb ⊢; omega⟩
  · exact ⟨3, by omega, by decide, by decide, by simp at hb ⊢; omega⟩
  · exact ⟨3, by omega, by decide, by decide, by simp at hb ⊢; omega⟩
  · exact ⟨3, by omega, by decide, by decide, by simpa using hb⟩

theorem writeAt_zero (buf : List UInt8) (b : UInt8) : writeAt buf 0 b = if buf = [] then none else some (b :: buf.tail) := by
  cases buf <;> simp [writeAt]

/-- What `major_type_and_integer` writes: a valid head, except for the value 24. -/
theorem major_eq (t : UInt8) (ht : t.toNat < 8) (value : Nat) (h64 : value < 2 ^ 64) (hne : value ≠ 24) :
    ∃ b, CborHead b t.toNat value ∧ b.length ≤ 9 ∧ (value < 2 ^ 32 → b.length ≤ 5) ∧
      ∀ buf, majorTypeAndInteger buf t value =
        if b.length ≤ buf.length then some (b ++ buf.drop b.length, b.length) else none := by
  by_cases h : value ≤ 24
  · have hv : value < 24 := by omega
    refine ⟨[UInt8.ofNat (t.toNat * 32 + value)], .tiny ht hv, by simp, by simp, fun buf => ?_⟩
    rw [majorTypeAndInteger, if_pos h, head_byte t ht value (by omega), writeAt_zero]
    cases buf <;> simp
  · obtain ⟨i, hi, e1, e2, hv⟩ := padSize_cases (by omega) h64
    have hval : beValue (beBytes (2 ^ i) value) = value := by rw [beValue_beBytes, Nat.mod_eq_of_lt hv]
    have hhd : CborHead (UInt8.ofNat (t.toNat * 32 + 24 + i) :: beBytes (2 ^ i) value) t.toNat value := by
      have := CborHead.ext (m := t.toNat) (i := i) (bs := beBytes (2 ^ i) value) ht hi (by simp)
      rwa [hval] at this
    have h2 : 2 ^ i ≤ 8 := by
      have : i = 0 ∨ i = 1 ∨ i = 2 ∨ i = 3 := by omega
      rcases this with rfl | rfl | rfl | rfl <;> simp
    refine ⟨_, hhd, by simp; omega, fun h32 => ?_, fun buf => ?_⟩
    · have : i < 3 := by
        by_cases hc : i = 3
        · subst hc
          have := byteLen_le (n := value) (k := 4) (by simpa using h32)
          have ha : assess value = UInt8.ofNat (byteLen value) := by rw [assess_eq]; simp
          rw [ha] at e1
          exfalso
          revert e1
          have h5 : byteLen value = 0 ∨ byteLen value = 1 ∨ byteLen value = 2 ∨ byteLen value = 3 ∨ byteLen value = 4 := by omega
          rcases h5 with h | h | h | h | h <;> rw [h] <;> decide
        · omega
      have : 2 ^ i ≤ 4 := by
        have : i = 0 ∨ i = 1 ∨ i = 2 := by omega
        rcases this with rfl | rfl | rfl <;> simp
      simp; omega
    · have hn : (padSize (assess value)).toNat = 2 ^ i := by rw [e1]; simp; omega
      rw [majorTypeAndInteger, if_neg h]
      simp only [e2]
      rw [head_byte t ht _ (by omega), writeAt_zero, ← Nat.add_assoc]
      cases buf with
      | nil => simp
      | cons x buf =>
        simp only [reduceCtorEq, if_false, List.tail_cons, hn, uintSetLen_eq, List.length_cons, beBytes_length,
          Nat.add_le_add_iff_right]
        split <;> simp

theorem getD_drop {chunk : List UInt8} {pos : Nat} {b : UInt8} {r : List UInt8} (h : chunk.drop pos = b :: r) (junk : UInt8) :
    chunk.getD pos junk = b ∧ pos < chunk.length ∧ chunk.drop (pos + 1) = r := by
  have hl : pos < chunk.length := by
    by_cases hc : pos < chunk.length
    · exact hc
    · rw [List.drop_eq_nil_of_le (by omega)] at h; exact absurd h (by simp)
  rw [List.drop_eq_getElem_cons hl] at h
  simp only [List.cons.injEq] at h
  exact ⟨by rw [List.getD_eq_getElem?_getD, List.getElem?_eq_getElem hl]; simp [h.1], hl, h.2⟩

theorem process_step (junk : UInt8) (chunk : List UInt8) (fuel : Nat) (d d' : CDec) (pos : Nat) (adv : Bool)
    (hc : pos < chunk.length ∨ pos = chunk.length ∧ d.st ≠ .itemDone) (hi : d.iterate (chunk.getD pos junk) = some (d', adv)) :
    process junk chunk (fuel + 1) d pos =
      if d'.st == .longStart || d'.st == .itemDone then some (some (d', if adv then pos + 1 else pos, false))
      else process junk chunk fuel d' (if adv then pos + 1 else pos) := by
  rw [process, if_pos (by rcases hc with h | ⟨rfl, h⟩ <;> simp_all), hi]

theorem take_set_succ (buf : List UInt8) (p : Nat) (b : UInt8) (h : p < buf.length) :
    (buf.set p b).take (p + 1) = buf.take p ++ [b] := by
  have hlen : (buf.take p).length = p := by simp; omega
  rw [List.set_eq_take_append_cons_drop, if_pos h, List.take_append, hlen]
  rw [List.take_of_length_le (by omega)]; simp

theorem additional_run (junk : UInt8) (chunk bs rest : List UInt8) (d : CDec) (pos : Nat) (hne : bs ≠ []) (hst : d.st = .additional)
    (hk : d.pos + bs.length = d.additionalLength.toNat) (h7 : d.pos + bs.length < 8) (hb : d.pos + bs.length ≤ d.buf.length)
    (hd : chunk.drop pos = bs ++ rest) (fuel : Nat) :
    process junk chunk (fuel + bs.length) d pos =
      process junk chunk fuel ⟨d.buf.take d.pos ++ bs ++ d.buf.drop (d.pos + bs.length), d.hdr, d.pos + bs.length, .additionalDone⟩
        (pos + bs.length) := by
  induction bs generalizing d pos with
  | nil => exact absurd rfl hne
  | cons b bs ih =>
    obtain ⟨buf, hdr, p, st⟩ := d
    simp only at hst; subst hst
    simp only [List.length_cons] at hk h7 hb ⊢
    obtain ⟨g1, g2, g3⟩ := getD_drop (junk := junk) (by simpa using hd)
    have hal : ∀ buf' p' st', CDec.additionalLength ⟨buf', hdr, p', st'⟩ = CDec.additionalLength ⟨buf, hdr, p, .additional⟩ := fun _ _ _ => rfl
    by_cases hbs : bs = []
    · subst hbs
      have hi : CDec.iterate ⟨buf, hdr, p, .additional⟩ (chunk.getD pos junk) =
          some (⟨buf.set p b, hdr, p + 1, .additionalDone⟩, true) := by
        simp only [List.length_nil, Nat.zero_add] at hk h7 hb
        rw [g1, CDec.iterate]
        simp only [writeAt, if_pos (show p < buf.length by omega), Nat.mod_eq_of_lt h7, hal, ← hk, beq_self_eq_true, if_true]
      simp only [List.length_nil, Nat.zero_add]
      rw [process_step junk chunk fuel _ _ pos true (Or.inl g2) hi]
      have hset : buf.set p b = buf.take p ++ [b] ++ buf.drop (p + 1) := by
        simp only [List.length_nil, Nat.zero_add] at hb
        rw [List.set_eq_take_append_cons_drop, if_pos (by omega)]; simp
      simp [hset]
    · have hp1 : p + 1 < 8 := by omega
      have hne2 : (p + 1 == (CDec.additionalLength ⟨buf, hdr, p, .additional⟩).toNat) = false := by
        have := List.length_pos_iff.2 hbs
        simp; omega
      have hi : CDec.iterate ⟨buf, hdr, p, .additional⟩ (chunk.getD pos junk) =
          some (⟨buf.set p b, hdr, p + 1, .additional⟩, true) := by
        rw [g1, CDec.iterate]
        simp only [writeAt, if_pos (show p < buf.length by omega), Nat.mod_eq_of_lt hp1, hal, hne2, Bool.false_eq_true, if_false]
      rw [← Nat.add_assoc, process_step junk chunk (fuel + bs.length) _ _ pos true (Or.inl g2) hi]
      rw [if_neg (by simp)]
      simp only [if_true]
      rw [ih ⟨buf.set p b, hdr, p + 1, .additional⟩ (pos + 1) hbs rfl (by simp only [hal]; omega) (by simp only; omega)
        (by simp only [List.length_set]; omega) (by simpa using g3)]
      congr 1
      · simp only [CDec.mk.injEq, and_true]
        refine ⟨?_, by trivial, by omega⟩
        rw [take_set_succ buf p b (by omega), List.drop_set, if_pos (by omega)]
        simp [Nat.add_comm, Nat.add_left_comm]
      · omega

theorem head_fields (m v : Nat) (hm : m < 8) (hv : v < 32) :
    (UInt8.ofNat (m * 32 + v) >>> 5).toNat = m ∧ (UInt8.ofNat (m * 32 + v) &&& 0x1F).toNat = v := by
  have : ∀ m : Fin 8, ∀ v : Fin 32, (UInt8.ofNat (m.val * 32 + v.val) >>> 5).toNat = m.val ∧
      (UInt8.ofNat (m.val * 32 + v.val) &&& 0x1F).toNat = v.val := by decide +kernel
  exact this ⟨m, hm⟩ ⟨v, hv⟩

/-- From the start of an item to `HeaderDone`. -/
theorem start_run (junk : UInt8) (chunk rest : List UInt8) (d : CDec) (pos : Nat) (b : UInt8)
    (hst : d.st = .headerStart ∨ d.st = .itemDone) (hd : chunk.drop pos = b :: rest) :
    ∃ k, k ≤ 3 ∧ ∀ fuel, process junk chunk (fuel + k) d pos = process junk chunk fuel ⟨d.buf, b, d.pos, .headerDone⟩ (pos + 1) := by
  obtain ⟨g1, g2, -⟩ := getD_drop (junk := junk) hd
  obtain ⟨buf, hdr, p, st⟩ := d
  have h2 : ∀ fuel, process junk chunk (fuel + 2) ⟨buf, hdr, p, .headerStart⟩ pos = process junk chunk fuel ⟨buf, b, p, .headerDone⟩ (pos + 1) := by
    intro fuel
    rw [process_step junk chunk (fuel + 1) _ ⟨buf, hdr, p, .header⟩ pos false (Or.inl g2) (by simp [CDec.iterate])]
    rw [if_neg (by simp)]
    rw [process_step junk chunk fuel _ ⟨buf, b, p, .headerDone⟩ _ true (Or.inl (by simpa using g2)) (by simpa [CDec.iterate] using g1)]
    rw [if_neg (by simp)]
    simp
  rcases hst with h | h <;> simp only at h <;> subst h
  · exact ⟨2, by omega, h2⟩
  · refine ⟨3, by omega, fun fuel => ?_⟩
    rw [show fuel + 3 = (fuel + 2) + 1 by omega,
      process_step junk chunk (fuel + 2) _ ⟨buf, hdr, p, .headerStart⟩ pos false (Or.inl g2) (by simp [CDec.iterate])]
    rw [if_neg (by simp)]
    simpa using h2 fuel

/-- The state in which an item head ends. -/
def endState (m : Nat) : CState := if m = 0 ∨ m = 1 ∨ m = 6 ∨ m = 7 then .itemDone else .longStart

theorem isShort_iff (d : CDec) : d.isShort = true ↔ (d.type.toNat = 0 ∨ d.type.toNat = 1 ∨ d.type.toNat = 6 ∨ d.type.toNat = 7) := by
  simp only [CDec.isShort, Bool.or_eq_true, beq_iff_eq, ← UInt8.toNat_inj]
  simp [or_assoc]

theorem end_state (d : CDec) (m : Nat) (h : d.type.toNat = m) : (if d.isShort = true then CState.itemDone else .longStart) = endState m := by
  unfold endState
  by_cases hc : d.isShort = true
  · rw [if_pos hc, if_pos (h ▸ (isShort_iff d).1 hc)]
  · rw [if_neg hc, if_neg (h ▸ fun h' => hc ((isShort_iff d).2 h'))]

theorem endState_stop (m : Nat) : (endState m == .longStart || endState m == .itemDone) = true := by
  unfold endState; split <;> decide

/-- `process` on an item head with an argument of at most four bytes. -/
theorem process_head (junk : UInt8) (chunk head rest : List UInt8) (m a : Nat) (hh : CborHead head m a) (h5 : head.length ≤ 5)
    (d : CDec) (pos : Nat) (hst : d.st = .headerStart ∨ d.st = .itemDone) (hb : 4 ≤ d.buf.length)
    (hd : chunk.drop pos = head ++ rest) :
    ∃ d', d'.st = endState m ∧ d'.type.toNat = m ∧ d'.buf.length = d.buf.length ∧
      (d'.isTiny = true ∧ d'.additionalRaw.toNat = a ∧ head.length = 1 ∧ a < 24 ∨
        d'.isTiny = false ∧ beValue (d'.buf.take d'.additionalLength.toNat) = a ∧ head.length = 1 + d'.additionalLength.toNat ∧
          d'.additionalLength.toNat ≤ 4 ∧ d'.additionalLength.toNat ≤ d'.buf.length) ∧
      ∀ fuel, 11 ≤ fuel → process junk chunk fuel d pos = some (some (d', pos + head.length, false)) := by
  cases hh with
  | @tiny m a hm ha =>
    simp only [List.cons_append, List.nil_append] at hd
    obtain ⟨g1, g2, g3⟩ := getD_drop (junk := junk) hd
    obtain ⟨f1, f2⟩ := head_fields m a hm (by omega)
    obtain ⟨k, hk, hr⟩ := start_run junk chunk rest d pos _ hst hd
    have hty : (CDec.type ⟨d.buf, UInt8.ofNat (m * 32 + a), d.pos, .headerDone⟩).toNat = m := f1
    have hti : CDec.isTiny ⟨d.buf, UInt8.ofNat (m * 32 + a), d.pos, .headerDone⟩ = true := by
      simp only [CDec.isTiny, CDec.additionalRaw, decide_eq_true_eq, UInt8.lt_iff_toNat_lt, f2]; exact ha
    refine ⟨⟨d.buf, UInt8.ofNat (m * 32 + a), d.pos, endState m⟩, rfl, hty, rfl, Or.inl ⟨hti, f2, rfl, ha⟩, fun fuel hf => ?_⟩
    obtain ⟨f, rfl⟩ : ∃ f, fuel = f + 1 + k := ⟨fuel - 1 - k, by omega⟩
    rw [hr (f + 1)]
    rw [process_step junk chunk f _ ⟨d.buf, UInt8.ofNat (m * 32 + a), d.pos, endState m⟩ (pos + 1) false
      (by have : pos + 1 ≤ chunk.length := g2
          rcases Nat.lt_or_eq_of_le this with h | h
          · exact Or.inl h
          · exact Or.inr ⟨h, by simp⟩)
      (by simp only [CDec.iterate, hti, if_true, end_state _ m hty])]
    rw [if_pos (endState_stop m)]
    simp
  | @ext m i bs hm hi hl =>
    simp only [List.cons_append] at hd
    simp only [List.length_cons] at h5
    obtain ⟨g1, g2, g3⟩ := getD_drop (junk := junk) hd
    have hi2 : i < 3 := by
      by_cases h : i = 3
      · subst h; rw [hl] at h5; simp at h5
      · omega
    obtain ⟨f1, f2⟩ := head_fields m (24 + i) hm (by omega)
    rw [← Nat.add_assoc] at f1 f2
    obtain ⟨k, hk, hr⟩ := start_run junk chunk _ d pos _ hst hd
    have hraw : ∀ buf p st, CDec.additionalRaw ⟨buf, UInt8.ofNat (m * 32 + 24 + i), p, st⟩ = UInt8.ofNat (24 + i) := by
      intro buf p st
      apply UInt8.toNat_inj.1
      rw [CDec.additionalRaw]; rw [f2]; simp; omega
    have hty : ∀ buf p st, (CDec.type ⟨buf, UInt8.ofNat (m * 32 + 24 + i), p, st⟩).toNat = m := fun _ _ _ => f1
    have hti : ∀ buf p st, CDec.isTiny ⟨buf, UInt8.ofNat (m * 32 + 24 + i), p, st⟩ = false := by
      intro buf p st
      simp only [CDec.isTiny, hraw, decide_eq_false_iff_not, UInt8.lt_iff_toNat_lt]
      simp; omega
    have hal : ∀ buf p st, (CDec.additionalLength ⟨buf, UInt8.ofNat (m * 32 + 24 + i), p, st⟩).toNat = bs.length := by
      intro buf p st
      simp only [CDec.additionalLength, hraw, hl]
      have : i = 0 ∨ i = 1 ∨ i = 2 := by omega
      rcases this with rfl | rfl | rfl <;> decide
    have hne : bs ≠ [] := by
      intro h; rw [h] at hl; simp at hl
      have := Nat.two_pow_pos i; omega
    have hlen4 : bs.length ≤ 4 := by omega
    refine ⟨⟨bs ++ d.buf.drop bs.length, UInt8.ofNat (m * 32 + 24 + i), bs.length, endState m⟩, rfl, hty _ _ _, ?_, ?_, ?_⟩
    · simp; omega
    · refine Or.inr ⟨hti _ _ _, ?_, ?_, ?_, ?_⟩
      · rw [hal]; simp
      · rw [hal]; simp; omega
      · rw [hal]; omega
      · rw [hal]; simp
    · intro fuel hf
      obtain ⟨f, rfl⟩ : ∃ f, fuel = f + 1 + bs.length + 1 + 1 + k := ⟨fuel - 1 - bs.length - 1 - 1 - k, by omega⟩
      rw [hr]
      have hpos1 : pos + 1 < chunk.length := by
        have := congrArg List.length g3
        simp only [List.length_drop, List.length_append] at this
        have := List.length_pos_iff.2 hne
        omega
      rw [process_step junk chunk _ _ ⟨d.buf, UInt8.ofNat (m * 32 + 24 + i), d.pos, .additionalStart⟩ (pos + 1) false
        (Or.inl hpos1) (by simp only [CDec.iterate, hti, Bool.false_eq_true, if_false])]
      rw [if_neg (by simp)]
      simp only [Bool.false_eq_true, if_false]
      rw [process_step junk chunk _ _ ⟨d.buf, UInt8.ofNat (m * 32 + 24 + i), 0, .additional⟩ (pos + 1) false
        (Or.inl hpos1) (by simp only [CDec.iterate])]
      rw [if_neg (by simp)]
      simp only [Bool.false_eq_true, if_false]
      rw [additional_run junk chunk bs rest _ (pos + 1) hne rfl (by rw [hal]; simp) (by simp only; omega) (by simp only; omega) g3]
      simp only [List.take_zero, List.nil_append, Nat.zero_add]
      have hle : pos + 1 + bs.length ≤ chunk.length := by
        have := congrArg List.length g3
        simp only [List.length_drop, List.length_append] at this
        omega
      rw [process_step junk chunk f _ ⟨bs ++ d.buf.drop bs.length, UInt8.ofNat (m * 32 + 24 + i), bs.length, endState m⟩
        (pos + 1 + bs.length) false
        (by rcases Nat.lt_or_eq_of_le hle with h | h
            · exact Or.inl h
            · exact Or.inr ⟨h, by simp⟩)
        (by simp only [CDec.iterate, end_state _ m (hty _ _ _)])]
      rw [if_pos (endState_stop m)]
      simp only [Bool.false_eq_true, if_false, List.length_cons]
      rw [show pos + 1 + bs.length = pos + (bs.length + 1) by omega]

end Verif.Proofs.Cbor
