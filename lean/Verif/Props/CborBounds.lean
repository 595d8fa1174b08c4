import Verif.Props.CborWalk

/-! # C41: exactly which heads make the CBOR decoder write outside its buffer -/
namespace Verif.Props
open Verif.Model Verif.Model.Cbor Verif.Proofs

/-- What is known in a call that began at `p0`, where the byte `b` is: where the decoder stands, and how much of the argument it has. -/
def CallOk (p0 : Nat) (b : UInt8) (d : CDec) (pos : Nat) : Prop :=
  d.buf.length = 4 ∧
  match d.st with
  | .headerStart | .header | .itemDone => pos = p0
  | .headerDone => pos = p0 + 1 ∧ d.hdr = b
  | .additionalStart => pos = p0 + 1 ∧ d.hdr = b ∧ d.isTiny = false
  | .additional => pos = p0 + 1 + d.pos ∧ d.hdr = b ∧ d.isTiny = false ∧ (b.toNat % 32 < 27 → d.pos < d.additionalLength.toNat)
  | _ => True

theorem call_step (p0 : Nat) (j : UInt8) (chunk : List UInt8) (hs : ¬(27 ≤ (chunk.getD p0 j).toNat % 32 ∧ p0 + 5 ≤ chunk.length))
    (d : CDec) (pos : Nat) (hp : pos ≤ chunk.length) (h : CallOk p0 (chunk.getD p0 j) d pos) :
    ∃ d' adv, d.iterate (chunk.getD pos j) = some (d', adv) ∧
      ((d'.st = .longStart ∨ d'.st = .itemDone) ∧ d'.buf.length = 4 ∨
        (d'.st ≠ .longStart ∧ d'.st ≠ .itemDone) ∧ CallOk p0 (chunk.getD p0 j) d' (if adv then pos + 1 else pos)) := by
  generalize hb : chunk.getD p0 j = b at hs h
  obtain ⟨buf, hdr, p, st⟩ := d
  obtain ⟨h1, h2⟩ := h
  simp only at h1 h2
  cases st
  case headerStart => exact ⟨_, _, rfl, Or.inr ⟨by simp, h1, h2⟩⟩
  case header =>
    refine ⟨_, _, rfl, Or.inr ⟨by simp, h1, ?_⟩⟩
    simp only at h2 ⊢
    subst h2
    exact ⟨rfl, hb⟩
  case headerDone =>
    simp only at h2
    cases ht : CDec.isTiny ⟨buf, hdr, p, .headerDone⟩ with
    | true =>
      refine ⟨⟨buf, hdr, p, if CDec.isShort ⟨buf, hdr, p, .headerDone⟩ then .itemDone else .longStart⟩, false,
        by simp [CDec.iterate, ht], Or.inl ⟨?_, h1⟩⟩
      simp only
      split <;> simp
    | false => exact ⟨⟨buf, hdr, p, .additionalStart⟩, false, by simp [CDec.iterate, ht], Or.inr ⟨by simp, h1, h2.1, h2.2, ht⟩⟩
  case additionalStart =>
    simp only at h2
    obtain ⟨e1, e2, ht⟩ := h2
    refine ⟨⟨buf, hdr, 0, .additional⟩, false, rfl, Or.inr ⟨by simp, h1, by simpa using e1, e2, ht, fun h27 => ?_⟩⟩
    have hx := forall_u8 (p := fun x => x.toNat % 32 < 27 → ¬((x &&& 0x1F) < 24) → 0 < ((1 : UInt8) <<< ((x &&& 0x1F) - 24)).toNat)
      (by decide +kernel) hdr
    rw [← e2] at h27
    exact hx h27 (of_decide_eq_false ht)
  case additional =>
    simp only [CDec.additionalLength, CDec.additionalRaw, CDec.isTiny] at h2
    obtain ⟨e1, e2, e3, e4⟩ := h2
    have hx := forall_u8 (p := fun x => x.toNat % 32 < 27 → ¬((x &&& 0x1F) < 24) → ((1 : UInt8) <<< ((x &&& 0x1F) - 24)).toNat ≤ 4)
      (by decide +kernel) hdr
    have hlt : p < 4 := by
      by_cases h27 : b.toNat % 32 < 27
      · have := hx (by rw [e2]; exact h27) (of_decide_eq_false e3)
        have := e4 h27
        omega
      · have : ¬(p0 + 5 ≤ chunk.length) := fun hh => hs ⟨by omega, hh⟩
        omega
    have hm : (p + 1) % 8 = p + 1 := Nat.mod_eq_of_lt (by omega)
    refine ⟨⟨buf.set p (chunk.getD pos j), hdr, p + 1, if p + 1 = ((1 : UInt8) <<< ((hdr &&& 0x1F) - 24)).toNat then .additionalDone else .additional⟩,
      true, by simp [CDec.iterate, writeAt, h1, hlt, hm, CDec.additionalLength, CDec.additionalRaw], Or.inr ?_⟩
    by_cases he : p + 1 = ((1 : UInt8) <<< ((hdr &&& 0x1F) - 24)).toNat
    · simp only [if_pos he]
      exact ⟨by simp, by simpa using h1, trivial⟩
    · simp only [if_neg he]
      refine ⟨by simp, by simpa using h1, ?_⟩
      simp only [CDec.additionalLength, CDec.additionalRaw, CDec.isTiny, if_true]
      exact ⟨by omega, e2, e3, fun h27 => by have := e4 h27; omega⟩
  case additionalDone =>
    refine ⟨⟨buf, hdr, p, if CDec.isShort ⟨buf, hdr, p, .additionalDone⟩ then .itemDone else .longStart⟩, false, rfl, Or.inl ⟨?_, h1⟩⟩
    simp only
    split <;> simp
  case longStart => exact ⟨_, _, rfl, Or.inl ⟨Or.inl rfl, h1⟩⟩
  case long => exact ⟨_, _, rfl, Or.inr ⟨by simp, h1, trivial⟩⟩
  case longDone => exact ⟨_, _, rfl, Or.inr ⟨by simp, h1, trivial⟩⟩
  case itemDone => exact ⟨_, _, rfl, Or.inr ⟨by simp, h1, h2⟩⟩

theorem call_in_bounds (p0 : Nat) (j : UInt8) (chunk : List UInt8) (hs : ¬(27 ≤ (chunk.getD p0 j).toNat % 32 ∧ p0 + 5 ≤ chunk.length))
    (fuel : Nat) : ∀ (d : CDec) (pos : Nat), CallOk p0 (chunk.getD p0 j) d pos →
    ∃ r, process j chunk fuel d pos = some r ∧ ∀ d' pos' eof, r = some (d', pos', eof) → d'.buf.length = 4 := by
  induction fuel with
  | zero => intro d pos _; exact ⟨_, rfl, by simp⟩
  | succ n ih =>
    intro d pos h
    rw [process]
    split
    · rename_i hc
      have hp : pos ≤ chunk.length := by
        simp only [Bool.or_eq_true, Bool.and_eq_true, decide_eq_true_eq, beq_iff_eq] at hc
        omega
      obtain ⟨d', adv, e, hh⟩ := call_step p0 j chunk hs d pos hp h
      simp only [e]
      rcases hh with ⟨h1, h2⟩ | ⟨h1, h2⟩
      · rw [if_pos (by simpa using h1)]
        exact ⟨_, rfl, by intro a b c hh; cases hh; exact h2⟩
      · rw [if_neg (by simpa using h1)]
        exact ih _ _ h2
    · exact ⟨_, rfl, by intro a b c hh; cases hh; exact h.1⟩

/-- C41, exactly: a call of the streaming decoder at the start of an item, at any place in any bytes, writes outside its buffer if and only if
the byte there announces an argument of eight bytes or is reserved (its low five bits are 27 or more) and at least four more bytes
follow.  Otherwise the decoder keeps its buffer, so that the statement applies to the next call. -/
theorem cbor_overflow_iff (j : UInt8) (chunk : List UInt8) (d : CDec) (pos : Nat) (hst : d.st = .headerStart ∨ d.st = .itemDone)
    (hl : d.buf.length = 4) :
    ((∃ fuel, process j chunk fuel d pos = none) ↔ 27 ≤ (chunk.getD pos j).toNat % 32 ∧ pos + 5 ≤ chunk.length) ∧
    ∀ fuel d' pos' eof, process j chunk fuel d pos = some (some (d', pos', eof)) →
      ¬(27 ≤ (chunk.getD pos j).toNat % 32 ∧ pos + 5 ≤ chunk.length) → d'.buf.length = 4 := by
  have hok : CallOk pos (chunk.getD pos j) d pos := by
    refine ⟨hl, ?_⟩
    rcases hst with h | h <;> rw [h]
  refine ⟨⟨fun ⟨fuel, hf⟩ => ?_, fun ⟨h27, h5⟩ => ⟨10, ?_⟩⟩, fun fuel d' pos' eof e hs => ?_⟩
  · apply Decidable.byContradiction
    intro hs
    obtain ⟨r, e, -⟩ := call_in_bounds pos j chunk hs fuel d pos hok
    rw [hf] at e
    exact absurd e (by simp)
  · have hlt : pos < chunk.length := by omega
    have hg : chunk.getD pos j = chunk[pos] := by
      rw [List.getD_eq_getElem?_getD, List.getElem?_eq_getElem hlt]; rfl
    rw [hg] at h27
    have hsplit : chunk = chunk.take pos ++ chunk[pos] :: chunk.drop (pos + 1) := by
      rw [List.getElem_cons_drop hlt, List.take_append_drop]
    have hlen : (chunk.take pos).length = pos := by rw [List.length_take]; omega
    have := process_overflow j (chunk.take pos) (chunk.drop (pos + 1)) chunk[pos] h27 (by rw [List.length_drop]; omega) d hst hl
    rw [← hsplit, hlen] at this
    exact this
  · obtain ⟨r, e', hr⟩ := call_in_bounds pos j chunk hs fuel d pos hok
    rw [e] at e'
    exact hr d' pos' eof (Option.some.inj e').symm

example : CDec.fresh ⟨[1, 2, 3, 4], 9, 7, .long⟩ = ⟨[1, 2, 3, 4], 9, 7, .headerStart⟩ := rfl
example : 27 ≤ (([0x01, 0x3B, 1, 2, 3, 4] : List UInt8).getD 1 0).toNat % 32 := by decide
example : process 0 [0x01, 0x3B, 1, 2, 3, 4] 11 ⟨[0, 0, 0, 0], 0, 0, .headerStart⟩ 1 = none := by decide +kernel
example : process 0 [0x01, 0x3B, 1, 2, 3] 11 ⟨[0, 0, 0, 0], 0, 0, .headerStart⟩ 1 =
    some (some (⟨[1, 2, 3, 0], 0x3B, 4, .additional⟩, 6, true)) := by decide +kernel

end Verif.Props
