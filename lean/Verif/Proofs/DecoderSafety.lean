import Verif.Model.Decoder
import Verif.Proofs.OptionDecoder

/-! # Safety invariant of the decoder -/
namespace Verif.Proofs
open Verif.Model Header Dec

/-- Safety invariant of decoder and context. -/
structure DInv (d : Dec) (c : Ctx) : Prop where
  pos : c.pos ≤ c.chunk.length
  tbuf : d.tbuf.length = 8
  header : d.st = .header → d.hpos.toNat < 4
  tokenStart : d.st = .tokenStart → 0 < d.hdr.tokenLength.toNat
  token : d.st = .token → d.tpos.toNat < d.hdr.tokenLength.toNat ∧ d.tpos.toNat ≤ 8
  tokenDone : d.st = .tokenDone → d.hdr.tokenLength.toNat ≤ 8
  options : d.st = .options → OInv d.opt
  optionsDone : d.st = .optionsDone → d.opt.st = .payload ∨ (c.last = true ∧ c.pos = c.chunk.length)

theorem headerLoop_ok (d : Dec) (r : List UInt8) (n : Nat) (hp : d.hpos.toNat < 4) :
    ∃ d' k done, headerLoop d r n = .ok (d', n + k, done) ∧ k ≤ r.length ∧
      (done = false → d'.hpos.toNat < 4 ∧ k = r.length) ∧
      d'.tbuf = d.tbuf ∧ d'.st = d.st ∧ d'.opt = d.opt := by
  induction r generalizing d n with
  | nil => exact ⟨d, 0, false, rfl, by simp, by simp [hp], rfl, rfl, rfl⟩
  | cons b bs ih =>
    obtain ⟨hdr, hw⟩ : ∃ hdr, writeHeader d.hdr d.hpos b = .ok hdr := by
      unfold writeHeader
      have : d.hpos = 0 ∨ d.hpos = 1 ∨ d.hpos = 2 ∨ d.hpos = 3 := by
        simp only [← UInt8.toNat_inj]; simp; omega
      rcases this with h | h | h | h <;> simp [h]
    simp only [headerLoop, hw]
    split
    · exact ⟨_, 1, true, rfl, by simp, by simp, rfl, rfl, rfl⟩
    · rename_i hlt
      obtain ⟨d', k, dn, e, hk, hd, h1, h2, h3⟩ :=
        ih { d with hdr := hdr, hpos := d.hpos + 1 } (n + 1)
          (by simp only [ge_iff_le, UInt8.le_iff_toNat_le] at hlt; simpa using hlt)
      refine ⟨d', k + 1, dn, ?_, by simp; omega, ?_, h1, h2, h3⟩
      · rw [e]; congr 3; omega
      · intro hf; have := hd hf; simp; omega

theorem tokenLoop_ok (d : Dec) (r : List UInt8) (n : Nat) (hb : d.tbuf.length = 8)
    (hp : d.tpos.toNat < d.hdr.tokenLength.toNat) (hp8 : d.tpos.toNat ≤ 8) :
    (tokenLoop d r n = .error .tokenOverflow ∧ 8 < d.hdr.tokenLength.toNat) ∨
    ∃ d' k done, tokenLoop d r n = .ok (d', n + k, done) ∧ k ≤ r.length ∧ d'.tbuf.length = 8 ∧
      d'.hdr = d.hdr ∧ (done = false → d'.tpos.toNat < d.hdr.tokenLength.toNat ∧ d'.tpos.toNat ≤ 8) ∧
      (done = true → d.hdr.tokenLength.toNat ≤ 8) := by
  induction r generalizing d n with
  | nil => exact Or.inr ⟨d, 0, false, rfl, by simp, hb, rfl, by simp [hp, hp8], by simp⟩
  | cons b bs ih =>
    by_cases h8 : d.tpos.toNat < 8
    · have hw : writeAt d.tbuf d.tpos.toNat b = some (d.tbuf.set d.tpos.toNat b) := by
        simp [writeAt, hb, h8]
      have hadd : (d.tpos + 1).toNat = d.tpos.toNat + 1 := by
        rw [UInt8.toNat_add]; simp; omega
      simp only [tokenLoop, hw]
      split
      · rename_i hge
        rw [ge_iff_le, UInt8.le_iff_toNat_le, hadd] at hge
        exact Or.inr ⟨_, 1, true, rfl, by simp, by simp [hb], rfl, by simp, fun _ => by omega⟩
      · rename_i hlt
        rw [ge_iff_le, UInt8.le_iff_toNat_le, hadd] at hlt
        have := ih { d with tbuf := d.tbuf.set d.tpos.toNat b, tpos := d.tpos + 1,
                            opt := { d.opt with st := .garbage } } (n + 1)
          (by simp [hb]) (by simp only [hadd]; omega) (by simp only [hadd]; omega)
        rcases this with h | ⟨d', k, dn, e, hk, hl, hh, h1, h2⟩
        · exact Or.inl h
        · refine Or.inr ⟨d', k + 1, dn, ?_, by simp; omega, hl, hh, h1, h2⟩
          rw [e]; congr 3; omega
    · left
      have hw : writeAt d.tbuf d.tpos.toNat b = none := by simp [writeAt, hb]; omega
      simp only [tokenLoop, hw]
      exact ⟨trivial, by omega⟩

/-- One step either preserves the invariant or overflows the token buffer on an illegal token length. -/
theorem step_inv (d : Dec) (c : Ctx) (hi : DInv d c) :
    (d.step c = .error .tokenOverflow ∧ d.st = .token ∧ 8 < d.hdr.tokenLength.toNat) ∨
    ∃ d' c', d.step c = .ok (d', c') ∧ DInv d' c' ∧ c'.chunk = c.chunk ∧ c'.last = c.last ∧
      c.pos ≤ c'.pos := by
  have hpos := hi.pos
  have hrem : c.remainder.length = c.chunk.length - c.pos := by simp [Ctx.remainder]
  cases hs : d.st
  case uninitialized =>
    right; simp only [step, hs]
    exact ⟨_, _, rfl, ⟨hpos, hi.tbuf, by simp, by simp, by simp, by simp, by simp, by simp⟩, rfl, rfl,
      Nat.le_refl _⟩
  case header =>
    right
    obtain ⟨d', k, dn, e, hk, hd, h1, h2, _⟩ := headerLoop_ok d c.remainder 0 (hi.header hs)
    simp only [step, hs, e]
    refine ⟨_, _, rfl, ⟨?_, ?_, ?_, ?_, ?_, ?_, ?_, ?_⟩, rfl, rfl, ?_⟩
    · simp; omega
    · simpa [h1] using hi.tbuf
    · cases dn
      · simpa using (hd rfl).1
      · simp
    all_goals cases dn <;> simp
  case headerDone =>
    right; simp only [step, hs]
    split
    · rename_i hgt
      rw [gt_iff_lt, UInt8.lt_iff_toNat_lt] at hgt
      exact ⟨_, _, rfl, ⟨hpos, hi.tbuf, by simp, by simpa using hgt, by simp, by simp, by simp, by simp⟩, rfl,
        rfl, Nat.le_refl _⟩
    · rename_i hle
      rw [gt_iff_lt, UInt8.lt_iff_toNat_lt] at hle
      have : d.hdr.tokenLength.toNat = 0 := by simpa using hle
      exact ⟨_, _, rfl, ⟨hpos, hi.tbuf, by simp, by simp, by simp, by simp [this], by simp, by simp⟩, rfl,
        rfl, Nat.le_refl _⟩
  case tokenStart =>
    right; simp only [step, hs]
    have := hi.tokenStart hs
    exact ⟨_, _, rfl, ⟨hpos, hi.tbuf, by simp, by simp, by simpa using this, by simp, by simp, by simp⟩, rfl, rfl,
      Nat.le_refl _⟩
  case token =>
    have ht := hi.token hs
    rcases tokenLoop_ok d c.remainder 0 hi.tbuf ht.1 ht.2 with ⟨e, h8⟩ | ⟨d', k, dn, e, hk, hl, hh, h1, h2⟩
    · left; simp only [step, hs, e]; exact ⟨trivial, trivial, h8⟩
    · right; simp only [step, hs, e]
      refine ⟨_, _, rfl, ⟨?_, ?_, ?_, ?_, ?_, ?_, ?_, ?_⟩, rfl, rfl, ?_⟩
      · simp; omega
      · exact hl
      · cases dn <;> simp
      · cases dn <;> simp
      · cases dn
        · simpa [hh] using h1 rfl
        · simp
      · cases dn
        · simp
        · simpa [hh] using h2 rfl
      all_goals cases dn <;> simp
  case tokenDone =>
    right; simp only [step, hs]
    exact ⟨_, _, rfl, ⟨hpos, hi.tbuf, by simp, by simp, by simp, by simp, by simp, by simp⟩, rfl, rfl,
      Nat.le_refl _⟩
  case optionsStart =>
    right; simp only [step, hs]
    split
    · rename_i hc
      simp only [hrem, Bool.and_eq_true, beq_iff_eq] at hc
      exact ⟨_, _, rfl, ⟨hpos, hi.tbuf, by simp, by simp, by simp, by simp, by simp,
        fun _ => Or.inr ⟨hc.2, by omega⟩⟩, rfl, rfl, Nat.le_refl _⟩
    · obtain ⟨o', h', k, e, ho, hk⟩ := process_ok { d.opt with st := .firstByte } ⟨0, 0⟩ c.remainder c.last
        (by simp [OInv])
      rw [e]
      refine ⟨_, _, rfl, ⟨by simp; omega, hi.tbuf, ?_, ?_, ?_, ?_, ?_, ?_⟩, rfl, rfl, by simp⟩
      all_goals
        by_cases hp : o'.st = .payload <;> simp [hp, ho]
  case options =>
    right; simp only [step, hs]
    obtain ⟨o', h', k, e, ho, hk⟩ := process_ok d.opt d.holder c.remainder c.last (hi.options hs)
    rw [e]
    simp only []
    split
    · rename_i hp
      exact ⟨_, _, rfl, ⟨by simp; omega, hi.tbuf, by simp, by simp, by simp, by simp, by simp,
        fun _ => Or.inl (by simpa using hp)⟩, rfl, rfl, by simp⟩
    · split
      · rename_i hc
        simp only [Bool.and_eq_true, beq_iff_eq] at hc
        refine ⟨_, _, rfl, ⟨by simp; omega, hi.tbuf, ?_, ?_, ?_, ?_, ?_, ?_⟩, rfl, rfl, by simp⟩
        all_goals
          by_cases hp : o'.st = .optionValueDone <;> simp [hp, ho, hc]
      · exact ⟨_, _, rfl, ⟨by simp; omega, hi.tbuf, by simp, by simp, by simp, by simp,
          fun _ => ho, by simp⟩, rfl, rfl, by simp⟩
  case optionsDone =>
    right; simp only [step, hs]
    split
    · exact ⟨_, _, rfl, ⟨hpos, hi.tbuf, by simp, by simp, by simp, by simp, by simp, by simp⟩, rfl, rfl,
        Nat.le_refl _⟩
    · rename_i hp
      have := hi.optionsDone hs
      rcases this with h | ⟨hl, he⟩
      · simp [h] at hp
      · rw [if_pos (by simp [hl, he])]
        exact ⟨_, _, rfl, ⟨hpos, hi.tbuf, by simp, by simp, by simp, by simp, by simp, by simp⟩, rfl, rfl,
          Nat.le_refl _⟩
  case payload =>
    right; simp only [step, hs]
    refine ⟨_, _, rfl, ⟨by simp, hi.tbuf, ?_, ?_, ?_, ?_, ?_, ?_⟩, rfl, rfl, hpos⟩
    all_goals cases c.last <;> simp
  case payloadDone =>
    right; simp only [step, hs]
    exact ⟨_, _, rfl, ⟨hpos, hi.tbuf, by simp, by simp, by simp, by simp, by simp, by simp⟩, rfl, rfl,
      Nat.le_refl _⟩
  case done =>
    right; simp only [step, hs]
    exact ⟨_, _, rfl, ⟨hpos, hi.tbuf, by simp, by simp, by simp, by simp, by simp, by simp⟩, rfl, rfl,
      Nat.le_refl _⟩

theorem notify_ok (d : Dec) (c : Ctx) (hi : DInv d c) : ∃ evs, d.notify c = .ok evs := by
  cases hs : d.st <;> simp only [notify, hs]
  case tokenDone =>
    rw [if_pos (by have := hi.tokenDone hs; have := hi.tbuf; omega)]; exact ⟨_, rfl⟩
  case options => split <;> (try split) <;> exact ⟨_, rfl⟩
  all_goals exact ⟨_, rfl⟩

theorem stepNotify_inv (d : Dec) (c : Ctx) (hi : DInv d c) :
    (d.stepNotify c = .error .tokenOverflow ∧ d.st = .token ∧ 8 < d.hdr.tokenLength.toNat) ∨
    ∃ d' c' evs, d.stepNotify c = .ok (d', c', evs) ∧ DInv d' c' ∧ c'.chunk = c.chunk ∧ c'.last = c.last ∧
      c.pos ≤ c'.pos := by
  rcases step_inv d c hi with ⟨e, h⟩ | ⟨d', c', e, hi', h⟩
  · left; simp only [stepNotify, e]; exact ⟨trivial, h⟩
  · right
    obtain ⟨evs, hn⟩ := notify_ok d' c' hi'
    exact ⟨d', c', evs, by simp only [stepNotify, e, hn], hi', h⟩

end Verif.Proofs
