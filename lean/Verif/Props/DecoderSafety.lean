import Verif.Proofs.DecoderSafety

/-! # Decoder memory safety (C14) -/
namespace Verif.Props
open Verif.Model Verif.Proofs Header Dec

/-- Everything a caller can do with one decoder: start with arbitrary garbage in the uninitialised
members, step any number of times, move on to another buffer of the same message at any time (only
the last buffer of a message is flagged), and start another message once the decoder reported
completion. -/
inductive Reach : Dec → Ctx → Prop
  | init (junk : Dec) (chunk : List UInt8) (last : Bool) :
      junk.tbuf.length = 8 → Reach (fresh junk) ⟨chunk, 0, last⟩
  | step {d c d' c' evs} : Reach d c → d.stepNotify c = .ok (d', c', evs) → Reach d' c'
  | nextChunk {d c} (chunk : List UInt8) (last : Bool) :
      Reach d c → c.last = false → Reach d ⟨chunk, 0, last⟩
  | nextMessage {d c} (chunk : List UInt8) (last : Bool) :
      Reach d c → d.st = .done → Reach d ⟨chunk, 0, last⟩

theorem reach_inv {d : Dec} {c : Ctx} (h : Reach d c) : DInv d c := by
  induction h with
  | init junk chunk last hj =>
    exact ⟨by simp, hj, by simp [fresh], by simp [fresh], by simp [fresh], by simp [fresh],
      by simp [fresh], by simp [fresh]⟩
  | step _ e ih =>
    rename_i d c d' c' evs _
    rcases stepNotify_inv d c ih with ⟨e', _⟩ | ⟨d2, c2, evs2, e', hi, _⟩
    · rw [e'] at e; cases e
    · rw [e'] at e; cases e; exact hi
  | nextChunk chunk last _ hl ih =>
    refine ⟨by simp, ih.tbuf, ih.header, ih.tokenStart, ih.token, ih.tokenDone, ih.options, ?_⟩
    intro hs
    rcases ih.optionsDone hs with h | ⟨h, _⟩
    · exact Or.inl h
    · rw [hl] at h; cases h
  | nextMessage chunk last _ hd ih =>
    exact ⟨by simp, ih.tbuf, by simp [hd], by simp [hd], by simp [hd], by simp [hd], by simp [hd],
      by simp [hd]⟩

/-- C14 (partial: a token length field of 9..15 is the one exception): whatever bytes arrive, however
they are split and however many steps are made, the decoder never accesses memory outside its buffers
and never loops, except that a header announcing more than 8 token bytes overflows the token buffer. -/
theorem decoder_memory_safe_partial {d : Dec} {c : Ctx} (h : Reach d c) :
    (∃ d' c' evs, d.stepNotify c = .ok (d', c', evs) ∧ c'.pos ≤ c.chunk.length) ∨
    (d.stepNotify c = .error .tokenOverflow ∧ d.st = .token ∧ 8 < d.hdr.tokenLength.toNat) := by
  rcases stepNotify_inv d c (reach_inv h) with hf | ⟨d', c', evs, e, hi, hc, _⟩
  · exact Or.inr hf
  · exact Or.inl ⟨d', c', evs, e, hc ▸ hi.pos⟩

/-- C14: with a legal token length there is no fault at all. -/
theorem decoder_memory_safe_legal_token {d : Dec} {c : Ctx} (h : Reach d c)
    (ht : d.hdr.tokenLength.toNat ≤ 8) : ∃ d' c' evs, d.stepNotify c = .ok (d', c', evs) := by
  rcases decoder_memory_safe_partial h with ⟨d', c', evs, e, _⟩ | ⟨_, _, h8⟩
  · exact ⟨d', c', evs, e⟩
  · omega

theorem tokenLoop_overflow_iff (r : List UInt8) : ∀ (d : Dec) (n : Nat), d.tbuf.length = 8 → 8 < d.hdr.tokenLength.toNat →
    d.tpos.toNat ≤ 8 → ((∃ e, tokenLoop d r n = .error e) ↔ 8 < d.tpos.toNat + r.length) := by
  induction r with
  | nil => intro d n hb ht hp; simp [tokenLoop]; omega
  | cons b bs ih =>
    intro d n hb ht hp
    by_cases h8 : d.tpos.toNat = 8
    · have : writeAt d.tbuf d.tpos.toNat b = none := by simp [writeAt, hb, h8]
      simp only [tokenLoop, this, List.length_cons]
      exact ⟨fun _ => by omega, fun _ => ⟨_, rfl⟩⟩
    · have hw : writeAt d.tbuf d.tpos.toNat b = some (d.tbuf.set d.tpos.toNat b) := by
        simp [writeAt, hb]; omega
      have hadd : (d.tpos + 1).toNat = d.tpos.toNat + 1 := by
        rw [UInt8.toNat_add]; simp; omega
      have hnot : ¬(d.tpos + 1 ≥ d.hdr.tokenLength) := by
        rw [ge_iff_le, UInt8.le_iff_toNat_le, hadd]; omega
      simp only [tokenLoop, hw, if_neg hnot]
      refine (ih { d with tbuf := d.tbuf.set d.tpos.toNat b, tpos := d.tpos + 1, opt := { d.opt with st := .garbage } } (n + 1)
        (by simpa using hb) ht (by simp only [hadd]; omega)).trans ?_
      simp only [hadd, List.length_cons]
      omega

/-- C14, exactly: in any reachable state the next step touches memory outside just when a token of more than eight bytes was
announced and the bytes at hand bring those received to more than eight. -/
theorem decoder_fault_iff {d : Dec} {c : Ctx} (h : Reach d c) :
    (∃ e, d.stepNotify c = .error e) ↔
      d.st = .token ∧ 8 < d.hdr.tokenLength.toNat ∧ 8 < d.tpos.toNat + c.remainder.length := by
  have hi := reach_inv h
  constructor
  · rintro ⟨e, he⟩
    rcases decoder_memory_safe_partial h with ⟨d', c', evs, h1, -⟩ | ⟨-, hs, ht⟩
    · rw [he] at h1; cases h1
    · refine ⟨hs, ht, (tokenLoop_overflow_iff _ d 0 hi.tbuf ht (hi.token hs).2).1 ?_⟩
      cases hl : tokenLoop d c.remainder 0 with
      | error e => exact ⟨e, rfl⟩
      | ok x =>
        obtain ⟨d1, k, dn⟩ := x
        rcases tokenLoop_ok d c.remainder 0 hi.tbuf (hi.token hs).1 (hi.token hs).2 with ⟨h1, -⟩ | ⟨d2, k2, dn2, h1, -, -, -, -, h2⟩
        · rw [hl] at h1; cases h1
        · rw [hl] at h1
          simp only [Except.ok.injEq, Prod.mk.injEq] at h1
          obtain ⟨-, -, rfl⟩ := h1
          cases dn with
          | true => exact absurd (h2 rfl) (by omega)
          | false =>
            have : d.stepNotify c = .ok ({ d1 with st := .token }, { c with pos := c.pos + k }, []) := by
              simp [stepNotify, Dec.step, hs, hl, notify]
            rw [he] at this; cases this
  · rintro ⟨hs, ht, hl⟩
    obtain ⟨e, he⟩ := (tokenLoop_overflow_iff c.remainder d 0 hi.tbuf ht (hi.token hs).2).2 hl
    exact ⟨e, by simp [stepNotify, Dec.step, hs, he]⟩

/-- Steps until the first fault, for a single buffer. -/
def stepsFault : Nat → Dec → Ctx → Option Fault
  | 0, _, _ => none
  | n + 1, d, c =>
    match d.stepNotify c with
    | .error e => some e
    | .ok (d, c, _) => stepsFault n d c

/-- C14 is false as stated: every message announcing 9..15 token bytes and carrying at least 9 of them
overflows the token buffer, for all bytes and all decoder garbage. -/
theorem decoder_token_overflow (junk : Dec) (hj : junk.tbuf.length = 8) (b0 b1 b2 b3 : UInt8)
    (ht : 8 < (b0 &&& 0x0F).toNat) (tok rest : List UInt8) (htok : tok.length = 9) (last : Bool) :
    stepsFault 5 (fresh junk) ⟨[b0, b1, b2, b3] ++ tok ++ rest, 0, last⟩ = some .tokenOverflow := by
  match tok, htok with
  | [t0, t1, t2, t3, t4, t5, t6, t7, t8], _ =>
    have h15 : (b0 &&& 0x0F).toNat ≤ 15 := by rw [tkl_toNat]; omega
    have hgt : (0 : UInt8) < b0 &&& 15 := by rw [UInt8.lt_iff_toNat_lt]; simp at ht ⊢; omega
    have hlt : ∀ k : UInt8, k.toNat ≤ 8 → ¬ (b0 &&& 15 ≤ k) := by
      intro k hk hle; rw [UInt8.le_iff_toNat_le] at hle; simp at ht hle; omega
    simp [stepsFault, stepNotify, Dec.step, notify, fresh, Ctx.remainder, headerLoop, writeHeader,
      tokenLoop, writeAt, hj, tokenLength, hgt, hlt]

example : stepsFault 5 Dec.zero ⟨[0x49, 1, 0, 1, 1, 2, 3, 4, 5, 6, 7, 8, 9], 0, true⟩
    = some .tokenOverflow := by decide +kernel

/-- The convenience loop stays within the reachable states. -/
theorem reach_process {fuel : Nat} {d : Dec} {c : Ctx} (h : Reach d c) {d' : Dec} {c' : Ctx}
    {evs : List Event} (e : Dec.process fuel d c = .ok (d', c', evs)) : Reach d' c' := by
  induction fuel generalizing d c evs with
  | zero => simp [Dec.process] at e
  | succ n ih =>
    simp only [Dec.process] at e
    cases hs : d.stepNotify c with
    | error x => simp [hs] at e
    | ok r =>
      obtain ⟨d1, c1, e1⟩ := r
      simp only [hs] at e
      by_cases ha : atEnd c1 = true
      · rw [if_pos ha] at e; cases e; exact Reach.step h hs
      · rw [if_neg ha] at e
        cases hp : Dec.process n d1 c1 with
        | error x => simp [hp] at e
        | ok r => obtain ⟨d2, c2, e2⟩ := r; simp only [hp] at e; cases e; exact ih (Reach.step h hs) hp

-- a reachable state in the middle of an extended option header split over two buffers
example : ∃ d c, Reach d c ∧ d.st = .options ∧ d.opt.st = .optionDelta ∧ c.chunk = [0x01, 0x02] :=
  ⟨_, _, Reach.nextChunk [0x01, 0x02] true (reach_process (fuel := 9)
    (Reach.init Dec.zero [0x40, 1, 0, 1, 0xEE] false (by decide)) (by rfl)) rfl, by decide, by decide, rfl⟩

end Verif.Props
