import Verif.Proofs.DecoderEof
import Verif.Props.DecoderSafety

/-! # Termination of decoding on the last buffer (C15), the convenience loop (C19) -/
namespace Verif.Props
open Verif.Model Verif.Proofs Header Dec

/-- General form: from any reachable state past header and token, stepping over the last buffer
completes. -/
theorem completes_past_token {d : Dec} {c : Ctx} (hi : DInv d c) (hl : c.last = true) (hp : PastTok d)
    (hlive : OptLive d) (ht : d.hdr.tokenLength.toNat ≤ 8) :
    ∃ N d' c' evs, N ≤ 11 * c.remainder.length + 65561 ∧ d'.st = .done ∧
      ∀ f, processToDone (N + f) d c = .ok (d', c', evs) := by
  by_cases hr : c.remainder = []
  · have hc : AtEof c := ⟨hl, remainder_nil hi.pos hr⟩
    obtain ⟨k, e, hk, d', hd', hf⟩ := finish_any hi hc hp hlive
    exact ⟨k, d', c, e, by omega, hd', hf⟩
  · by_cases hg : Going d
    · have hh : HOK d c.remainder := by
        rcases hp with h | h | h | h | h | h | ⟨h, -⟩ <;> simp [HOK, h, ht]
      obtain ⟨n, hn, hrun, hinv⟩ := chunk_feed d c hi hh hr hg
      have hpast := chunkEnd_past (last := c.last) (feed_inv micro_past c.last d c.remainder hp)
      have hliv := chunkEnd_live (last := c.last) (feed_inv micro_live c.last d c.remainder hlive)
      obtain ⟨k, e, hk, d', hd', hf⟩ := finish_any hinv ⟨hl, rfl⟩ hpast hliv
      refine ⟨n + k, d', { c with pos := c.chunk.length }, (chunkEnd c.last (feed c.last d c.remainder)).1 ++ e, ?_, hd', fun f => ?_⟩
      · have := drank_le d
        unfold meas at hn; omega
      · rw [Nat.add_assoc, hrun.toDone hpast.not_done, hf f]; rfl
    · rcases hp with h | h | h | h | h | h | ⟨h, -⟩
      any_goals (exfalso; apply hg; simp [Going, h]; done)
      · -- already in the payload
        have h1 : d.stepNotify c = .ok ({ d with st := .payloadDone }, { c with pos := c.chunk.length }, []) := by
          simp [stepNotify, Dec.step, h, notify, hl]
        obtain ⟨d', hd', hf⟩ := finish_payloadDone (d := { d with st := .payloadDone })
          (c := { c with pos := c.chunk.length }) rfl
        refine ⟨2, d', { c with pos := c.chunk.length }, [] ++ [.completed], by omega, hd', fun f => ?_⟩
        rw [show 2 + f = (1 + f) + 1 by omega]
        simp [processToDone, h1, hf f]
      · obtain ⟨d', hd', hf⟩ := finish_payloadDone (d := d) (c := c) h
        exact ⟨1, d', c, _, by omega, hd', hf⟩

/-- C15, first half: a final buffer that holds at least a header and its token (of legal length) is
decoded to completion in at most `11 * length + 65561` steps, whatever the rest of the buffer and the
uninitialised members hold. -/
theorem final_buffer_terminates (junk : Dec) (hj : junk.tbuf.length = 8) (b0 b1 b2 b3 : UInt8)
    (tok rest : List UInt8) (ht : tok.length = (b0 &&& 0x0F).toNat) (h8 : tok.length ≤ 8) :
    ∃ N d' c' evs, N ≤ 11 * (4 + tok.length + rest.length) + 65561 ∧ d'.st = .done ∧
      ∀ fuel, N ≤ fuel →
        processToDone fuel (fresh junk) ⟨b0 :: b1 :: b2 :: b3 :: (tok ++ rest), 0, true⟩ = .ok (d', c', evs) := by
  generalize hc : (⟨b0 :: b1 :: b2 :: b3 :: (tok ++ rest), 0, true⟩ : Ctx) = c
  have hi : DInv (fresh junk) c := hc ▸ reach_inv (Reach.init junk _ true hj)
  have hrem : c.remainder = b0 :: b1 :: b2 :: b3 :: (tok ++ rest) := by rw [← hc]; rfl
  have hl : c.last = true := by rw [← hc]
  have hg : Going (fresh junk) := by simp [Going, fresh]
  have hh : HOK (fresh junk) c.remainder := by
    rw [hrem]; simp only [HOK, fresh, List.head?_cons, Option.mem_def, Option.some.injEq]
    rintro b rfl; omega
  obtain ⟨n, hn, hrun, hinv⟩ := chunk_feed (fresh junk) c hi hh (by simp [hrem]) hg
  -- the decoder gets past the token
  have hpl : PastTok (feed c.last (fresh junk) c.remainder).2.1 ∧ OptLive (feed c.last (fresh junk) c.remainder).2.1 := by
    refine ⟨?_, feed_inv micro_live c.last _ _ (by simp [OptLive, fresh])⟩
    rw [hrem, header_feed _ _ _ _ _ _ _ rfl]
    generalize hd1 : ({ fresh junk with st := .headerDone, hdr := ⟨b0, b1, b2, b3⟩, hpos := 4 } : Dec) = d1
    have hd1t : d1.hdr.tokenLength.toNat = tok.length := by rw [← hd1, ht]; rfl
    have hd1s : d1.st = .headerDone := by rw [← hd1]
    have hd1b : d1.tbuf.length = 8 := by rw [← hd1]; exact hj
    by_cases hto : tok = []
    · subst hto
      exact feed_inv micro_past c.last d1 _ (by simp [PastTok, hd1s, hd1t])
    · obtain ⟨d2, e1, -, -, -, e5⟩ := token_feed c.last tok d1 rest hd1s hto hd1t h8 hd1b
      rw [e5]
      exact feed_inv micro_past c.last d2 _ (by simp [PastTok, e1])
  have hpast := chunkEnd_past (last := c.last) hpl.1
  obtain ⟨k, e, hk, d', hd', hf⟩ := finish_any hinv ⟨hl, rfl⟩ hpast (chunkEnd_live (last := c.last) hpl.2)
  refine ⟨n + k, d', { c with pos := c.chunk.length }, (chunkEnd c.last (feed c.last (fresh junk) c.remainder)).1 ++ e, ?_, hd', fun fuel hfu => ?_⟩
  · have : drank (fresh junk) = 1 := by simp [drank, fresh]
    rw [hrem] at hn
    unfold meas at hn
    simp only [List.length_cons, List.length_append] at hn; omega
  · obtain ⟨f, rfl⟩ := Nat.exists_eq_add_of_le hfu
    rw [Nat.add_assoc, hrun.toDone hpast.not_done, hf f]; rfl

-- a buffer that ends inside an option announcing 65535 value bytes
example : ∃ N d' c' evs, N ≤ 11 * 8 + 65561 ∧ d'.st = .done ∧ ∀ fuel, N ≤ fuel →
    processToDone fuel Dec.zero ⟨[0x41, 1, 0, 1, 0xAA, 0x0E, 0xFE, 0xF2], 0, true⟩ = .ok (d', c', evs) := by
  have := final_buffer_terminates Dec.zero (by decide) 0x41 1 0 1 [0xAA] [0x0E, 0xFE, 0xF2] (by decide) (by decide)
  simpa [fresh, Dec.zero] using this

/-- The unread bytes cannot complete header and token. -/
def Short (d : Dec) (r : List UInt8) : Prop :=
  match d.st with
  | .uninitialized => r.length < 4 + (match r.head? with | some b => (b &&& 0x0F).toNat | none => 0)
  | .header => d.hpos.toNat < 4 ∧ d.hpos.toNat + r.length <
      4 + (if d.hpos.toNat = 0 then (match r.head? with | some b => (b &&& 0x0F).toNat | none => 0)
           else d.hdr.tokenLength.toNat)
  | .headerDone | .tokenStart => r.length < d.hdr.tokenLength.toNat
  | .token => d.tpos.toNat + r.length < d.hdr.tokenLength.toNat
  | _ => False

theorem headerLoop_short (d : Dec) (r : List UInt8) (n : Nat) {d0 k dn} (hs : Short { d with st := .header } r)
    (e : headerLoop d r n = .ok (d0, k, dn)) :
    n ≤ k ∧ Short { d0 with st := if dn then .headerDone else .header } (r.drop (k - n)) := by
  induction r generalizing d n with
  | nil => cases e; simpa using hs
  | cons b bs ih =>
    obtain ⟨hp, hlen⟩ := hs
    simp only at hp hlen
    obtain ⟨hdr, hw⟩ : ∃ hdr, writeHeader d.hdr d.hpos b = .ok hdr := by
      unfold writeHeader
      have : d.hpos = 0 ∨ d.hpos = 1 ∨ d.hpos = 2 ∨ d.hpos = 3 := by
        simp only [← UInt8.toNat_inj]; simp; omega
      rcases this with h | h | h | h <;> simp [h]
    have hadd : (d.hpos + 1).toNat = d.hpos.toNat + 1 := by
      rw [UInt8.toNat_add]; simp; omega
    have htk : d.hpos.toNat + 1 + bs.length < 4 + hdr.tokenLength.toNat := by
      by_cases h0 : d.hpos.toNat = 0
      · have h0' : d.hpos = 0 := UInt8.toNat_inj.1 h0
        simp [writeHeader, h0'] at hw
        rw [if_pos h0] at hlen
        simp only [List.head?_cons, List.length_cons] at hlen
        rw [← hw]; simp only [tokenLength]; omega
      · rw [if_neg h0] at hlen
        have : d.hpos = 1 ∨ d.hpos = 2 ∨ d.hpos = 3 := by
          simp only [← UInt8.toNat_inj]; simp; omega
        have : hdr.tokenLength = d.hdr.tokenLength := by
          rcases this with h' | h' | h' <;> simp [writeHeader, h'] at hw <;> rw [← hw] <;> rfl
        rw [this]
        simp only [List.length_cons] at hlen
        omega
    simp only [headerLoop, hw] at e
    split at e
    · rename_i hge
      rw [ge_iff_le, UInt8.le_iff_toNat_le, hadd] at hge
      simp at hge
      cases e
      refine ⟨by omega, ?_⟩
      simp only [Nat.add_sub_cancel_left, List.drop_succ_cons, List.drop_zero, if_true, Short]
      omega
    · rename_i hlt
      rw [ge_iff_le, UInt8.le_iff_toNat_le, hadd] at hlt
      simp at hlt
      obtain ⟨h1, h2⟩ := ih { d with hdr := hdr, hpos := d.hpos + 1 } (n + 1) (by
        simp only [Short, hadd]
        refine ⟨by omega, ?_⟩
        rw [if_neg (by omega)]; exact htk) e
      refine ⟨by omega, ?_⟩
      rw [show k - n = (k - (n + 1)) + 1 by omega, List.drop_succ_cons]
      exact h2

theorem tokenLoop_short (d : Dec) (r : List UInt8) (n : Nat) {d0 k dn} (hs : Short { d with st := .token } r)
    (e : tokenLoop d r n = .ok (d0, k, dn)) :
    n ≤ k ∧ Short { d0 with st := if dn then .tokenDone else .token } (r.drop (k - n)) := by
  induction r generalizing d n with
  | nil => cases e; simpa using hs
  | cons b bs ih =>
    simp only [Short, List.length_cons] at hs
    have h15 : d.hdr.tokenLength.toNat ≤ 15 := by
      simp only [tokenLength]; rw [tkl_toNat]; omega
    have hadd : (d.tpos + 1).toNat = d.tpos.toNat + 1 := by
      rw [UInt8.toNat_add]; simp; omega
    simp only [tokenLoop] at e
    split at e
    · cases e
    · split at e
      · rename_i hge
        rw [ge_iff_le, UInt8.le_iff_toNat_le, hadd] at hge
        omega
      · obtain ⟨h1, h2⟩ := ih _ (n + 1) (by simp only [Short, hadd]; omega) e
        refine ⟨by omega, ?_⟩
        rw [show k - n = (k - (n + 1)) + 1 by omega, List.drop_succ_cons]
        exact h2

theorem step_short {d d' : Dec} {c c' : Ctx} (hs : Short d c.remainder) (e : d.step c = .ok (d', c')) :
    Short d' c'.remainder := by
  cases h : d.st
  case uninitialized =>
    simp only [Dec.step, h] at e; cases e
    simpa [Short, h] using hs
  case header =>
    simp only [Dec.step, h] at e
    split at e
    · cases e
    · rename_i d0 k dn hl
      cases e
      have := (headerLoop_short d c.remainder 0 (by simpa [Short, h] using hs) hl).2
      rw [remainder_add]; exact this
  case headerDone =>
    simp only [Short, h] at hs
    have hgt : d.hdr.tokenLength > 0 := by
      rw [gt_iff_lt, UInt8.lt_iff_toNat_lt]; simp; omega
    simp only [Dec.step, h, hgt, if_true] at e; cases e
    exact hs
  case tokenStart =>
    simp only [Dec.step, h] at e; cases e
    simpa [Short, h] using hs
  case token =>
    simp only [Dec.step, h] at e
    split at e
    · cases e
    · rename_i d0 k dn hl
      cases e
      have := (tokenLoop_short d c.remainder 0 (by simpa [Short, h] using hs) hl).2
      rw [remainder_add]; exact this
  all_goals simp [Short, h] at hs

/-- C15, second half: a final buffer that ends inside the header or inside the token never completes. -/
theorem truncated_never_completes (junk : Dec) (bytes : List UInt8) (last : Bool)
    (hs : bytes.length < 4 ∨ ∃ b, bytes.head? = some b ∧ bytes.length < 4 + (b &&& 0x0F).toNat) (fuel : Nat) :
    ¬ ∃ r, processToDone fuel (fresh junk) ⟨bytes, 0, last⟩ = .ok r := by
  have gen : ∀ (fuel : Nat) (d : Dec) (c : Ctx), Short d c.remainder → ¬ ∃ r, processToDone fuel d c = .ok r := by
    intro fuel
    induction fuel with
    | zero => intro d c _ ⟨r, hr⟩; cases hr
    | succ n ih =>
      intro d c hsh ⟨r, hr⟩
      simp only [processToDone] at hr
      cases hst : d.step c with
      | error x => simp [stepNotify, hst] at hr
      | ok p =>
        obtain ⟨d1, c1⟩ := p
        have hs1 := step_short hsh hst
        cases hn : d1.notify c1 with
        | error x => simp [stepNotify, hst, hn] at hr
        | ok ev =>
          simp only [stepNotify, hst, hn] at hr
          have hnd : (d1.st == .done) = false := by
            rw [beq_eq_false_iff_ne]; intro h; simp [Short, h] at hs1
          rw [hnd] at hr
          simp only [Bool.false_eq_true, if_false] at hr
          cases hp : processToDone n d1 c1 with
          | error x => simp [hp] at hr
          | ok q => exact ih d1 c1 hs1 ⟨q, hp⟩
  apply gen
  simp only [Short, fresh, Ctx.remainder, List.drop_zero]
  rcases hs with h | ⟨b, hb, h⟩
  · omega
  · rw [hb]; exact h

example : ([0x44, 1, 0, 1, 9] : List UInt8).length < 4 ∨
    ∃ b, ([0x44, 1, 0, 1, 9] : List UInt8).head? = some b ∧
      ([0x44, 1, 0, 1, 9] : List UInt8).length < 4 + (b &&& 0x0F).toNat := by
  right; exact ⟨0x44, rfl, by decide⟩

/-- The steps of the one-call loop: none of them reaches `Done` or reports completion, the last one leaves
the position at the end of the buffer. -/
theorem process_run (fuel : Nat) (d : Dec) (c : Ctx) {d' : Dec} {c' : Ctx} {evs : List Event} (hi : DInv d c)
    (hr : c.remainder = [] → d.st = .uninitialized) (hd : d.st ≠ .done) (hpd : d.st ≠ .payloadDone)
    (e : Dec.process fuel d c = .ok (d', c', evs)) :
    d'.st ≠ .done ∧ .completed ∉ evs ∧ atEnd c' = true ∧ ∃ n, n ≤ fuel ∧ Run n d c evs d' c' := by
  revert fuel d c d' c' evs
  intro fuel
  induction fuel with
  | zero => intro d c d' c' evs _ _ _ _ e; cases e
  | succ n ih =>
    intro d c d' c' evs hi hr hd hpd e
    simp only [Dec.process] at e
    rcases stepNotify_inv d c hi with ⟨e', _⟩ | ⟨d1, c1, e1, e', hi1, hc1, _⟩
    · simp [e'] at e
    · simp only [e'] at e
      have key : d1.st ≠ .done ∧ (d1.st = .payloadDone → atEnd c1 = true) := by
        simp only [stepNotify] at e'
        cases hst : d.step c with
        | error x => simp [hst] at e'
        | ok q =>
          obtain ⟨d2, c2⟩ := q
          simp only [hst] at e'
          cases hn : d2.notify c2 with
          | error x => simp [hn] at e'
          | ok ev =>
            simp only [hn] at e'
            cases e'
            cases hs : d.st <;> simp only [Dec.step, hs] at hst
            case optionsDone =>
              have hop : d.opt.st = .payload := by
                rcases hi.optionsDone hs with h | ⟨_, h⟩
                · exact h
                · have := hr (by simp [Ctx.remainder, h])
                  rw [hs] at this; cases this
              simp only [hop, beq_self_eq_true, if_true] at hst
              cases hst; simp
            case payload => cases hst; cases c.last <;> simp [atEnd]
            case payloadDone => exact absurd hs hpd
            case done => exact absurd hs hd
            case header =>
              split at hst
              · cases hst
              · rename_i dn _; cases hst; cases dn <;> simp
            case token =>
              split at hst
              · cases hst
              · rename_i dn _; cases hst; cases dn <;> simp
            case headerDone => split at hst <;> cases hst <;> simp
            case optionsStart =>
              split at hst
              · cases hst; simp
              · split at hst
                · cases hst
                · cases hst; dsimp only; split <;> simp
            case options =>
              split at hst
              · cases hst
              · repeat' split at hst
                all_goals cases hst
                all_goals simp
            all_goals cases hst; simp
      have hev : .completed ∉ e1 := by
        simp only [stepNotify] at e'
        cases hst : d.step c with
        | error x => simp [hst] at e'
        | ok q =>
          obtain ⟨d2, c2⟩ := q
          simp only [hst] at e'
          cases hn : d2.notify c2 with
          | error x => simp [hn] at e'
          | ok ev =>
            simp only [hn] at e'
            cases e'
            cases hs : d1.st <;> simp only [Dec.notify, hs] at hn
            case done => exact absurd hs key.1
            case tokenDone => split at hn <;> cases hn; simp
            case options =>
              repeat' split at hn
              all_goals cases hn; simp
            all_goals cases hn; simp
      by_cases ha : atEnd c1 = true
      · rw [if_pos ha] at e; cases e; exact ⟨key.1, hev, ha, 1, by omega, Run.one e'⟩
      · rw [if_neg ha] at e
        cases hp : Dec.process n d1 c1 with
        | error x => simp [hp] at e
        | ok q =>
          obtain ⟨d2, c2, e2⟩ := q
          simp only [hp] at e; cases e
          have := ih d1 c1 hi1
            (fun hnil => absurd (by simpa [atEnd] using remainder_nil hi1.pos hnil) ha)
            key.1 (fun h => ha (key.2 h)) hp
          obtain ⟨t1, t2, t3, k, hk, hrun⟩ := this
          refine ⟨t1, ?_, t3, k + 1, by omega, Run.cons e' (by simpa using ha) key.1 hrun⟩
          simp only [List.mem_append, not_or]; exact ⟨hev, t2⟩

/-- C19 is false for every input: the one-call loop stops at the end of the buffer, which is always before
the decoder fires the completion event. -/
theorem process_never_completes (junk : Dec) (hj : junk.tbuf.length = 8) (bytes : List UInt8) (last : Bool)
    (fuel : Nat) {d' : Dec} {c' : Ctx} {evs : List Event}
    (h : Dec.process fuel (fresh junk) ⟨bytes, 0, last⟩ = .ok (d', c', evs)) :
    d'.st ≠ .done ∧ .completed ∉ evs := by
  obtain ⟨h1, h2, -⟩ := process_run fuel _ _ (reach_inv (Reach.init junk bytes last hj)) (fun _ => rfl)
    (by simp [fresh]) (by simp [fresh]) h
  exact ⟨h1, h2⟩

/-- C19, what the loop does deliver, for every input whatever: it stops at the end of the buffer, and
decoding step by step until `Done` takes the very same steps first. What stepping reports is what the loop
reported followed by what stepping on from where the loop stopped reports; if stepping on faults, so does
stepping from the start. -/
theorem process_is_prefix (junk : Dec) (hj : junk.tbuf.length = 8) (bytes : List UInt8) (last : Bool)
    (fuel : Nat) {d' : Dec} {c' : Ctx} {evs : List Event}
    (h : Dec.process fuel (fresh junk) ⟨bytes, 0, last⟩ = .ok (d', c', evs)) :
    atEnd c' = true ∧ ∃ n, n ≤ fuel ∧
      (∀ f d'' c'' more, processToDone f d' c' = .ok (d'', c'', more) →
        processToDone (n + f) (fresh junk) ⟨bytes, 0, last⟩ = .ok (d'', c'', evs ++ more)) ∧
      (∀ f x, processToDone f d' c' = .error x →
        processToDone (n + f) (fresh junk) ⟨bytes, 0, last⟩ = .error x) := by
  obtain ⟨h1, -, h3, n, hn, hrun⟩ := process_run fuel _ _ (reach_inv (Reach.init junk bytes last hj)) (fun _ => rfl)
    (by simp [fresh]) (by simp [fresh]) h
  refine ⟨h3, n, hn, fun f d'' c'' more e => ?_, fun f x e => ?_⟩
  · rw [hrun.toDone h1 f, e]; rfl
  · rw [hrun.toDone h1 f, e]; rfl

-- the loop does run over a complete message
example : ∃ d c, Dec.process 30 Dec.zero ⟨[0x40, 1, 0, 1, 0xFF, 7], 0, true⟩ =
    .ok (d, c, [.header ⟨0x40, 1, 0, 1⟩, .token [], .optionStart, .optionsCompleted, .payload [7] true]) := by
  refine ⟨_, _, rfl⟩

end Verif.Props
