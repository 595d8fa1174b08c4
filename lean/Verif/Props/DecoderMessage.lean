import Verif.Proofs.WireFeed
import Verif.Props.DecoderSafety

/-! # Decoding well-formed messages (C12, C13) -/
namespace Verif.Props
open Verif.Model Verif.Proofs Verif.Spec Header Dec

/-- C12: from any state between options, the option decoder reads any RFC 7252 option header - literal,
8-bit and 16-bit forms for delta and length in all combinations - and stops at the start of the value
with the right number and length, having consumed exactly the header. -/
theorem option_header_decoded (o : OptDec) (h : Holder) (delta len : Nat) (b : UInt8) (rest : List UInt8)
    (last : Bool) (ho : o.st = .firstByte ∨ o.st = .optionValueDone) (hl : len < 65536)
    (hn : h.number.toNat + delta < 65536) :
    ∃ o' h', o.process h (optHeader delta len ++ b :: rest) last = .ok (o', h', (optHeader delta len).length) ∧
      o'.st = .valueStart ∧ h'.number.toNat = h.number.toNat + delta ∧ h'.length.toNat = len := by
  obtain ⟨o1, ⟨-, -, k, hk⟩, he⟩ := header_phase' o h delta len (b :: rest) ho (by omega) hl
  refine ⟨{ o1 with st := .valueStart }, ⟨h.number + UInt16.ofNat delta, UInt16.ofNat len⟩, ?_, rfl, ?_, ?_⟩
  · have hne : ((optHeader delta len ++ b :: rest).length == 0 && last) = false := by simp
    simp only [OptDec.process, hne, Bool.false_eq_true, if_false]
    have hi : OInv o := by rcases ho with ho | ho <;> simp [OInv, ho]
    obtain ⟨x1, x2, x3, hx, -⟩ := loop_ok (OptDec.fuelFor (optHeader delta len ++ b :: rest)) o h
      (optHeader delta len ++ b :: rest) 0 hi (by have := rank_le o.st; simp only [OptDec.fuelFor]; omega)
    have h1 := loop_mono hx (k + 1)
    have h2 := hk (OptDec.fuelFor (optHeader delta len ++ b :: rest) + 1) 0
    rw [show OptDec.fuelFor (optHeader delta len ++ b :: rest) + (k + 1)
      = k + (OptDec.fuelFor (optHeader delta len ++ b :: rest) + 1) by omega, h2,
      loop_cons _ _ _ _ _ _ _ _ (he.1 b)] at h1
    simp only [paused, if_true, upd, Bool.false_eq_true, if_false] at h1
    rw [hx, ← h1]
    simp
  · simp [UInt16.toNat_add]; omega
  · simp; omega

-- a 16-bit delta with an 8-bit length
example : optHeader 300 14 = [0xED, 0, 31, 1] := by decide

example : OptDec.process ⟨.firstByte, 0, 0, 0, 0, 0⟩ ⟨0, 0⟩ (optHeader 300 14 ++ [7, 8]) false
    = .ok (⟨.valueStart, 0xED, 1, 31, 0, 1⟩, ⟨300, 14⟩, 4) := by decide +kernel

/-- What a decoder should report for a message: the header, the token, the options in order with number
and value, the payload, completion. -/
def delivery (m : Msg) : List Event :=
  [.header ⟨UInt8.ofNat (64 * m.version + 16 * m.type + m.token.length), UInt8.ofNat m.code,
      UInt8.ofNat (m.mid / 256), UInt8.ofNat (m.mid % 256)⟩,
   .token m.token, .optionStart] ++
  m.opts.map (fun o => .option (UInt16.ofNat o.number) o.value true) ++
  [.optionsCompleted] ++
  (match m.payload with | none => [] | some p => [.payload p true]) ++
  [.completed]

/-- The header reported carries the fields of the message. -/
theorem delivery_header (m : Msg) (h : m.Ok) :
    ∃ hd, (delivery m).head? = some (.header hd) ∧
      fields hd.b0 hd.b1 hd.b2 hd.b3 = ⟨m.version, m.type, m.token.length, m.code, m.mid⟩ := by
  obtain ⟨h1, h2, h3, h4, h5, -⟩ := h
  refine ⟨_, rfl, ?_⟩
  simp only [fields, UInt8.toNat_ofNat']
  congr 1 <;> omega

/-- A message whose options are encoded as `ob`. -/
def wire (m : Msg) (ob : List UInt8) : List UInt8 := encHeader m ++ m.token ++ ob ++ encPayload m.payload

theorem wire_encMsg (m : Msg) : wire m (encOpts 0 m.opts) = encMsg m := rfl

/-- How many of the reports due for a message are still owed when the decoder has taken in the last byte:
completion always; with an empty last option, or with a token and nothing after it, three; for a header
alone, four. -/
def missing (m : Msg) : Nat :=
  match m.payload with
  | some _ => 1
  | none =>
    match m.opts.getLast? with
    | some o => if o.value = [] then 3 else 1
    | none => if m.token = [] then 4 else 3

/-- Where the decoder stands at the end of the buffer of a message, and what is still to come. -/
theorem wire_chunkEnd_missing (m : Msg) (hm : m.Ok) (ob : List UInt8) (hob : IsOpts 0 m.opts ob) (junk : Dec) (hj : junk.tbuf.length = 8)
    (hst : junk.opt.st ≠ .payload ∨ m.token ≠ [] ∨ m.opts ≠ [] ∨ m.payload ≠ none) :
    DInv (fresh junk) ⟨wire m ob, 0, true⟩ ∧ HOK (fresh junk) (wire m ob) ∧ wire m ob ≠ [] ∧ Going (fresh junk) ∧
    ∃ k e, k ≤ 4 ∧ (chunkEnd true (feed true (fresh junk) (wire m ob))).2.st ≠ .done ∧
      (∀ c, AtEof c → Finish k (chunkEnd true (feed true (fresh junk) (wire m ob))).2 c e) ∧
      (chunkEnd true (feed true (fresh junk) (wire m ob))).1 ++ e = delivery m ∧
      (m.payload ≠ none → e = [.completed] ∧
        (chunkEnd true (feed true (fresh junk) (wire m ob))).2.st = .payloadDone) ∧
      (feed true (fresh junk) (wire m ob)).2.2 = m.payload.getD [] ∧ e.length = missing m := by
  have hfull : m.Ok := hm
  obtain ⟨h1, h2, h3, h4, h5, h6, h7⟩ := hm
  generalize hc : (⟨wire m ob, 0, true⟩ : Ctx) = c
  have hrem : c.remainder = wire m ob := by rw [← hc]; simp [Ctx.remainder]
  generalize hdd : fresh junk = d
  have hds : d.st = .uninitialized := by rw [← hdd]; rfl
  have hdo : d.opt = junk.opt := by rw [← hdd]; rfl
  have hdb : d.tbuf.length = 8 := by rw [← hdd]; exact hj
  have hi : DInv d c := by
    have := reach_inv (Reach.init junk (wire m ob) true hj)
    rw [hdd, hc] at this; exact this
  generalize hb0 : UInt8.ofNat (64 * m.version + 16 * m.type + m.token.length) = b0
  have htk : (b0 &&& 0x0F).toNat = m.token.length := by
    rw [tkl_toNat, ← hb0]; simp; omega
  have henc : wire m ob = b0 :: UInt8.ofNat m.code :: UInt8.ofNat (m.mid / 256) :: UInt8.ofNat (m.mid % 256) ::
      (m.token ++ (ob ++ encPayload m.payload)) := by
    simp [wire, encHeader, hb0]
  have hg : Going d := by simp [Going, hds]
  have hh : HOK d c.remainder := by
    rw [hrem, henc]; simp only [HOK, hds, List.head?_cons, Option.mem_def, Option.some.injEq]
    rintro b rfl; rw [htk]; exact h5
  have hr : c.remainder ≠ [] := by rw [hrem, henc]; simp
  refine ⟨hi, hrem ▸ hh, hrem ▸ hr, hg, ?_⟩
  rw [henc, header_feed true d _ _ _ _ _ hds]
  generalize hH : (⟨b0, UInt8.ofNat m.code, UInt8.ofNat (m.mid / 256), UInt8.ofNat (m.mid % 256)⟩ : Header) = H
  have hHt : H.tokenLength.toNat = m.token.length := by rw [← hH]; exact htk
  generalize hd1 : ({ d with st := .headerDone, hdr := H, hpos := 4 } : Dec) = d1
  have hd1s : d1.st = .headerDone := by rw [← hd1]
  have hd1h : d1.hdr = H := by rw [← hd1]
  have hd1o : d1.opt = junk.opt := by rw [← hd1]; exact hdo
  have hd1b : d1.tbuf.length = 8 := by rw [← hd1]; exact hdb
  have hdel : delivery m = .header H :: .token m.token :: .optionStart :: (optEvents m.opts ++
      (.optionsCompleted :: ((match m.payload with | none => [] | some p => [.payload p true]) ++ [.completed]))) := by
    simp [delivery, optEvents, hb0, hH]
  rw [hdel]
  -- the part after the token
  have after : ∀ d2 : Dec, d2.st = .tokenDone → d2.opt.st ≠ .payload ∨ ob ++ encPayload m.payload ≠ [] →
      ∃ k e, k ≤ 3 ∧ (chunkEnd true (feed true d2 (ob ++ encPayload m.payload))).2.st ≠ .done ∧
        (∀ c, AtEof c → Finish k (chunkEnd true (feed true d2 (ob ++ encPayload m.payload))).2 c e) ∧
        (chunkEnd true (feed true d2 (ob ++ encPayload m.payload))).1 ++ e =
          .optionStart :: (optEvents m.opts ++
            (.optionsCompleted :: ((match m.payload with | none => [] | some p => [.payload p true]) ++ [.completed]))) ∧
        (m.payload ≠ none → e = [.completed] ∧
          (chunkEnd true (feed true d2 (ob ++ encPayload m.payload))).2.st = .payloadDone) ∧
        (feed true d2 (ob ++ encPayload m.payload)).2.2 = m.payload.getD [] ∧
        e.length = (if ob ++ encPayload m.payload = [] then 3 else missing m) := by
    intro d2 hs2 ho2
    by_cases hemp : ob ++ encPayload m.payload = []
    · have hop : m.opts = [] := hob.nil_iff.1 (List.append_eq_nil_iff.1 hemp).1
      have hpl : m.payload = none := by
        cases hp : m.payload with
        | none => rfl
        | some _ => simp [hp, encPayload] at hemp
      have ho2' : d2.opt.st ≠ .payload := by
        rcases ho2 with h | h
        · exact h
        · exact absurd hemp h
      rw [hemp, feed_nil]
      refine ⟨3, [.optionStart, .optionsCompleted, .completed], by omega, ?_, ?_, ?_, fun h => absurd hpl h, by simp [hpl], by simp⟩
      · simp [chunkEnd, fin, hs2]
      · intro c heof
        have : (chunkEnd true ([], d2, [])).2 = d2 := by simp [chunkEnd, fin, hs2]
        rw [this]; exact finish_tokenDone heof hs2 ho2'
      · simp [chunkEnd, finEv, hs2, hop, hpl, optEvents]
    · rw [start_feed true d2 _ hs2 hemp]
      rw [← List.singleton_append (x := Event.optionStart), chunkEnd_pre]
      generalize hd3 : ({ d2 with st := .options, opt := { d2.opt with st := .firstByte }, holder := ⟨0, 0⟩ } : Dec) = d3
      have hs3 : d3.st = .options := by rw [← hd3]
      have hr3 : Ready d3.opt := by rw [← hd3]; exact Or.inl rfl
      have hn3 : d3.holder.number = UInt16.ofNat 0 := by rw [← hd3]; rfl
      cases hp : m.payload with
      | none =>
        rw [hp] at hemp
        simp only [encPayload, List.append_nil] at hemp ⊢
        have hos : m.opts ≠ [] := fun h => hemp (hob.nil_iff.2 h)
        obtain ⟨o', h', es, hfe, hcase⟩ := wire_options_feed_end true m.opts 0 d3 hs3 hr3 hn3 ob hob hos
        rw [hfe]
        rcases hcase with ⟨he, hov, hlv⟩ | ⟨n, he, hhe, hh'⟩
        · refine ⟨1, [.completed], by omega, ?_, ?_, ?_, fun h => absurd rfl h, rfl, ?_⟩
          · simp [chunkEnd, fin, hs3, hov]
          · intro c heof
            have : (chunkEnd true (es, ({ d3 with opt := o', holder := h' } : Dec), [])).2 =
                { d3 with opt := o', holder := h', st := .optionsDone } := by simp [chunkEnd, fin, hs3, hov]
            rw [this]; exact finish_optionsDone heof rfl (by simp [hov])
          · simp [chunkEnd, finEv, hs3, hov, he]
          · obtain ⟨o, ho⟩ : ∃ o, m.opts.getLast? = some o := by
              cases hg : m.opts.getLast? with
              | none => exact absurd (List.getLast?_eq_none_iff.1 hg) hos
              | some o => exact ⟨o, rfl⟩
            rw [if_neg hemp]
            simp [missing, hp, ho, (hlv o ho).1]
        · refine ⟨3, [.option n [] true, .optionsCompleted, .completed], by omega, ?_, ?_, ?_, fun h => absurd rfl h, rfl, ?_⟩
          · simp [chunkEnd, fin, hs3, hhe.2.2.1]
          · intro c heof
            have : (chunkEnd true (es, ({ d3 with opt := o', holder := h' } : Dec), [])).2 =
                { d3 with opt := o', holder := h' } := by simp [chunkEnd, fin, hs3, hhe.2.2.1]
            rw [this]; exact finish_hend (d := { d3 with opt := o', holder := h' }) heof hs3 hhe n hh'
          · simp only [chunkEnd, finEv, hs3, hhe.2.2.1, ← he]
            simp
          · obtain ⟨o, ho⟩ : ∃ o, m.opts.getLast? = some o := by
              cases hg : m.opts.getLast? with
              | none => exact absurd (List.getLast?_eq_none_iff.1 hg) hos
              | some o => exact ⟨o, rfl⟩
            have hv : o.value = [] := by
              have h := congrArg List.getLast? he
              simp [optEvents, List.getLast?_map, ho] at h
              exact h.2
            rw [if_neg hemp]
            simp [missing, hp, ho, hv]
      | some p =>
        have hpne : p ≠ [] := by intro h; rw [hp, h] at h7; exact h7 rfl
        simp only [encPayload]
        obtain ⟨o', h', hr', hfe⟩ := wire_options_feed true m.opts 0 d3 (0xFF :: p) hs3 hr3 hn3 ob hob (by simp)
        rw [hfe, marker_feed true _ p (by exact hs3) hr', payload_feed true _ p rfl hpne]
        refine ⟨1, [.completed], by omega, ?_, ?_, ?_, fun _ => ⟨rfl, by simp [chunkEnd]⟩, rfl, by simp [missing, hp]⟩
        · simp [chunkEnd]
        · intro c heof
          simp only [chunkEnd, if_true]
          exact finish_payloadDone rfl
        · simp [chunkEnd]
  rw [← List.singleton_append (x := Event.header H), chunkEnd_pre]
  by_cases htn : m.token = []
  · rw [htn, List.nil_append]
    rw [htn, List.length_nil] at hHt
    by_cases hemp : ob ++ encPayload m.payload = []
    · have hop : m.opts = [] := hob.nil_iff.1 (List.append_eq_nil_iff.1 hemp).1
      have hpl : m.payload = none := by
        cases hp : m.payload with
        | none => rfl
        | some _ => simp [hp, encPayload] at hemp
      have hjo : junk.opt.st ≠ .payload := by
        rcases hst with h | h | h | h
        · exact h
        · exact absurd htn h
        · exact absurd hop h
        · exact absurd hpl h
      rw [hemp, feed_nil]
      refine ⟨4, [.token [], .optionStart, .optionsCompleted, .completed], by omega, ?_, ?_, ?_, fun h => absurd hpl h, by simp [hpl], by simp [missing, hpl, hop, htn]⟩
      · simp [chunkEnd, fin, hd1s]
      · intro c heof
        have : (chunkEnd true ([], d1, [])).2 = d1 := by simp [chunkEnd, fin, hd1s]
        rw [this]
        exact finish_headerDone heof hd1s (by rw [hd1h]; exact hHt) (by rw [hd1o]; exact hjo)
      · simp [chunkEnd, finEv, hd1s, hop, hpl, optEvents]
    · rw [token_feed_empty true d1 _ hd1s (by rw [hd1h]; exact hHt) hemp]
      rw [← List.singleton_append (x := Event.token []), chunkEnd_pre]
      obtain ⟨k, e, hk, hnd, hf, he, hz, hy, hx⟩ := after { d1 with st := .tokenDone } rfl (Or.inr hemp)
      exact ⟨k, e, by omega, hnd, hf, congrArg (fun l => [Event.header H] ++ ([Event.token []] ++ l)) he, hz, hy, by rw [hx, if_neg hemp]⟩
  · obtain ⟨d2, e1, e2, e3, e4, e5⟩ := token_feed true m.token d1 (ob ++ encPayload m.payload) hd1s htn
      (by rw [hd1h]; exact hHt) h5 hd1b
    rw [e5, ← List.singleton_append (x := Event.token m.token), chunkEnd_pre]
    obtain ⟨k, e, hk, hnd, hf, he, hz, hy, hx⟩ := after d2 e1 (Or.inl (by rw [e2]; simp))
    refine ⟨k, e, by omega, hnd, hf, congrArg (fun l => [Event.header H] ++ ([Event.token m.token] ++ l)) he, hz, hy, ?_⟩
    rw [hx]
    by_cases hemp : ob ++ encPayload m.payload = []
    · have hop : m.opts = [] := hob.nil_iff.1 (List.append_eq_nil_iff.1 hemp).1
      have hpl : m.payload = none := by
        cases hp : m.payload with
        | none => rfl
        | some _ => simp [hp, encPayload] at hemp
      rw [if_pos hemp]
      simp [missing, hop, hpl, htn]
    · rw [if_neg hemp]

/-- Where the decoder stands at the end of the buffer of a message, and what is still to come. -/
theorem wire_chunkEnd (m : Msg) (hm : m.Ok) (ob : List UInt8) (hob : IsOpts 0 m.opts ob) (junk : Dec) (hj : junk.tbuf.length = 8)
    (hst : junk.opt.st ≠ .payload ∨ m.token ≠ [] ∨ m.opts ≠ [] ∨ m.payload ≠ none) :
    DInv (fresh junk) ⟨wire m ob, 0, true⟩ ∧ HOK (fresh junk) (wire m ob) ∧ wire m ob ≠ [] ∧ Going (fresh junk) ∧
    ∃ k e, k ≤ 4 ∧ (chunkEnd true (feed true (fresh junk) (wire m ob))).2.st ≠ .done ∧
      (∀ c, AtEof c → Finish k (chunkEnd true (feed true (fresh junk) (wire m ob))).2 c e) ∧
      (chunkEnd true (feed true (fresh junk) (wire m ob))).1 ++ e = delivery m ∧
      (m.payload ≠ none → e = [.completed] ∧
        (chunkEnd true (feed true (fresh junk) (wire m ob))).2.st = .payloadDone) ∧
      (feed true (fresh junk) (wire m ob)).2.2 = m.payload.getD [] := by
  obtain ⟨hi, hh, hr, hg, k, e, hk, hnd, hf, he, hl, hp, -⟩ := wire_chunkEnd_missing m hm ob hob junk hj hst
  exact ⟨hi, hh, hr, hg, k, e, hk, hnd, hf, he, hl, hp⟩

/-- The same for the encoding of RFC 7252. -/
theorem message_chunkEnd (m : Msg) (hm : m.Ok) (junk : Dec) (hj : junk.tbuf.length = 8)
    (hst : junk.opt.st ≠ .payload ∨ m.token ≠ [] ∨ m.opts ≠ [] ∨ m.payload ≠ none) :
    DInv (fresh junk) ⟨encMsg m, 0, true⟩ ∧ HOK (fresh junk) (encMsg m) ∧ encMsg m ≠ [] ∧ Going (fresh junk) ∧
    ∃ k e, k ≤ 4 ∧ (chunkEnd true (feed true (fresh junk) (encMsg m))).2.st ≠ .done ∧
      (∀ c, AtEof c → Finish k (chunkEnd true (feed true (fresh junk) (encMsg m))).2 c e) ∧
      (chunkEnd true (feed true (fresh junk) (encMsg m))).1 ++ e = delivery m ∧
      (m.payload ≠ none → e = [.completed] ∧
        (chunkEnd true (feed true (fresh junk) (encMsg m))).2.st = .payloadDone) ∧
      (feed true (fresh junk) (encMsg m)).2.2 = m.payload.getD [] :=
  wire_chunkEnd m hm (encOpts 0 m.opts) (isOpts_encOpts 0 m.opts hm.2.2.2.2.2.1) junk hj hst

/-- C13 for every encoding of the options: longer option headers than necessary are understood too (same
exclusion as in `message_delivered_partial`). -/
theorem wire_delivered_partial (m : Msg) (hm : m.Ok) (ob : List UInt8) (hob : IsOpts 0 m.opts ob) (junk : Dec) (hj : junk.tbuf.length = 8)
    (hst : junk.opt.st ≠ .payload ∨ m.token ≠ [] ∨ m.opts ≠ [] ∨ m.payload ≠ none) :
    ∃ N d', N ≤ 11 * (wire m ob).length + 6 ∧ d'.st = .done ∧
      ∀ fuel, N ≤ fuel → processToDone fuel (fresh junk) ⟨wire m ob, 0, true⟩ =
        .ok (d', ⟨wire m ob, (wire m ob).length, true⟩, delivery m) := by
  obtain ⟨hi, hh, hr, hg, k, e, hk, hnd, hf, he, -⟩ := wire_chunkEnd m hm ob hob junk hj hst
  obtain ⟨N, d', hN, hd', hall⟩ := deliver_of_feed hi hh hr hg rfl hnd (hf _ ⟨rfl, rfl⟩)
  refine ⟨N, d', ?_, hd', fun fuel hfu => ?_⟩
  · have : drank (fresh junk) = 1 := by simp [drank, fresh]
    unfold meas at hN
    simp only [Ctx.remainder, List.drop_zero] at hN; omega
  · obtain ⟨f, rfl⟩ := Nat.exists_eq_add_of_le hfu
    rw [hall f]
    rw [show (⟨wire m ob, 0, true⟩ : Ctx).remainder = wire m ob from rfl, he]

/-- C13 (partial: a header-only message without token is excluded when the uninitialised or left-over
option state happens to read `Payload`): decoding a well-formed message presented as one final buffer
delivers exactly that message, whatever the uninitialised members held, and needs at most
`11 * length + 6` steps. -/
theorem message_delivered_partial (m : Msg) (hm : m.Ok) (junk : Dec) (hj : junk.tbuf.length = 8)
    (hst : junk.opt.st ≠ .payload ∨ m.token ≠ [] ∨ m.opts ≠ [] ∨ m.payload ≠ none) :
    ∃ N d', N ≤ 11 * (encMsg m).length + 6 ∧ d'.st = .done ∧
      ∀ fuel, N ≤ fuel → processToDone fuel (fresh junk) ⟨encMsg m, 0, true⟩ =
        .ok (d', ⟨encMsg m, (encMsg m).length, true⟩, delivery m) :=
  wire_delivered_partial m hm (encOpts 0 m.opts) (isOpts_encOpts 0 m.opts hm.2.2.2.2.2.1) junk hj hst

/-- C19 (partial: everything except the completion event): the one-call loop over a well-formed message
with a payload delivers everything but completion, and one further step delivers that. -/
theorem process_delivers_payload_message_partial (m : Msg) (hm : m.Ok) (junk : Dec) (hj : junk.tbuf.length = 8)
    (hp : m.payload ≠ none) :
    ∃ N d', ∀ fuel, N ≤ fuel → Dec.process fuel (fresh junk) ⟨encMsg m, 0, true⟩ =
        .ok (d', ⟨encMsg m, (encMsg m).length, true⟩, (delivery m).dropLast) ∧
      ∃ d'', d''.st = .done ∧ d'.stepNotify ⟨encMsg m, (encMsg m).length, true⟩ =
        .ok (d'', ⟨encMsg m, (encMsg m).length, true⟩, [.completed]) := by
  obtain ⟨hi, hh, hr, hg, k, e, hk, hnd, hf, he, hlast, -⟩ := message_chunkEnd m hm junk hj (Or.inr (Or.inr (Or.inr hp)))
  obtain ⟨n, hn, hrun, _⟩ := chunk_feed _ _ hi hh hr hg
  obtain ⟨he', hpd⟩ := hlast hp
  subst he'
  refine ⟨n, (chunkEnd true (feed true (fresh junk) (encMsg m))).2, fun fuel hfu => ⟨?_, { (chunkEnd true (feed true (fresh junk) (encMsg m))).2 with st := .done }, rfl, ?_⟩⟩
  · rw [hrun.process (by simp [atEnd]) fuel hfu, ← he]
    simp [Ctx.remainder]
  · simp [stepNotify, Dec.step, hpd, notify]

/-- C19, exactly, for every well-formed message in any encoding of its options: the one-call loop over the
message as one final buffer delivers everything but the last `missing m` reports, and stepping on until
`Done` delivers exactly those (same exclusion as in `message_delivered_partial`). -/
theorem process_delivers_exactly_partial (m : Msg) (hm : m.Ok) (ob : List UInt8) (hob : IsOpts 0 m.opts ob)
    (junk : Dec) (hj : junk.tbuf.length = 8)
    (hst : junk.opt.st ≠ .payload ∨ m.token ≠ [] ∨ m.opts ≠ [] ∨ m.payload ≠ none) :
    ∃ N d' d'', d''.st = .done ∧
      (∀ fuel, N ≤ fuel → Dec.process fuel (fresh junk) ⟨wire m ob, 0, true⟩ =
        .ok (d', ⟨wire m ob, (wire m ob).length, true⟩, (delivery m).take ((delivery m).length - missing m))) ∧
      ∀ fuel, 4 ≤ fuel → processToDone fuel d' ⟨wire m ob, (wire m ob).length, true⟩ =
        .ok (d'', ⟨wire m ob, (wire m ob).length, true⟩, (delivery m).drop ((delivery m).length - missing m)) := by
  obtain ⟨hi, hh, hr, hg, k, e, hk, hnd, hf, he, -, -, hl⟩ := wire_chunkEnd_missing m hm ob hob junk hj hst
  obtain ⟨n, hn, hrun, _⟩ := chunk_feed _ _ hi hh hr hg
  obtain ⟨d'', hd'', hfin⟩ := hf ⟨wire m ob, (wire m ob).length, true⟩ ⟨rfl, rfl⟩
  have hlen : (delivery m).length - missing m = (chunkEnd true (feed true (fresh junk) (wire m ob))).1.length := by
    rw [← he, List.length_append, hl, Nat.add_sub_cancel]
  refine ⟨n, (chunkEnd true (feed true (fresh junk) (wire m ob))).2, d'', hd'', fun fuel hfu => ?_, fun fuel hfu => ?_⟩
  · rw [hrun.process (by simp [atEnd]) fuel hfu, hlen, ← he, List.take_left]
    rfl
  · obtain ⟨f, rfl⟩ := Nat.exists_eq_add_of_le (Nat.le_trans hk hfu)
    rw [hfin f, hlen, ← he, List.drop_left]

/-- Each of the cases of `missing` occurs. -/
example : missing ⟨1, 0, 1, 7, [9], [⟨11, [65]⟩], some [66]⟩ = 1 ∧ missing ⟨1, 0, 1, 7, [9], [⟨11, [65]⟩], none⟩ = 1 ∧
    missing ⟨1, 0, 1, 7, [9], [⟨11, []⟩], none⟩ = 3 ∧ missing ⟨1, 0, 1, 7, [9], [], none⟩ = 3 ∧
    missing ⟨1, 0, 0, 7, [], [], none⟩ = 4 := by decide

/-- C13 for a decoder that is reused after it reported completion. -/
theorem message_delivered_reuse_partial (m : Msg) (hm : m.Ok) (d : Dec) (hd : d.st = .done) (hj : d.tbuf.length = 8)
    (hst : d.opt.st ≠ .payload ∨ m.token ≠ [] ∨ m.opts ≠ [] ∨ m.payload ≠ none) :
    ∃ N d', N ≤ 11 * (encMsg m).length + 7 ∧ d'.st = .done ∧
      ∀ fuel, N ≤ fuel → processToDone fuel d ⟨encMsg m, 0, true⟩ =
        .ok (d', ⟨encMsg m, (encMsg m).length, true⟩, delivery m) := by
  obtain ⟨N, d', hN, hd', h⟩ := message_delivered_partial m hm d hj hst
  refine ⟨N + 1, d', by omega, hd', fun fuel hf => ?_⟩
  obtain ⟨f, rfl⟩ : ∃ f, fuel = f + 1 := ⟨fuel - 1, by omega⟩
  have h1 : d.stepNotify ⟨encMsg m, 0, true⟩ = .ok (fresh d, ⟨encMsg m, 0, true⟩, []) := by
    simp [stepNotify, Dec.step, hd, notify, fresh]
  simp only [processToDone, h1]
  rw [h f (by omega)]
  simp [fresh]

/-- C13 fails in the excluded case: for every well-formed message consisting of a header only, a decoder
whose option state reads `Payload` reports a payload that does not exist. -/
theorem stale_option_state_phantom_payload (m : Msg) (_hm : m.Ok) (ht : m.token = []) (ho : m.opts = [])
    (hp : m.payload = none) (junk : Dec) (hj : junk.opt.st = .payload) :
    ∃ d', d'.st = .done ∧ processToDone 9 (fresh junk) ⟨encMsg m, 0, true⟩ =
      .ok (d', ⟨encMsg m, 4, true⟩,
        [.header ⟨UInt8.ofNat (64 * m.version + 16 * m.type), UInt8.ofNat m.code, UInt8.ofNat (m.mid / 256),
            UInt8.ofNat (m.mid % 256)⟩,
         .token [], .optionStart, .optionsCompleted, .payload [] true, .completed]) := by
  have hz : (UInt8.ofNat (64 * m.version + 16 * m.type)) &&& 15 = 0 := by
    apply UInt8.toNat_inj.1
    rw [show (15 : UInt8) = 0x0F from rfl, tkl_toNat]
    simp; omega
  have he : encMsg m = [UInt8.ofNat (64 * m.version + 16 * m.type), UInt8.ofNat m.code, UInt8.ofNat (m.mid / 256),
            UInt8.ofNat (m.mid % 256)] := by
    simp [encMsg, encHeader, ht, ho, hp, encOpts, encPayload]
  rw [he]
  generalize UInt8.ofNat (64 * m.version + 16 * m.type) = b0 at hz
  simp [processToDone, stepNotify, Dec.step, notify, fresh, Ctx.remainder, headerLoop, writeHeader,
    tokenLength, hz, hj]

-- the left-over state does occur: decode a message with a payload, then reuse the decoder
example : ∃ d c e, processToDone 30 Dec.zero ⟨[0x40, 1, 0, 1, 0xFF, 7], 0, true⟩ = .ok (d, c, e) ∧
    d.st = .done ∧ d.opt.st = .payload := by
  refine ⟨_, _, _, rfl, rfl, rfl⟩

/-- A message using every form: token, literal, 8-bit and 16-bit deltas, an empty option, a payload. -/
def sampleMsg : Msg :=
  { version := 1, type := 0, code := 1, mid := 0x1234, token := [0xAA, 0xFF],
    opts := [⟨11, [0x61]⟩, ⟨11, []⟩, ⟨60, List.replicate 14 7⟩, ⟨400, [1, 2]⟩], payload := some [0xFF, 9] }

example : sampleMsg.Ok := by decide

example : encMsg sampleMsg = [0x42, 1, 0x12, 0x34, 0xAA, 0xFF, 0xB1, 0x61, 0x00, 0xDD, 36, 1,
    7, 7, 7, 7, 7, 7, 7, 7, 7, 7, 7, 7, 7, 7, 0xE2, 0, 71, 1, 2, 0xFF, 0xFF, 9] := by decide

end Verif.Props
