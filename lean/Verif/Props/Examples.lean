import Verif.Model.Examples
import Verif.Spec.Examples
import Verif.Props.NetBufEncoder
import Verif.Props.PullDecoder
import Verif.Props.Server
import Verif.Props.Core

/-! # C63, C64, C65, C66: the example servers on the pull-style decoder -/
namespace Verif.Props
open Verif.Model Verif.Spec Verif.Proofs Verif.Model.Header Pull Observable

theorem response_ok {m : Msg} (hm : m.Ok) {code : Nat} (hc : code < 256) {p : Option (List UInt8)} (hp : p ≠ some []) :
    (response m code p).Ok := by
  obtain ⟨h1, h2, h3, h4, h5, h6, h7⟩ := hm
  refine ⟨h1, ?_, hc, h4, h5, trivial, hp⟩
  simp only [response]
  split <;> omega

/-- The context holds what was read, and the encoder echoes it. -/
theorem head_written {m : Msg} (hm : m.Ok) (paths : List Uri.Entry) (junkToken : List UInt8) (hjt : junkToken.length = 8)
    (r : Reading) (hh : r.header = (reading m [] .done).header) (ht : r.token = m.token) :
    ∃ x, incoming paths junkToken r = .ok x ∧ x.uri = Uri.Matcher.init paths ∧ x.getToken = .ok m.token ∧
      ∀ (room code : Nat) (junkHeader : Header), 4 + m.token.length ≤ room → code < 256 →
        (NEnc.init room).headerAndToken junkHeader x (UInt8.ofNat code) =
          .ok (⟨OptEnc.init, encHeader (response m code none) ++ m.token, room - 4 - m.token.length, false⟩, true) := by
  have h8 := hm.2.2.2.2.1
  have hf : hfields r.header = ⟨m.version, m.type, m.token.length, m.code, m.mid⟩ := by
    obtain ⟨h1, h2, h3, h4, h5, -, -⟩ := hm
    simp only [hh, hfields, fields, reading, Fields.mk.injEq]
    simp
    refine ⟨?_, ?_, ?_, ?_, ?_⟩ <;> omega
  have htl : r.header.tokenLength.toNat = m.token.length := by
    have : r.header.tokenLength.toNat = (hfields r.header).tkl := by rw [tokenLength, tkl_toNat]; rfl
    rw [this, hf]
  have hg : (⟨r.header, m.token ++ junkToken.drop m.token.length, Uri.Matcher.init paths, []⟩ : SCtx).getToken = .ok m.token := by
    simp only [SCtx.getToken, htl, List.length_append]
    rw [if_pos (by omega), List.take_append_of_le_length (by omega), List.take_of_length_le (by omega)]
  refine ⟨⟨r.header, m.token ++ junkToken.drop m.token.length, Uri.Matcher.init paths, []⟩, ?_, rfl, hg, ?_⟩
  · simp only [incoming, SCtx.init, SCtx.setHeader, SCtx.setToken, ht, hjt, h8, if_true]
  · intro room code junkHeader hroom hc
    have hb : [(createResponse junkHeader r.header (UInt8.ofNat code)).b0, (createResponse junkHeader r.header (UInt8.ofNat code)).b1,
        (createResponse junkHeader r.header (UInt8.ofNat code)).b2, (createResponse junkHeader r.header (UInt8.ofNat code)).b3] =
        encHeader (response m code none) := by
      refine header_bytes _ (response_ok hm hc (by simp)) _ ?_
      obtain ⟨e1, e2, e3, e4, e5⟩ := response_echoes junkHeader r.header (UInt8.ofNat code)
      rw [hf] at e1 e2 e3 e5
      have hcc : (UInt8.ofNat code).toNat = code := by simp; omega
      rw [hcc] at e4
      simp only [hfields] at e1 e2 e3 e4 e5
      cases hx : fields (createResponse junkHeader r.header (UInt8.ofNat code)).b0 (createResponse junkHeader r.header (UInt8.ofNat code)).b1
        (createResponse junkHeader r.header (UInt8.ofNat code)).b2 (createResponse junkHeader r.header (UInt8.ofNat code)).b3
      rw [hx] at e1 e2 e3 e4 e5
      simp only at e1 e2 e3 e4 e5
      simp only [response, e1, e2, e3, e4, e5]
    have hl4 : (encHeader (response m code none)).length = 4 := rfl
    simp only [NEnc.headerAndToken, hg]
    rw [NEnc.header, hb, if_pos (by simp [NEnc.init]; omega), write_fits _ _ (by simp [NEnc.init]; omega)]
    simp only [NEnc.token]
    rw [write_fits _ _ (by simp [NEnc.init, hl4]; omega)]
    simp [NEnc.init, hl4]

theorem encMsg_response (m : Msg) (code : Nat) (p : Option (List UInt8)) :
    encMsg (response m code p) = encHeader (response m code none) ++ m.token ++ encPayload p := by
  simp [encMsg, response, encHeader, encOpts]

/-- A payload marker with nothing behind it is no CoAP message (RFC 7252 section 3). -/
theorem bare_marker_malformed {m : Msg} (hm : m.Ok) {code : Nat} (hc : code < 256) :
    Malformed (encMsg (response m code (some []))) := by
  intro n hn he
  have hr := response_ok hm hc (p := none) (by simp)
  rw [encMsg_response] at he
  have h1 := hn.2.2.2.2.1
  have h2 := hm.2.2.2.2.1
  have hn' := hn
  obtain ⟨a1, a2, a3, a4, a5, a6, a7⟩ := hn
  obtain ⟨b1, b2, -⟩ := hr
  have he0 : UInt8.ofNat (64 * n.version + 16 * n.type + n.token.length) =
      UInt8.ofNat (64 * (response m code none).version + 16 * (response m code none).type + (response m code none).token.length) := by
    simp only [encMsg, encHeader, List.cons_append, List.cons.injEq] at he
    exact he.1
  have hlen : n.token.length = m.token.length := by
    have := congrArg UInt8.toNat he0
    have ht : (response m code none).token = m.token := rfl
    rw [ht] at this
    simp at this
    omega
  have hrest : n.token ++ encOpts 0 n.opts ++ encPayload n.payload = m.token ++ [0xFF] := by
    simp only [encMsg, encHeader, List.cons_append, List.nil_append, List.cons.injEq, List.append_assoc] at he
    simpa [encPayload] using he.2.2.2.2
  rw [List.append_assoc] at hrest
  obtain ⟨-, ht⟩ := List.append_inj hrest hlen
  cases ho : n.opts with
  | nil =>
    rw [ho] at ht
    cases hp : n.payload with
    | none => rw [hp] at ht; simp [encOpts, encPayload] at ht
    | some p =>
      rw [hp] at ht
      simp [encOpts, encPayload] at ht
      exact a7 (by rw [hp, ht])
  | cons o os =>
    rw [ho] at ht
    simp only [encOpts, optHeader, List.cons_append, List.cons.injEq] at ht
    have hb : ∀ v, nibble v ≤ 14 := by intro v; unfold nibble; split <;> (try split) <;> omega
    have := congrArg UInt8.toNat ht.1
    have := hb (o.number - 0)
    have := hb o.value.length
    simp at *
    omega

/-! ## C63: the ping example -/

/-- C63: every well-formed message is answered by exactly a 2.05 with its message id and token — with the responder
built without a walk over the options. -/
theorem ping_answered_partial (m : Msg) (hm : m.Ok) (ob : List UInt8) (junk : Dec) (hj : junk.tbuf.length = 8)
    (junkToken : List UInt8) (hjt : junkToken.length = 8) (junkHeader : Header) (room : Nat) (hroom : 4 + m.token.length ≤ room) :
    pingReply room junk junkToken junkHeader (fun p => .ok ([], p)) (wire m ob) = .ok (encMsg (response m 0x45 none)) := by
  obtain ⟨p, -, -, -, h⟩ := wire_head m hm ob junk hj (fun p => .ok ([], p))
  have e := h [] p rfl
  obtain ⟨x, e1, -, -, e2⟩ := head_written hm [] junkToken hjt
    ⟨(reading m [] .done).header, m.token, true, [], p.payload, p.d.st⟩ rfl rfl
  have e3 := e2 room 0x45 junkHeader hroom (by omega)
  have e' : readWith (fun p => .ok ([], p)) (make junk (wire m ob)) =
    .ok ⟨(reading m [] .done).header, m.token, true, [], p.payload, p.d.st⟩ := e
  simp only [pingReply, e', e1]
  rw [show codeContent = UInt8.ofNat 0x45 from rfl, e3]
  simp [encMsg_response, encPayload]

/-- C63: the same with the walk over the options. -/
theorem ping_walking_answered_partial (m : Msg) (hm : m.Ok) (ob : List UInt8) (hob : IsOpts 0 m.opts ob) (junk : Dec)
    (hj : junk.tbuf.length = 8) (hst : junk.opt.st ≠ .payload ∨ m.token ≠ [] ∨ m.opts ≠ [] ∨ m.payload ≠ none)
    (junkToken : List UInt8) (hjt : junkToken.length = 8) (junkHeader : Header) (room : Nat) (hroom : 4 + m.token.length ≤ room)
    (fuel : Nat) (hf : m.opts.length < fuel) :
    pingReply room junk junkToken junkHeader (iterAll fuel) (wire m ob) = .ok (encMsg (response m 0x45 none)) := by
  have e := iterator_shows_partial m hm ob hob junk hj hst fuel hf
  obtain ⟨x, e1, -, -, e2⟩ := head_written hm [] junkToken hjt (r := reading m (iteratorShows m.payload.isSome m.opts)
        (if iteratorArrives m.payload.isSome m.opts then behindOptions m else .optionsDone)) rfl rfl
  simp only [pingReply, e, e1]
  rw [show codeContent = UInt8.ofNat 0x45 from rfl, e2 room 0x45 junkHeader hroom (by omega)]
  simp [encMsg_response, encPayload]

/-- C63 fails for acknowledgements and resets, which must not be answered (RFC 7252 sections 4.2 and 4.3): a reset is
answered by a reset with a response code, an acknowledgement by an acknowledgement. -/
theorem ping_answers_everything (m : Msg) (hm : m.Ok) (ht : m.type = 2 ∨ m.type = 3) (ob : List UInt8) (junk : Dec)
    (hj : junk.tbuf.length = 8) (junkToken : List UInt8) (hjt : junkToken.length = 8) (junkHeader : Header) (room : Nat)
    (hroom : 4 + m.token.length ≤ room) :
    pingReply room junk junkToken junkHeader (fun p => .ok ([], p)) (wire m ob) =
      .ok (encMsg { m with code := 0x45, opts := [], payload := none }) := by
  rw [ping_answered_partial m hm ob junk hj junkToken hjt junkHeader room hroom]
  rcases ht with ht | ht <;> simp [response, ht]

/-- C63 fails: the answer to the responder's own answer is the same message again, so that two such servers never stop
answering each other. -/
theorem ping_never_rests (m : Msg) (hm : m.Ok) (junk : Dec) (hj : junk.tbuf.length = 8)
    (junkToken : List UInt8) (hjt : junkToken.length = 8) (junkHeader : Header) (room : Nat) (hroom : 4 + m.token.length ≤ room) :
    pingReply room junk junkToken junkHeader (fun p => .ok ([], p)) (encMsg (response m 0x45 none)) =
      .ok (encMsg (response m 0x45 none)) := by
  have h := ping_answered_partial (response m 0x45 none) (response_ok hm (by omega) (by simp)) (encOpts 0 []) junk hj
    junkToken hjt junkHeader room hroom
  have hw : wire (response m 0x45 none) (encOpts 0 []) = encMsg (response m 0x45 none) := rfl
  rw [hw] at h
  rw [h]
  by_cases h0 : m.type = 0 <;> simp [response, h0]

/-! ## C64: the path example -/

theorem shows_mem (b : Bool) (os : List Opt) : ∀ x ∈ iteratorShows b os, ∃ y ∈ os, x.number = y.number := by
  fun_induction iteratorShows b os with
  | case1 => simp
  | case2 o h => simp
  | case3 o h => simp
  | case4 o o2 => simp
  | case5 o o2 o3 rest ih =>
    intro x hx
    simp only [List.mem_cons] at hx
    rcases hx with rfl | rfl | hx
    · exact ⟨o, by simp, rfl⟩
    · exact ⟨x, by simp, rfl⟩
    · obtain ⟨y, hy, hn⟩ := ih x hx
      exact ⟨y, by simp [hy], hn⟩

theorem optsOk_lt : ∀ {prev : Nat} {os : List Opt}, OptsOk prev os → ∀ o ∈ os, o.number < 65536
  | _, [], _ => by simp
  | _, o :: os, ⟨_, h2, _, h4⟩ => by
    intro x hx
    rcases List.mem_cons.1 hx with rfl | hx
    · exact h2
    · exact optsOk_lt h4 x hx

theorem shows_lt {m : Msg} (hm : m.Ok) (b : Bool) : ∀ o ∈ iteratorShows b m.opts, o.number < 65536 := by
  intro o ho
  obtain ⟨y, hy, e⟩ := shows_mem b m.opts o ho
  rw [e]
  exact optsOk_lt hm.2.2.2.2.2.1 y hy

theorem number_beq {n k : Nat} (hn : n < 65536) (hk : k < 65536) : (UInt16.ofNat n == UInt16.ofNat k) = decide (n = k) := by
  by_cases h : n = k
  · simp [h]
  · have : UInt16.ofNat n ≠ UInt16.ofNat k := by
      intro hc
      have := congrArg UInt16.toNat hc
      simp at this
      omega
    simp [h, this]

theorem slashText_cons (o : Opt) (os : List Opt) :
    slashText (o :: os) = (if o.number = 11 then o.value ++ [47] else []) ++ slashText os := by
  by_cases h : o.number = 11 <;> simp [slashText, segments, h]

/-- The text collected is the path of the options shown, as long as it fits. -/
theorem uriLoop_text (cap : Nat) : ∀ (os : List Opt) (uri : List UInt8), (∀ o ∈ os, o.number < 65536) → uri.length ≤ cap →
    uriLoop cap uri (os.map fun o => (UInt16.ofNat o.number, o.value)) =
      if (uri ++ slashText os).length ≤ cap then .ok (uri ++ slashText os) else .error .text
  | [], uri, _, hu => by simp [uriLoop, slashText, segments, hu]
  | o :: os, uri, h, hu => by
    rw [List.map_cons, uriLoop, show (11 : UInt16) = UInt16.ofNat 11 from rfl, number_beq (h o (by simp)) (by omega), slashText_cons]
    have hr : ∀ x ∈ os, x.number < 65536 := fun x hx => h x (by simp [hx])
    by_cases hn : o.number = 11
    · simp only [hn, decide_true, if_true, addSegment]
      by_cases hc : (uri ++ o.value ++ [47]).length ≤ cap
      · simp only [hc, if_true]
        rw [uriLoop_text cap os _ hr hc]
        simp [List.append_assoc]
      · simp only [hc, if_false]
        rw [if_neg]
        simp only [List.length_append] at hc ⊢
        omega
    · simp only [hn, decide_false, Bool.false_eq_true, if_false, List.nil_append]
      exact uriLoop_text cap os uri hr hu

theorem answer_sent {m : Msg} {x : SCtx} {room code : Nat} {junkHeader : Header} (text : List UInt8)
    (h : (NEnc.init room).headerAndToken junkHeader x (UInt8.ofNat code) =
      .ok (⟨OptEnc.init, encHeader (response m code none) ++ m.token, room - 4 - m.token.length, false⟩, true))
    (hroom : 5 + m.token.length + text.length ≤ room) :
    answer room junkHeader x (UInt8.ofNat code) text = .ok (encMsg (response m code (some text))) := by
  simp only [answer, h, NEnc.payload, NEnc.payloadHeader, Bool.not_false, if_true]
  rw [if_neg (by simp; omega)]
  simp only
  rw [write_fits _ _ (by simp only; omega)]
  simp [encMsg_response, encPayload]

/-- The text "test/" belongs to the path of the one segment `test` only. -/
theorem text_test_iff (os : List Opt) : slashText os = [116, 101, 115, 116, 47] ↔ segments os = [[116, 101, 115, 116]] := by
  unfold slashText
  constructor
  · intro h
    match hs : segments os with
    | [] => rw [hs] at h; simp at h
    | [s] =>
      rw [hs] at h
      have h' : s ++ [47] = [116, 101, 115, 116] ++ [47] := by simpa using h
      rw [List.append_cancel_right h']
    | s :: t :: r =>
      rw [hs] at h
      have := congrArg (List.count 47) h
      simp [List.count_append] at this
      omega
  · intro h
    rw [h]; rfl

/-- C64 (partial: the path is that of the options which the iterator shows): for every well-formed request the
responder sends 2.03 if that path is `test` and 4.04 otherwise, with message id and token of the request and the path
as payload. -/
theorem path_echoed_partial (m : Msg) (hm : m.Ok) (ob : List UInt8) (hob : IsOpts 0 m.opts ob) (junk : Dec)
    (hj : junk.tbuf.length = 8) (hst : junk.opt.st ≠ .payload ∨ m.token ≠ [] ∨ m.opts ≠ [] ∨ m.payload ≠ none)
    (junkToken : List UInt8) (hjt : junkToken.length = 8) (junkHeader : Header) (cap room fuel : Nat)
    (hcap : (slashText (iteratorShows m.payload.isSome m.opts)).length ≤ cap) (hroom : 13 + cap ≤ room) (hf : m.opts.length < fuel) :
    uriReply cap room fuel junk junkToken junkHeader (wire m ob) =
      .ok (encMsg (response m (if segments (iteratorShows m.payload.isSome m.opts) = [[116, 101, 115, 116]] then 0x43 else 0x84)
        (some (slashText (iteratorShows m.payload.isSome m.opts))))) := by
  have h8 := hm.2.2.2.2.1
  have e := iterator_shows_partial m hm ob hob junk hj hst fuel hf
  obtain ⟨x, e1, -, -, e2⟩ := head_written hm [] junkToken hjt (r := reading m (iteratorShows m.payload.isSome m.opts)
        (if iteratorArrives m.payload.isSome m.opts then behindOptions m else .optionsDone)) rfl rfl
  have e3 := uriLoop_text cap (iteratorShows m.payload.isSome m.opts) [] (shows_lt hm _) (by simp)
  rw [List.nil_append, if_pos hcap] at e3
  have e4 := fun code hc => answer_sent (slashText (iteratorShows m.payload.isSome m.opts))
    (e2 room code junkHeader (by omega) hc) (by omega)
  simp only [uriReply, e, e1]
  change (match uriLoop cap [] ((iteratorShows m.payload.isSome m.opts).map fun o => (UInt16.ofNat o.number, o.value)) with
    | .error e => _
    | .ok uri => _) = _
  rw [e3]
  simp only [beq_iff_eq, text_test_iff]
  by_cases h : segments (iteratorShows m.payload.isSome m.opts) = [[116, 101, 115, 116]]
  · simp only [h, if_true]
    exact e4 0x43 (by omega)
  · simp only [h, if_false]
    exact e4 0x84 (by omega)

/-- C64: the answer is the right one exactly when the iterator does not change the path. -/
theorem path_echoed_right_iff (m : Msg) (hm : m.Ok) (ob : List UInt8) (hob : IsOpts 0 m.opts ob) (junk : Dec)
    (hj : junk.tbuf.length = 8) (hst : junk.opt.st ≠ .payload ∨ m.token ≠ [] ∨ m.opts ≠ [] ∨ m.payload ≠ none)
    (junkToken : List UInt8) (hjt : junkToken.length = 8) (junkHeader : Header) (cap room fuel : Nat)
    (hcap : (slashText (iteratorShows m.payload.isSome m.opts)).length ≤ cap) (hroom : 13 + cap ≤ room) (hf : m.opts.length < fuel) :
    uriReply cap room fuel junk junkToken junkHeader (wire m ob) =
      .ok (encMsg (response m (if segments m.opts = [[116, 101, 115, 116]] then 0x43 else 0x84) (some (slashText m.opts)))) ↔
    slashText (iteratorShows m.payload.isSome m.opts) = slashText m.opts := by
  rw [path_echoed_partial m hm ob hob junk hj hst junkToken hjt junkHeader cap room fuel hcap hroom hf]
  constructor
  · intro h
    simp only [Except.ok.injEq, encMsg_response] at h
    have hl : ∀ c, (encHeader (response m c none) ++ m.token).length = 4 + m.token.length := by
      intro c; simp [encHeader]; omega
    have := (List.append_inj h (by rw [hl, hl])).2
    simpa [encPayload] using this
  · intro h
    have hi : segments (iteratorShows m.payload.isSome m.opts) = [[116, 101, 115, 116]] ↔ segments m.opts = [[116, 101, 115, 116]] := by
      rw [← text_test_iff, ← text_test_iff, h]
    simp only [h, hi]

/-- C64 fails: a request for `test` and nothing else is answered by 4.04, with a payload marker and nothing behind it,
which is no CoAP message. -/
theorem path_test_missed (m : Msg) (hm : m.Ok) (ho : m.opts = [⟨11, [116, 101, 115, 116]⟩]) (hp : m.payload = none)
    (ob : List UInt8) (hob : IsOpts 0 m.opts ob) (junk : Dec) (hj : junk.tbuf.length = 8) (junkToken : List UInt8)
    (hjt : junkToken.length = 8) (junkHeader : Header) (cap room fuel : Nat) (hroom : 13 + cap ≤ room) (hf : 1 < fuel) :
    uriReply cap room fuel junk junkToken junkHeader (wire m ob) = .ok (encMsg (response m 0x84 (some []))) ∧
      Malformed (encMsg (response m 0x84 (some []))) := by
  refine ⟨?_, bare_marker_malformed hm (by omega)⟩
  have hs : iteratorShows m.payload.isSome m.opts = [] := by simp [ho, hp, iteratorShows]
  rw [path_echoed_partial m hm ob hob junk hj (by simp [ho]) junkToken hjt junkHeader cap room fuel
    (by rw [hs]; simp [slashText, segments]) hroom (by simpa [ho] using hf), hs]
  rfl

/-- C64 fails: no request with fewer than three options is answered by 2.03. -/
theorem path_short_never_valid (m : Msg) (hm : m.Ok) (ho : m.opts.length < 3) (ob : List UInt8) (hob : IsOpts 0 m.opts ob)
    (junk : Dec) (hj : junk.tbuf.length = 8) (hst : junk.opt.st ≠ .payload ∨ m.token ≠ [] ∨ m.opts ≠ [] ∨ m.payload ≠ none)
    (junkToken : List UInt8) (hjt : junkToken.length = 8) (junkHeader : Header) (cap room fuel : Nat)
    (hcap : (slashText (iteratorShows m.payload.isSome m.opts)).length ≤ cap) (hroom : 13 + cap ≤ room) (hf : m.opts.length < fuel) :
    ∃ text, uriReply cap room fuel junk junkToken junkHeader (wire m ob) = .ok (encMsg (response m 0x84 (some text))) := by
  rw [path_echoed_partial m hm ob hob junk hj hst junkToken hjt junkHeader cap room fuel hcap hroom hf]
  have hs : segments (iteratorShows m.payload.isSome m.opts) ≠ [[116, 101, 115, 116]] := by
    match hos : m.opts with
    | [] => simp [iteratorShows, segments]
    | [o] =>
      by_cases hc : m.payload.isSome = true ∨ o.value = []
      · by_cases hn : o.number = 11 <;> simp [iteratorShows, segments, hc, hn]
      · simp [iteratorShows, segments, hc]
    | [o, o2] => by_cases hn : o.number = 11 <;> simp [iteratorShows, segments, hn]
    | _ :: _ :: _ :: _ => rw [hos] at ho; simp at ho; omega
  rw [if_neg hs]
  exact ⟨_, rfl⟩

/-- C64 fails: a request without a path is answered by bytes that are no CoAP message. -/
theorem path_empty_malformed (m : Msg) (hm : m.Ok) (ho : ∀ o ∈ m.opts, o.number ≠ 11) (ob : List UInt8)
    (hob : IsOpts 0 m.opts ob) (junk : Dec) (hj : junk.tbuf.length = 8)
    (hst : junk.opt.st ≠ .payload ∨ m.token ≠ [] ∨ m.opts ≠ [] ∨ m.payload ≠ none)
    (junkToken : List UInt8) (hjt : junkToken.length = 8) (junkHeader : Header) (cap room fuel : Nat)
    (hroom : 13 + cap ≤ room) (hf : m.opts.length < fuel) :
    ∃ out, uriReply cap room fuel junk junkToken junkHeader (wire m ob) = .ok out ∧ Malformed out := by
  have hs : segments (iteratorShows m.payload.isSome m.opts) = [] := by
    simp only [segments, List.map_eq_nil_iff, List.filter_eq_nil_iff, decide_eq_true_eq]
    intro o h
    obtain ⟨y, hy, e⟩ := shows_mem _ _ o h
    rw [e]; exact ho y hy
  have ht : slashText (iteratorShows m.payload.isSome m.opts) = [] := by simp [slashText, hs]
  refine ⟨_, path_echoed_partial m hm ob hob junk hj hst junkToken hjt junkHeader cap room fuel (by simp [ht]) hroom hf, ?_⟩
  rw [ht, hs]
  exact bare_marker_malformed hm (by decide)

theorem segments_cons (o : Opt) (os : List Opt) :
    segments (o :: os) = (if o.number = 11 then [o.value] else []) ++ segments os := by
  by_cases h : o.number = 11 <;> simp [segments, h]

theorem segments_nil : segments [] = [] := rfl

/-- The iterator never adds segments. -/
theorem shown_segments_le (b : Bool) (os : List Opt) : (segments (iteratorShows b os)).length ≤ (segments os).length := by
  fun_induction iteratorShows b os with
  | case1 => simp
  | case2 o h => simp only [segments_cons, segments_nil]; split <;> simp
  | case3 o h => simp [segments_nil]
  | case4 o o2 => simp only [segments_cons, segments_nil]; split <;> simp
  | case5 o o2 o3 rest ih =>
    simp only [segments_cons, List.length_append]
    split <;> split <;> simp <;> omega

/-- A leading path segment is never shown. -/
theorem leading_segment_lost (b : Bool) (o : Opt) (os : List Opt) (hn : o.number = 11) (hv : o.value ≠ []) :
    segments (iteratorShows b (o :: os)) ≠ segments (o :: os) := by
  intro h
  match os with
  | [] =>
    rw [segments_cons, if_pos hn] at h
    unfold iteratorShows at h
    split at h
    · simp [segments_cons, segments_nil, hn] at h
      exact hv h
    · simp [segments_nil] at h
  | [o2] =>
    simp [iteratorShows, segments_cons, segments_nil, hn] at h
    exact hv h.1
  | o2 :: o3 :: rest =>
    simp [iteratorShows, segments_cons, hn] at h
    exact hv h.1

theorem sorted_segments {prev : Nat} : ∀ {os : List Opt}, OptsOk prev os → 11 < prev → segments os = []
  | [], _, _ => rfl
  | o :: os, ⟨h1, _, _, h4⟩, h => by
    rw [segments_cons, if_neg (by omega), sorted_segments h4 (by omega)]
    rfl

/-- A path of two or more segments is never shown whole. -/
theorem deep_path_lost (b : Bool) (os : List Opt) : ∀ (prev : Nat), OptsOk prev os → (∀ s ∈ segments os, s ≠ []) →
    2 ≤ (segments os).length → segments (iteratorShows b os) ≠ segments os := by
  fun_induction iteratorShows b os with
  | case1 => intro prev _ _ h; simp [segments_nil] at h
  | case2 o h => intro prev _ _ h; simp only [segments_cons, segments_nil] at h; split at h <;> simp at h
  | case3 o h => intro prev _ _ h; simp only [segments_cons, segments_nil] at h; split at h <;> simp at h
  | case4 o o2 =>
    intro prev _ _ h he
    have := congrArg List.length he
    simp only [segments_cons, segments_nil] at this h
    split at this <;> split at this <;> simp_all
  | case5 o o2 o3 rest ih =>
    intro prev hok hne hl he
    obtain ⟨a1, a2, a3, b1, b2, b3, c1, c2, c3, d⟩ := hok
    by_cases h1 : o.number = 11
    · simp only [segments_cons, if_pos h1, List.cons_append, List.nil_append, List.cons.injEq] at he
      exact hne o.value (by simp [segments_cons, h1]) he.1.symm
    · by_cases h2 : o2.number = 11
      · have := congrArg List.length he
        have hle := shown_segments_le b rest
        simp only [segments_cons, if_neg h1, if_pos h2, List.length_append, List.length_cons, List.length_nil] at this
        omega
      · by_cases h3 : o3.number = 11
        · simp only [segments_cons, if_neg h1, if_neg h2, if_pos h3, List.nil_append, List.cons_append, List.cons.injEq, true_and] at he
          have hl' : segments rest ≠ [] := by
            intro hc
            simp [segments_cons, h1, h2, h3, hc] at hl
          match rest, d, hl', he, hne with
          | [], _, hl', _, _ => exact hl' rfl
          | r :: rest, d, hl', he, hne =>
            by_cases hr : r.number = 11
            · exact leading_segment_lost b r rest hr (hne r.value (by simp [segments_cons, hr])) he
            · refine hl' ?_
              obtain ⟨r1, r2, r3, r4⟩ := d
              rw [segments_cons, if_neg hr, sorted_segments r4 (by omega)]
              rfl
        · simp only [segments_cons, if_neg h1, if_neg h2, if_neg h3, List.nil_append] at he hne hl
          exact ih _ d hne hl he

theorem slash_inj : ∀ {s t x y : List UInt8}, (47 : UInt8) ∉ s → (47 : UInt8) ∉ t → s ++ 47 :: x = t ++ 47 :: y → s = t ∧ x = y
  | [], [], _, _, _, _, h => ⟨rfl, by simpa using h⟩
  | [], b :: t, _, _, _, ht, h => by
    simp at h
    exact absurd (by simp [← h.1]) ht
  | a :: s, [], _, _, hs, _, h => by
    simp at h
    exact absurd (by simp [h.1]) hs
  | a :: s, b :: t, _, _, hs, ht, h => by
    simp only [List.cons_append, List.cons.injEq] at h
    obtain ⟨e1, e2⟩ := slash_inj (fun hc => hs (by simp [hc])) (fun hc => ht (by simp [hc])) h.2
    exact ⟨by rw [h.1, e1], e2⟩

/-- Text and segments determine each other when no segment contains a slash. -/
theorem text_inj : ∀ {ss ts : List (List UInt8)}, (∀ s ∈ ss, (47 : UInt8) ∉ s) → (∀ s ∈ ts, (47 : UInt8) ∉ s) →
    (ss.map fun s => s ++ [47]).flatten = (ts.map fun s => s ++ [47]).flatten → ss = ts
  | [], [], _, _, _ => rfl
  | [], t :: ts, _, _, h => by simp at h
  | s :: ss, [], _, _, h => by simp at h
  | s :: ss, t :: ts, hs, ht, h => by
    simp only [List.map_cons, List.flatten_cons, List.append_assoc, List.cons_append, List.nil_append] at h
    obtain ⟨e1, e2⟩ := slash_inj (hs s (by simp)) (ht t (by simp)) h
    rw [e1, text_inj (fun x hx => hs x (by simp [hx])) (fun x hx => ht x (by simp [hx])) e2]

theorem shown_values (b : Bool) (os : List Opt) : ∀ x ∈ iteratorShows b os, x.value = [] ∨ x ∈ os := by
  fun_induction iteratorShows b os with
  | case1 => simp
  | case2 o h => simp
  | case3 o h => simp
  | case4 o o2 => simp
  | case5 o o2 o3 rest ih =>
    intro x hx
    simp only [List.mem_cons] at hx
    rcases hx with rfl | rfl | hx
    · exact Or.inl rfl
    · exact Or.inr (by simp)
    · rcases ih x hx with h | h
      · exact Or.inl h
      · exact Or.inr (by simp [h])

/-- C64 fails: no request for a path of two or more segments (without empty ones and slashes inside) is answered by its
path. -/
theorem path_deep_wrong (m : Msg) (hm : m.Ok) (hseg : 2 ≤ (segments m.opts).length)
    (hne : ∀ s ∈ segments m.opts, s ≠ [] ∧ (47 : UInt8) ∉ s) (ob : List UInt8) (hob : IsOpts 0 m.opts ob) (junk : Dec)
    (hj : junk.tbuf.length = 8) (junkToken : List UInt8) (hjt : junkToken.length = 8) (junkHeader : Header) (cap room fuel : Nat)
    (hcap : (slashText (iteratorShows m.payload.isSome m.opts)).length ≤ cap) (hroom : 13 + cap ≤ room) (hf : m.opts.length < fuel) :
    ∃ text code, text ≠ slashText m.opts ∧
      uriReply cap room fuel junk junkToken junkHeader (wire m ob) = .ok (encMsg (response m code (some text))) := by
  have hst : junk.opt.st ≠ .payload ∨ m.token ≠ [] ∨ m.opts ≠ [] ∨ m.payload ≠ none := by
    refine Or.inr (Or.inr (Or.inl ?_))
    intro h
    simp [h, segments_nil] at hseg
  refine ⟨_, _, ?_, path_echoed_partial m hm ob hob junk hj hst junkToken hjt junkHeader cap room fuel hcap hroom hf⟩
  intro h
  refine deep_path_lost m.payload.isSome m.opts 0 hm.2.2.2.2.2.1 (fun s hs => (hne s hs).1) hseg (text_inj ?_ (fun s hs => (hne s hs).2) h)
  intro s hs hc
  simp only [segments, List.mem_map, List.mem_filter, decide_eq_true_eq] at hs
  obtain ⟨o, ⟨h1, h2⟩, rfl⟩ := hs
  rcases shown_values _ _ o h1 with h3 | h3
  · simp [h3] at hc
  · exact (hne o.value (by simp only [segments, List.mem_map, List.mem_filter, decide_eq_true_eq]; exact ⟨o, ⟨h3, h2⟩, rfl⟩)).2 hc

/-! ## C65: the observe example -/

theorem observeValues_cons (o : Opt) (os : List Opt) :
    observeValues (o :: os) = (if o.number = 6 then [o.value] else []) ++ observeValues os := by
  by_cases h : o.number = 6 <;> simp [observeValues, h]

/-- The loop registers once for every Observe option whose first byte is absent or 0, collects the path, and keeps the
code of the last Observe option. -/
theorem observeLoop_effect {A : Type} (cap regCap : Nat) (addr : A) (token : List UInt8) : ∀ (os : List Opt) (reg : Registrar A)
    (uri : List UInt8) (k : Nat), (∀ o ∈ os, o.number < 65536) → k < 256 → (uri ++ slashText os).length ≤ cap →
    reg.sessions.length + ((observeValues os).map fun v => v.headD 0).count 0 ≤ regCap →
    observeLoop cap regCap addr token reg uri (UInt8.ofNat k) (os.map fun o => (UInt16.ofNat o.number, o.value)) =
      .ok ({ reg with sessions := reg.sessions ++ List.replicate (((observeValues os).map fun v => v.headD 0).count 0) ⟨addr, token, 0⟩ },
        uri ++ slashText os, UInt8.ofNat (lastCode k ((observeValues os).map fun v => v.headD 0)))
  | [], reg, uri, k, _, _, _, _ => by simp [observeLoop, slashText, segments, observeValues, lastCode]
  | o :: os, reg, uri, k, h, hk, hc, hr => by
    have hb := h o (by simp)
    have hrest : ∀ x ∈ os, x.number < 65536 := fun x hx => h x (by simp [hx])
    rw [List.map_cons, observeLoop, show (11 : UInt16) = UInt16.ofNat 11 from rfl, number_beq hb (by omega),
      show (6 : UInt16) = UInt16.ofNat 6 from rfl, number_beq hb (by omega), slashText_cons, observeValues_cons]
    rw [slashText_cons] at hc
    rw [observeValues_cons] at hr
    by_cases h11 : o.number = 11
    · have h6 : o.number ≠ 6 := by omega
      simp only [h11, if_true] at hc
      simp only [h6, if_false, List.nil_append] at hr
      have hl : (uri ++ o.value ++ [47]).length ≤ cap := by
        simp only [List.length_append] at hc ⊢; omega
      simp only [h11, decide_true, if_true, addSegment, hl]
      rw [observeLoop_effect cap regCap addr token os reg _ k hrest hk (by simpa [List.append_assoc] using hc) hr]
      simp [List.append_assoc]
    · by_cases h6 : o.number = 6
      · simp only [h11, if_false, List.nil_append] at hc
        simp only [h6, if_true, List.cons_append, List.nil_append, List.map_cons] at hr
        simp only [h6, decide_true, if_true, decide_false, Bool.false_eq_true, if_false,
          List.cons_append, List.nil_append, List.map_cons, lastCode, Nat.reduceEqDiff]
        by_cases h0 : o.value.headD 0 = 0
        · rw [h0] at hr
          rw [List.count_cons_self] at hr
          have hlt : reg.sessions.length < regCap := by omega
          have he : reg.evaluate regCap addr token (uint8Of o.value) =
              .ok ({ reg with sessions := reg.sessions ++ [⟨addr, token, 0⟩] }, UInt8.ofNat 0x43) := by
            rw [show uint8Of o.value = 0 from h0]
            simp [Registrar.evaluate, Registrar.doRegister, hlt, codeValid]
          rw [he]
          simp only
          rw [observeLoop_effect cap regCap addr token os _ uri 0x43 hrest (by omega) hc
            (by simp only [List.length_append, List.length_cons, List.length_nil]; omega)]
          simp only [h0, List.count_cons_self, List.replicate_succ, true_or, if_true, List.append_assoc, List.cons_append, List.nil_append]
        · have hcnt : (o.value.headD 0 :: (observeValues os).map fun v => v.headD 0).count 0 = ((observeValues os).map fun v => v.headD 0).count 0 := by
            rw [List.count_cons_of_ne h0]
          rw [hcnt] at hr ⊢
          by_cases h1 : o.value.headD 0 = 1
          · have he : reg.evaluate regCap addr token (uint8Of o.value) = .ok (reg, UInt8.ofNat 0x43) := by
              rw [show uint8Of o.value = 1 from h1]
              rfl
            rw [he]
            simp only
            rw [observeLoop_effect cap regCap addr token os reg uri 0x43 hrest (by omega) hc hr, if_pos (Or.inr h1)]
          · have he : reg.evaluate regCap addr token (uint8Of o.value) = .ok (reg, UInt8.ofNat 0x82) := by
              have g0 : uint8Of o.value ≠ 0 := h0
              have g1 : uint8Of o.value ≠ 1 := h1
              simp [Registrar.evaluate, g0, g1, codeBadOption]
            rw [he]
            simp only
            rw [observeLoop_effect cap regCap addr token os reg uri 0x82 hrest (by omega) hc hr, if_neg (by simp only [h0, h1, or_self, not_false_eq_true])]
      · simp only [h11, h6, decide_false, Bool.false_eq_true, if_false, List.nil_append] at hc hr ⊢
        exact observeLoop_effect cap regCap addr token os reg uri k hrest hk hc hr

theorem lastCode_lt (k : Nat) (hk : k < 256) (cs : List UInt8) : lastCode k cs < 256 := by
  induction cs generalizing k with
  | nil => exact hk
  | cons c cs ih => rw [lastCode]; apply ih; split <;> omega

/-- C65 (partial: the options are those which the iterator shows): for every well-formed request the responder
registers the sender and token once for every Observe option without value or with first byte 0, and answers with the
message id and token of the request, the code of the last Observe option (4.04 without one) and the path as payload. -/
theorem observe_answered_partial {A : Type} (m : Msg) (hm : m.Ok) (ob : List UInt8) (hob : IsOpts 0 m.opts ob) (junk : Dec)
    (hj : junk.tbuf.length = 8) (hst : junk.opt.st ≠ .payload ∨ m.token ≠ [] ∨ m.opts ≠ [] ∨ m.payload ≠ none)
    (junkToken : List UInt8) (hjt : junkToken.length = 8) (junkHeader : Header) (cap regCap room fuel : Nat) (reg : Registrar A)
    (addr : A) (hcap : (slashText (iteratorShows m.payload.isSome m.opts)).length ≤ cap) (hroom : 13 + cap ≤ room)
    (hreg : reg.sessions.length + ((observeValues (iteratorShows m.payload.isSome m.opts)).map fun v => v.headD 0).count 0 ≤ regCap)
    (hf : m.opts.length < fuel) :
    observeReply cap regCap room fuel junk junkToken junkHeader reg addr (wire m ob) =
      .ok ({ reg with
          sessions := reg.sessions ++
            List.replicate (((observeValues (iteratorShows m.payload.isSome m.opts)).map fun v => v.headD 0).count 0) ⟨addr, m.token, 0⟩ },
        encMsg (response m (lastCode 0x84 ((observeValues (iteratorShows m.payload.isSome m.opts)).map fun v => v.headD 0))
          (some (slashText (iteratorShows m.payload.isSome m.opts))))) := by
  have h8 := hm.2.2.2.2.1
  have e := iterator_shows_partial m hm ob hob junk hj hst fuel hf
  obtain ⟨x, e1, -, eg, e2⟩ := head_written hm [] junkToken hjt (r := reading m (iteratorShows m.payload.isSome m.opts)
        (if iteratorArrives m.payload.isSome m.opts then behindOptions m else .optionsDone)) rfl rfl
  have e3 := observeLoop_effect cap regCap addr m.token (iteratorShows m.payload.isSome m.opts) reg [] 0x84 (shows_lt hm _)
    (by omega) (by simpa using hcap) hreg
  have e4 := fun code hc => answer_sent (slashText (iteratorShows m.payload.isSome m.opts))
    (e2 room code junkHeader (by omega) hc) (by omega)
  simp only [observeReply, e, e1, eg]
  change (match observeLoop cap regCap addr m.token reg [] (UInt8.ofNat 0x84)
      ((iteratorShows m.payload.isSome m.opts).map fun o => (UInt16.ofNat o.number, o.value)) with
    | .error e => _
    | .ok (reg, uri, code) => _) = _
  rw [e3]
  simp only [List.nil_append]
  rw [e4 _ (lastCode_lt _ (by omega) _)]

theorem no_observe {os : List Opt} (h : ∀ o ∈ os, o.number ≠ 6) (b : Bool) : observeValues (iteratorShows b os) = [] := by
  simp only [observeValues, List.map_eq_nil_iff, List.filter_eq_nil_iff, decide_eq_true_eq]
  intro o ho
  obtain ⟨y, hy, e⟩ := shows_mem _ _ o ho
  rw [e]; exact h y hy

/-- C65 fails: a request to end an observation (Observe 1, or any other value), followed by a path, registers the sender
once more. -/
theorem observe_end_registers {A : Type} (m : Msg) (hm : m.Ok) (v : List UInt8) (o2 : Opt) (rest : List Opt)
    (ho : m.opts = ⟨6, v⟩ :: o2 :: rest) (hno : ∀ o ∈ rest, o.number ≠ 6) (ob : List UInt8) (hob : IsOpts 0 m.opts ob) (junk : Dec)
    (hj : junk.tbuf.length = 8) (junkToken : List UInt8) (hjt : junkToken.length = 8) (junkHeader : Header)
    (cap regCap room fuel : Nat) (reg : Registrar A) (addr : A)
    (hcap : (slashText (iteratorShows m.payload.isSome m.opts)).length ≤ cap) (hroom : 13 + cap ≤ room)
    (hreg : reg.sessions.length < regCap) (hf : m.opts.length < fuel) :
    ∃ text, observeReply cap regCap room fuel junk junkToken junkHeader reg addr (wire m ob) =
      .ok ({ reg with sessions := reg.sessions ++ [⟨addr, m.token, 0⟩] }, encMsg (response m 0x43 (some text))) := by
  have hv : observeValues (iteratorShows m.payload.isSome m.opts) = [[]] := by
    rw [ho]
    match rest, hno with
    | [], _ => rfl
    | o3 :: rest, hno =>
      rw [iteratorShows, observeValues_cons, observeValues_cons, if_pos rfl, if_neg (hno o3 (by simp)),
        no_observe (fun o ho => hno o (by simp [ho]))]
      rfl
  have := observe_answered_partial m hm ob hob junk hj (by simp [ho]) junkToken hjt junkHeader cap regCap room fuel reg addr hcap hroom
    (by rw [hv]; simp; omega) hf
  rw [hv] at this
  exact ⟨_, by simpa [lastCode] using this⟩

/-- C65 fails: an Observe option in second place, such as behind a Uri-Host, is overlooked: nobody is registered and the
answer is 4.04. -/
theorem observe_second_overlooked {A : Type} (m : Msg) (hm : m.Ok) (o : Opt) (v : List UInt8) (rest : List Opt)
    (ho : m.opts = o :: ⟨6, v⟩ :: rest) (h6 : o.number ≠ 6) (hno : ∀ o ∈ rest, o.number ≠ 6) (ob : List UInt8)
    (hob : IsOpts 0 m.opts ob) (junk : Dec) (hj : junk.tbuf.length = 8) (junkToken : List UInt8) (hjt : junkToken.length = 8)
    (junkHeader : Header) (cap regCap room fuel : Nat) (reg : Registrar A) (addr : A)
    (hcap : (slashText (iteratorShows m.payload.isSome m.opts)).length ≤ cap) (hroom : 13 + cap ≤ room)
    (hreg : reg.sessions.length ≤ regCap) (hf : m.opts.length < fuel) :
    ∃ text, observeReply cap regCap room fuel junk junkToken junkHeader reg addr (wire m ob) =
      .ok (reg, encMsg (response m 0x84 (some text))) := by
  have hv : observeValues (iteratorShows m.payload.isSome m.opts) = [] := by
    rw [ho]
    match rest, hno with
    | [], _ => rw [iteratorShows, observeValues_cons, if_neg h6]; rfl
    | o3 :: rest, hno =>
      rw [iteratorShows, observeValues_cons, observeValues_cons, if_neg h6, if_neg (hno o3 (by simp)),
        no_observe (fun o ho => hno o (by simp [ho]))]
      rfl
  have := observe_answered_partial m hm ob hob junk hj (by simp [ho]) junkToken hjt junkHeader cap regCap room fuel reg addr hcap hroom
    (by rw [hv]; simpa using hreg) hf
  rw [hv] at this
  exact ⟨_, by simpa [lastCode] using this⟩

/-- C65 fails: the answer to a registration for a path of one segment is no CoAP message. -/
theorem observe_answer_malformed {A : Type} (m : Msg) (hm : m.Ok) (v s : List UInt8) (ho : m.opts = [⟨6, v⟩, ⟨11, s⟩])
    (ob : List UInt8) (hob : IsOpts 0 m.opts ob) (junk : Dec) (hj : junk.tbuf.length = 8) (junkToken : List UInt8)
    (hjt : junkToken.length = 8) (junkHeader : Header) (cap regCap room fuel : Nat) (reg : Registrar A) (addr : A)
    (hroom : 13 + cap ≤ room) (hreg : reg.sessions.length < regCap) (hf : 2 < fuel) :
    ∃ reg' out, observeReply cap regCap room fuel junk junkToken junkHeader reg addr (wire m ob) = .ok (reg', out) ∧ Malformed out := by
  have hs : iteratorShows m.payload.isSome m.opts = [⟨6, []⟩] := by rw [ho]; rfl
  have := observe_answered_partial m hm ob hob junk hj (by simp [ho]) junkToken hjt junkHeader cap regCap room fuel reg addr
    (by rw [hs]; simp [slashText, segments]) hroom (by rw [hs]; simp [observeValues]; omega) (by simpa [ho] using hf)
  rw [hs] at this
  exact ⟨_, _, this, bare_marker_malformed hm (by decide)⟩

/-! ## C66: the discovery example -/

theorem discoverOptions_feed : ∀ (os : List Opt) (u : Uri.Matcher), (∀ o ∈ os, o.number < 65536) →
    discoverOptions u (os.map fun o => (UInt16.ofNat o.number, o.value)) = u.feed ((segments os).map SCtx.str)
  | [], u, _ => rfl
  | o :: os, u, h => by
    rw [List.map_cons, discoverOptions, show (11 : UInt16) = UInt16.ofNat 11 from rfl, number_beq (h o (by simp)) (by omega),
      discoverOptions_feed os _ (fun x hx => h x (by simp [hx])), segments_cons]
    by_cases hn : o.number = 11 <;> simp [hn, Uri.Matcher.feed]

/-- Where the path of the options shown by the iterator leads. -/
def shownNode (paths : List Uri.Entry) (m : Msg) : Int :=
  ((Uri.Matcher.init paths).feed ((segments (iteratorShows m.payload.isSome m.opts)).map SCtx.str)).lastFound

/-- C66 (partial: the path is that of the options which the iterator shows): 2.05 when that path leads to a node and 4.04
otherwise, message id and token of the request; and as payload the listing if the node is that of the listing. -/
theorem discovery_answered_partial (m : Msg) (hm : m.Ok) (ob : List UInt8) (hob : IsOpts 0 m.opts ob) (junk : Dec)
    (hj : junk.tbuf.length = 8) (hst : junk.opt.st ≠ .payload ∨ m.token ≠ [] ∨ m.opts ≠ [] ∨ m.payload ≠ none)
    (junkToken : List UInt8) (hjt : junkToken.length = 8) (junkHeader : Header) (paths : List Uri.Entry)
    (coredata : List Uri.CoREData) (title : Int → Option (List Char)) (idCore : Int) (hid : idCore ≠ -1)
    (text : List Char) (htext : Uri.discover coredata title paths = some text) (room fuel : Nat)
    (hroom : 14 + text.length ≤ room) (hf : m.opts.length < fuel) :
    discoverReply room fuel paths coredata title idCore junk junkToken junkHeader (wire m ob) =
      .ok (encMsg (response m (if shownNode paths m = -1 then 0x84 else 0x45)
        (some (if shownNode paths m = idCore then text.map fun c => UInt8.ofNat c.toNat else [])))) := by
  have h8 := hm.2.2.2.2.1
  have e := iterator_shows_partial m hm ob hob junk hj hst fuel hf
  obtain ⟨x, e1, eu, -, e2⟩ := head_written hm paths junkToken hjt (r := reading m (iteratorShows m.payload.isSome m.opts)
        (if iteratorArrives m.payload.isSome m.opts then behindOptions m else .optionsDone)) rfl rfl
  have e3 : (discoverOptions x.uri (reading m (iteratorShows m.payload.isSome m.opts)
        (if iteratorArrives m.payload.isSome m.opts then behindOptions m else .optionsDone)).options).lastFound = shownNode paths m := by
    rw [eu]
    exact congrArg Uri.Matcher.lastFound (discoverOptions_feed _ _ (shows_lt hm _))
  have e4 : ∀ code, code < 256 → (NEnc.init room).headerAndToken junkHeader x (UInt8.ofNat code) =
      .ok (⟨OptEnc.init, encHeader (response m code none) ++ m.token, room - 4 - m.token.length, false⟩, true) :=
    fun code hc => e2 room code junkHeader (by omega) hc
  have hp : ∀ out, NEnc.payloadHeader ⟨OptEnc.init, out, room - 4 - m.token.length, false⟩ =
      (⟨OptEnc.init, out ++ [0xFF], room - 4 - m.token.length - 1, true⟩, true) := by
    intro out
    have : (room - 4 - m.token.length == 0) = false := by simp; omega
    simp [NEnc.payloadHeader, this]
  simp only [discoverReply, e, e1, e3, htext]
  by_cases hn : shownNode paths m = -1
  · have hb : (shownNode paths m != Uri.none_) = false := by simp [hn, Uri.none_]
    have hne : (shownNode paths m == idCore) = false := by rw [hn]; simpa using fun h => hid h.symm
    simp only [hb, Bool.false_eq_true, if_false]
    rw [show (0x84 : UInt8) = UInt8.ofNat 0x84 from rfl, e4 0x84 (by omega)]
    simp only [hp, hne, Bool.false_eq_true, if_false]
    rw [if_pos hn, if_neg (by simpa using hne)]
    simp [encMsg_response, encPayload]
  · have hb : (shownNode paths m != Uri.none_) = true := by simpa [Uri.none_] using hn
    simp only [hb, if_true]
    rw [show codeContent = UInt8.ofNat 0x45 from rfl, e4 0x45 (by omega)]
    simp only [hp]
    rw [if_neg hn]
    by_cases hc : shownNode paths m = idCore
    · have hbc : (shownNode paths m == idCore) = true := by simpa using hc
      simp only [hbc, if_true]
      rw [if_pos (by omega), if_pos hc]
      simp [encMsg_response, encPayload]
    · have hbc : (shownNode paths m == idCore) = false := by simpa using hc
      simp only [hbc, Bool.false_eq_true, if_false]
      rw [if_neg hc]
      simp [encMsg_response, encPayload]

/-- C66, how much room the listing needs: header, token, marker, the listing and the comma that is taken off again at its end.  With one byte
less there is no answer with the listing. -/
theorem discovery_room (m : Msg) (hm : m.Ok) (ob : List UInt8) (hob : IsOpts 0 m.opts ob) (junk : Dec)
    (hj : junk.tbuf.length = 8) (hst : junk.opt.st ≠ .payload ∨ m.token ≠ [] ∨ m.opts ≠ [] ∨ m.payload ≠ none)
    (junkToken : List UInt8) (hjt : junkToken.length = 8) (junkHeader : Header) (paths : List Uri.Entry)
    (coredata : List Uri.CoREData) (title : Int → Option (List Char)) (idCore : Int) (hid : idCore ≠ -1)
    (text : List Char) (htext : Uri.discover coredata title paths = some text) (room fuel : Nat)
    (hroom : 5 + m.token.length ≤ room) (hf : m.opts.length < fuel) (hc : shownNode paths m = idCore) :
    discoverReply room fuel paths coredata title idCore junk junkToken junkHeader (wire m ob) =
      if 6 + m.token.length + text.length ≤ room then
        .ok (encMsg (response m 0x45 (some (text.map fun c => UInt8.ofNat c.toNat)))) else .error .listing := by
  have e := iterator_shows_partial m hm ob hob junk hj hst fuel hf
  obtain ⟨x, e1, eu, -, e2⟩ := head_written hm paths junkToken hjt (r := reading m (iteratorShows m.payload.isSome m.opts)
        (if iteratorArrives m.payload.isSome m.opts then behindOptions m else .optionsDone)) rfl rfl
  have e3 : (discoverOptions x.uri (reading m (iteratorShows m.payload.isSome m.opts)
        (if iteratorArrives m.payload.isSome m.opts then behindOptions m else .optionsDone)).options).lastFound = shownNode paths m := by
    rw [eu]
    exact congrArg Uri.Matcher.lastFound (discoverOptions_feed _ _ (shows_lt hm _))
  have hp : ∀ out, NEnc.payloadHeader ⟨OptEnc.init, out, room - 4 - m.token.length, false⟩ =
      (⟨OptEnc.init, out ++ [0xFF], room - 4 - m.token.length - 1, true⟩, true) := by
    intro out
    have : (room - 4 - m.token.length == 0) = false := by simp; omega
    simp [NEnc.payloadHeader, this]
  have hb : (shownNode paths m != Uri.none_) = true := by rw [hc]; simpa [Uri.none_] using hid
  have hbc : (shownNode paths m == idCore) = true := by simpa using hc
  simp only [discoverReply, e, e1, e3, htext, hb, if_true]
  rw [show codeContent = UInt8.ofNat 0x45 from rfl, e2 room 0x45 junkHeader (by omega) (by omega)]
  simp only [hp, hbc, if_true]
  by_cases hr : 6 + m.token.length + text.length ≤ room
  · rw [if_pos hr, if_pos (by omega)]
    simp [encMsg_response, encPayload]
  · rw [if_neg hr, if_neg (by omega)]

/-- C66 fails: whatever is not answered by the listing is answered by bytes that are no CoAP message. -/
theorem discovery_others_malformed (m : Msg) (hm : m.Ok) (ob : List UInt8) (hob : IsOpts 0 m.opts ob) (junk : Dec)
    (hj : junk.tbuf.length = 8) (hst : junk.opt.st ≠ .payload ∨ m.token ≠ [] ∨ m.opts ≠ [] ∨ m.payload ≠ none)
    (junkToken : List UInt8) (hjt : junkToken.length = 8) (junkHeader : Header) (paths : List Uri.Entry)
    (coredata : List Uri.CoREData) (title : Int → Option (List Char)) (idCore : Int) (hid : idCore ≠ -1)
    (text : List Char) (htext : Uri.discover coredata title paths = some text) (room fuel : Nat)
    (hroom : 14 + text.length ≤ room) (hf : m.opts.length < fuel) (hn : shownNode paths m ≠ idCore) :
    ∃ out, discoverReply room fuel paths coredata title idCore junk junkToken junkHeader (wire m ob) = .ok out ∧ Malformed out := by
  refine ⟨_, discovery_answered_partial m hm ob hob junk hj hst junkToken hjt junkHeader paths coredata title idCore hid text htext
    room fuel hroom hf, ?_⟩
  rw [if_neg hn]
  exact bare_marker_malformed hm (by split <;> omega)

theorem str_inj : ∀ {a b : List UInt8}, SCtx.str a = SCtx.str b → a = b
  | [], [], _ => rfl
  | [], _ :: _, h => by simp [SCtx.str] at h
  | _ :: _, [], h => by simp [SCtx.str] at h
  | x :: a, y :: b, h => by
    simp only [SCtx.str, List.map_cons, List.cons.injEq] at h
    have hc : ∀ z : UInt8, (Char.ofNat z.toNat).toNat = z.toNat := forall_u8 (by decide +kernel)
    have := congrArg Char.toNat h.1
    rw [hc, hc] at this
    rw [UInt8.toNat_inj.1 this, str_inj h.2]

theorem map_str_inj : ∀ {a b : List (List UInt8)}, a.map SCtx.str = b.map SCtx.str → a = b
  | [], [], _ => rfl
  | [], _ :: _, h => by simp at h
  | _ :: _, [], h => by simp at h
  | x :: a, y :: b, h => by
    simp only [List.map_cons, List.cons.injEq] at h
    rw [str_inj h.1, map_str_inj h.2]

theorem denotes_snoc {t : List Uri.Entry} {s : List Char} : ∀ {segs : List (List Char)} {p q : Int}, Denotes t p (segs ++ [s]) q →
    ∃ r e, Denotes t p segs r ∧ FirstEntry t s r e ∧ e.id = q
  | [], p, q, h => by
    cases h with
    | step h1 h2 => cases h2; exact ⟨p, _, .here p, h1, rfl⟩
  | x :: segs, p, q, h => by
    cases h with
    | step h1 h2 =>
      obtain ⟨r, e, a, b, c⟩ := denotes_snoc h2
      exact ⟨r, e, .step h1 a, b, c⟩

theorem id_unique {t : List Uri.Entry} (hids : (t.map Uri.Entry.id).Nodup) {a b : Uri.Entry} (ha : a ∈ t) (hb : b ∈ t) (h : a.id = b.id) :
    a = b := by
  induction t with
  | nil => simp at ha
  | cons x t ih =>
    rw [List.map_cons, List.nodup_cons] at hids
    rcases List.mem_cons.1 ha with e1 | e1 <;> rcases List.mem_cons.1 hb with e2 | e2
    · rw [e1, e2]
    · exact absurd (List.mem_map.2 ⟨b, e2, by rw [← h, e1]⟩) hids.1
    · exact absurd (List.mem_map.2 ⟨a, e1, by rw [h, e2]⟩) hids.1
    · exact ih hids.2 e1 e2

/-- With distinct ids no node lies at two paths. -/
theorem denotes_unique {t : List Uri.Entry} (hids : (t.map Uri.Entry.id).Nodup) (hnone : -1 ∉ t.map Uri.Entry.id) :
    ∀ (n : Nat) (a b : List (List Char)) (q : Int), a.length = n → Denotes t (-1) a q → Denotes t (-1) b q → a = b := by
  have hmem : ∀ {s : List Char} {r : Int} {e : Uri.Entry}, FirstEntry t s r e → e ∈ t := by
    rintro s r e ⟨pre, post, h, -⟩
    simp [h]
  have hroot : ∀ (a : List (List Char)), Denotes t (-1) a (-1) → a = [] := by
    intro a h
    rcases List.eq_nil_or_concat a with ha | ⟨a', s, ha⟩
    · exact ha
    · rw [ha, List.concat_eq_append] at h
      obtain ⟨r, e, -, h2, h3⟩ := denotes_snoc h
      exact absurd (h3 ▸ List.mem_map.2 ⟨e, hmem h2, rfl⟩) hnone
  intro n
  induction n with
  | zero =>
    intro a b q hl ha hb
    obtain rfl : a = [] := List.length_eq_zero_iff.1 hl
    cases ha
    exact (hroot b hb).symm
  | succ n ih =>
    intro a b q hl ha hb
    rcases List.eq_nil_or_concat a with h | ⟨a', s, h⟩
    · simp [h] at hl
    · subst h
      rw [List.concat_eq_append] at ha hl ⊢
      obtain ⟨r, e, a1, a2, a3⟩ := denotes_snoc ha
      rcases List.eq_nil_or_concat b with h | ⟨b', s', h⟩
      · subst h
        cases hb
        exact absurd (a3 ▸ List.mem_map.2 ⟨e, hmem a2, rfl⟩) hnone
      · subst h
        rw [List.concat_eq_append] at hb ⊢
        obtain ⟨r', e', b1, b2, b3⟩ := denotes_snoc hb
        obtain rfl : e = e' := id_unique hids (hmem a2) (hmem b2) (a3.trans b3.symm)
        obtain ⟨-, -, -, e1, e2, -⟩ := a2
        obtain ⟨-, -, -, e3, e4, -⟩ := b2
        have hr : r = r' := e2.symm.trans e4
        subst hr
        rw [ih a' b' r (by simp at hl; exact hl) a1 b1, ← e1, ← e3]

/-- C66 fails: if the listing lies at a path of two or more segments, such as `/.well-known/core`,, a
request for it is never answered by the listing but by bytes that are no CoAP message. -/
theorem discovery_never_listed (m : Msg) (hm : m.Ok) (hseg : 2 ≤ (segments m.opts).length) (hne : ∀ s ∈ segments m.opts, s ≠ [])
    (ob : List UInt8) (hob : IsOpts 0 m.opts ob) (junk : Dec) (hj : junk.tbuf.length = 8) (junkToken : List UInt8)
    (hjt : junkToken.length = 8) (junkHeader : Header) (paths : List Uri.Entry) (hpf : ParentsFirst paths)
    (coredata : List Uri.CoREData) (title : Int → Option (List Char)) (idCore : Int)
    (hids : (paths.map Uri.Entry.id).Nodup) (hnone : -1 ∉ paths.map Uri.Entry.id) (hd : Denotes paths (-1) (uriPath m) idCore)
    (text : List Char) (htext : Uri.discover coredata title paths = some text) (room fuel : Nat)
    (hroom : 14 + text.length ≤ room) (hf : m.opts.length < fuel) :
    ∃ out, discoverReply room fuel paths coredata title idCore junk junkToken junkHeader (wire m ob) = .ok out ∧ Malformed out := by
  have hu : uriPath m = (segments m.opts).map SCtx.str := by
    simp [uriPath, segments, SCtx.str, Function.comp_def]
  have hid : idCore ≠ -1 := by
    rintro rfl
    have := denotes_unique hids hnone 0 [] _ (-1) rfl (.here _) hd
    rw [hu] at this
    simp only [List.nil_eq, List.map_eq_nil_iff] at this
    simp [this] at hseg
  refine discovery_others_malformed m hm ob hob junk hj ?_ junkToken hjt junkHeader paths coredata title idCore hid text htext
    room fuel hroom hf ?_
  · refine Or.inr (Or.inr (Or.inl ?_))
    intro h
    simp [h, segments_nil] at hseg
  · intro h
    have hs := denotes_unique hids hnone _ _ _ _ rfl ((uri_path_iff hpf _ hid).1 h) hd
    rw [hu] at hs
    exact deep_path_lost _ _ 0 hm.2.2.2.2.2.1 hne hseg (map_str_inj hs)

/-- C66 fails: no request that begins with its path is answered by anything but bytes that are no CoAP message, unless
a node has an empty name. -/
theorem discovery_path_first_refused (m : Msg) (hm : m.Ok) (o : Opt) (rest : List Opt) (ho : m.opts = o :: rest)
    (hn : o.number = 11) (ob : List UInt8) (hob : IsOpts 0 m.opts ob) (junk : Dec) (hj : junk.tbuf.length = 8)
    (junkToken : List UInt8) (hjt : junkToken.length = 8) (junkHeader : Header) (paths : List Uri.Entry)
    (hnames : ∀ e ∈ paths, e.seg ≠ []) (coredata : List Uri.CoREData) (title : Int → Option (List Char)) (idCore : Int)
    (hid : idCore ≠ -1) (text : List Char) (htext : Uri.discover coredata title paths = some text) (room fuel : Nat)
    (hroom : 14 + text.length ≤ room) (hf : m.opts.length < fuel) :
    discoverReply room fuel paths coredata title idCore junk junkToken junkHeader (wire m ob) =
      .ok (encMsg (response m 0x84 (some []))) ∧ Malformed (encMsg (response m 0x84 (some []))) := by
  refine ⟨?_, bare_marker_malformed hm (by omega)⟩
  have hnode : shownNode paths m = -1 := by
    have hseek : ∀ (l : List Uri.Entry) (p : Int), (∀ e ∈ l, e.seg ≠ []) → Uri.seek p [] l = [] := by
      intro l p
      induction l with
      | nil => intro _; rfl
      | cons e l ih =>
        intro h
        have h1 : (e.seg == []) = false := by simpa using h e (by simp)
        simp only [Uri.seek, h1, Bool.false_eq_true, if_false, ih (fun x hx => h x (by simp [hx])), ite_self]
    have hstay : ∀ (l : List (List Char)), (Uri.Matcher.feed ⟨[], Uri.none_⟩ l).lastFound = -1 := by
      intro l
      induction l with
      | nil => rfl
      | cons s l ih => exact ih
    have hfirst : ∀ l, ((Uri.Matcher.init paths).feed ([] :: l)).lastFound = -1 := by
      intro l
      simp only [Uri.Matcher.feed, Uri.Matcher.find, Uri.Matcher.init, hseek paths _ hnames]
      exact hstay l
    have hsh : segments (iteratorShows m.payload.isSome m.opts) = [] ∨ ∃ l, segments (iteratorShows m.payload.isSome m.opts) = [] :: l := by
      rw [ho]
      match rest with
      | [] =>
        by_cases hc : m.payload.isSome = true ∨ o.value = []
        · exact Or.inr ⟨[], by simp [iteratorShows, segments, hc, hn]⟩
        · exact Or.inl (by simp [iteratorShows, segments, hc])
      | [o2] => exact Or.inr ⟨[], by simp [iteratorShows, segments, hn]⟩
      | o2 :: o3 :: rest => exact Or.inr ⟨_, by rw [iteratorShows, segments_cons, if_pos hn]; rfl⟩
    rw [shownNode]
    rcases hsh with h | ⟨l, h⟩
    · rw [h]; rfl
    · rw [h]; exact hfirst _
  rw [discovery_answered_partial m hm ob hob junk hj (by simp [ho]) junkToken hjt junkHeader paths coredata title idCore hid text htext
    room fuel hroom hf, if_pos hnode, if_neg (by rw [hnode]; exact fun h => hid h.symm)]

/-! ## Concrete cases -/

/-- `GET /test` -/
def getTest : Msg := ⟨1, 0, 1, 7, [0x77], [⟨11, [116, 101, 115, 116]⟩], none⟩
/-- `GET coap://h:1/test` -/
def getTestHost : Msg := ⟨1, 0, 1, 7, [0x77], [⟨3, [104]⟩, ⟨7, [1]⟩, ⟨11, [116, 101, 115, 116]⟩], none⟩
/-- `GET /a/b` -/
def getDeep : Msg := ⟨1, 1, 1, 7, [], [⟨11, [97]⟩, ⟨11, [98]⟩], none⟩
/-- `GET /o` with Observe 1 -/
def endObserve : Msg := ⟨1, 0, 1, 7, [0x77], [⟨6, [1]⟩, ⟨11, [111]⟩], none⟩
/-- The table of test/posix/discoverable/main.cpp:18-27. -/
def discoverPaths : List Uri.Entry :=
  [⟨"v1".toList, 0, -1⟩, ⟨"api".toList, 1, 0⟩, ⟨"test1".toList, 2, 1⟩, ⟨"test2".toList, 3, 1⟩,
   ⟨".well-known".toList, 4, -1⟩, ⟨"core".toList, 5, 4⟩]
/-- The CoRE data of test/posix/discoverable/main.cpp:29-33. -/
def discoverData : List Uri.CoREData :=
  [⟨2, "test1_resource".toList, "test_interface".toList⟩, ⟨3, "test2_resource".toList, "test_interface".toList⟩]
/-- The titles of test/posix/discoverable/main.cpp:36-49. -/
def discoverTitle (i : Int) : Option (List Char) := if i = 2 then some "test title 1".toList else none
/-- `GET /.well-known/core` -/
def getCore : Msg := ⟨1, 0, 1, 7, [], [⟨11, [46, 119, 101, 108, 108, 45, 107, 110, 111, 119, 110]⟩, ⟨11, [99, 111, 114, 101]⟩], none⟩

example : pingReply 64 Dec.zero (List.replicate 8 0) ⟨0, 0, 0, 0⟩ (iterAll 9) (encMsg getTest) = .ok [0x61, 0x45, 0, 7, 0x77] := by
  decide +kernel
example : uriReply 127 140 9 Dec.zero (List.replicate 8 0) ⟨0, 0, 0, 0⟩ (encMsg getTest) = .ok [0x61, 0x84, 0, 7, 0x77, 0xFF] := by
  decide +kernel
example : uriReply 127 140 9 Dec.zero (List.replicate 8 0) ⟨0, 0, 0, 0⟩ (encMsg getTestHost) =
    .ok [0x61, 0x43, 0, 7, 0x77, 0xFF, 116, 101, 115, 116, 47] := by decide +kernel
example : slashText (iteratorShows getTestHost.payload.isSome getTestHost.opts) = slashText getTestHost.opts ∧ getTestHost.Ok := by decide
example : 2 ≤ (segments getDeep.opts).length ∧ (∀ s ∈ segments getDeep.opts, s ≠ [] ∧ (47 : UInt8) ∉ s) ∧ getDeep.Ok := by decide
example : observeReply 127 5 140 9 Dec.zero (List.replicate 8 0) ⟨0, 0, 0, 0⟩ (⟨[], 0⟩ : Registrar Nat) 3 (encMsg endObserve) =
    .ok (⟨[⟨3, [0x77], 0⟩], 0⟩, [0x61, 0x43, 0, 7, 0x77, 0xFF]) := by decide +kernel
example : discoverReply 300 9 discoverPaths discoverData discoverTitle 5 Dec.zero (List.replicate 8 0) ⟨0, 0, 0, 0⟩ (encMsg getCore) =
    .ok [0x60, 0x84, 0, 7, 0xFF] := by decide +kernel

example : ParentsFirst discoverPaths ∧ (discoverPaths.map Uri.Entry.id).Nodup ∧ -1 ∉ discoverPaths.map Uri.Entry.id ∧
    getCore.Ok ∧ 2 ≤ (segments getCore.opts).length ∧ (∀ s ∈ segments getCore.opts, s ≠ []) ∧ (∀ e ∈ discoverPaths, e.seg ≠ []) ∧
    Denotes discoverPaths (-1) (uriPath getCore) 5 := by
  refine ⟨?_, by decide, by decide, by decide, by decide, by decide, by decide, ?_⟩
  · exact parentsFirst_cons (by decide) (by decide) <| parentsFirst_cons (by decide) (by decide) <|
      parentsFirst_cons (by decide) (by decide) <| parentsFirst_cons (by decide) (by decide) <|
      parentsFirst_cons (by decide) (by decide) <| parentsFirst_cons (by decide) (by decide) parentsFirst_nil
  · exact .step (e := ⟨".well-known".toList, 4, -1⟩) ⟨discoverPaths.take 4, discoverPaths.drop 5, rfl, rfl, rfl, by decide⟩ <|
      .step (e := ⟨"core".toList, 5, 4⟩) ⟨discoverPaths.take 5, [], rfl, rfl, rfl, by decide⟩ (.here 5)
-- and with a request that the iterator shows as it is, the listing is sent
example : shownNode [⟨"l".toList, 5, -1⟩] ⟨1, 0, 1, 7, [], [⟨3, [104]⟩, ⟨7, [1]⟩, ⟨11, [108]⟩], none⟩ = 5 ∧
    Uri.discover [⟨5, [], []⟩] (fun _ => none) [⟨"l".toList, 5, -1⟩] = some "</l>".toList ∧
    discoverReply 300 9 [⟨"l".toList, 5, -1⟩] [⟨5, [], []⟩] (fun _ => none) 5 Dec.zero (List.replicate 8 0) ⟨0, 0, 0, 0⟩
      (encMsg ⟨1, 0, 1, 7, [], [⟨3, [104]⟩, ⟨7, [1]⟩, ⟨11, [108]⟩], none⟩) = .ok [0x60, 0x45, 0, 7, 0xFF, 60, 47, 108, 62] := by
  decide +kernel
-- ten bytes are needed for these nine
example : discoverReply 10 9 [⟨"l".toList, 5, -1⟩] [⟨5, [], []⟩] (fun _ => none) 5 Dec.zero (List.replicate 8 0) ⟨0, 0, 0, 0⟩
      (encMsg ⟨1, 0, 1, 7, [], [⟨3, [104]⟩, ⟨7, [1]⟩, ⟨11, [108]⟩], none⟩) = .ok [0x60, 0x45, 0, 7, 0xFF, 60, 47, 108, 62] ∧
    discoverReply 9 9 [⟨"l".toList, 5, -1⟩] [⟨5, [], []⟩] (fun _ => none) 5 Dec.zero (List.replicate 8 0) ⟨0, 0, 0, 0⟩
      (encMsg ⟨1, 0, 1, 7, [], [⟨3, [104]⟩, ⟨7, [1]⟩, ⟨11, [108]⟩], none⟩) = .error .listing := by
  decide +kernel

end Verif.Props
