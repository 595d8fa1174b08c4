import Verif.Model.Server
import Verif.Spec.Server
import Verif.Props.Header
import Verif.Props.UriPath
import Verif.Props.StreamDecoder

/-! # C39, C42, C46: automatic replies -/
namespace Verif.Props
open Verif.Model Verif.Spec Verif.Proofs Verif.Model.Header

/-- What the stream encoder holds after a header and a token, whatever the room. -/
theorem header_token_out (cap : Nat) (h : Header) (t : List UInt8) :
    (((SEnc.init cap).header h).token t).out = ([h.b0, h.b1, h.b2, h.b3] ++ t).take cap := by
  simp only [SEnc.token, SEnc.header, SEnc.putn, SEnc.init, SEnc.room, List.length_nil, List.nil_append, Nat.sub_zero,
    List.length_take]
  rw [List.take_append]
  congr 2
  simp only [List.length_cons, List.length_nil]
  omega

/-- C39: a reply consists of exactly the header, with the version, token length and message id of the message the
context took in, type acknowledgement and the code asked for, and the token. -/
theorem reply_echoes (x : SCtx) (h : Header) (t : List UInt8) (cap : Nat) (code : UInt8) (hx : x.token.length = 8)
    (ht : t.length = h.tokenLength.toNat) (h8 : t.length ≤ 8) (hcap : 4 + t.length ≤ cap) :
    ∃ x' b0, (x.setHeader h).setToken t = .ok x' ∧ x'.buildReply cap code = .ok ([b0, code, h.b2, h.b3] ++ t) ∧
      fields b0 code h.b2 h.b3 = { hfields h with type := 2, code := code.toNat } := by
  refine ⟨{ x.setHeader h with token := t ++ x.token.drop t.length }, ((h.setCode code).setType acknowledgement).b0,
    ?_, ?_, ?_⟩
  · simp only [SCtx.setToken, SCtx.setHeader, hx, h8, if_true]
  · have hg : ({ x.setHeader h with token := t ++ x.token.drop t.length } : SCtx).getToken = .ok t := by
      simp only [SCtx.getToken, SCtx.setHeader, List.length_append, ← ht]
      rw [if_pos (by omega), List.take_append_of_le_length (by omega), List.take_of_length_le (by omega)]
    rw [SCtx.buildReply, hg]
    simp only [header_token_out, SCtx.setHeader]
    rw [List.take_of_length_le (by simp; omega)]
    rfl
  · have := header_set_type (h.setCode code) acknowledgement (by decide)
    rw [header_set_code] at this
    exact this

example : ((SCtx.init [] (List.replicate 8 7)).setHeader ⟨0x42, 1, 0x12, 0x34⟩).setToken [1, 2] =
    .ok ⟨⟨0x42, 1, 0x12, 0x34⟩, [1, 2, 7, 7, 7, 7, 7, 7], ⟨[], -1⟩, []⟩ ∧
  (SCtx.mk ⟨0x42, 1, 0x12, 0x34⟩ [1, 2, 7, 7, 7, 7, 7, 7] ⟨[], -1⟩ []).buildReply 20 0x84 =
    .ok [0x62, 0x84, 0x12, 0x34, 1, 2] := by decide +kernel

/-- C39: with too little room the reply is cut off without any sign of it. -/
theorem reply_cut_off (x : SCtx) (cap : Nat) (code : UInt8) (r : List UInt8) (h : x.buildReply cap code = .ok r) :
    ∃ full, (∀ cap', full.length ≤ cap' → x.buildReply cap' code = .ok full) ∧ r = full.take cap := by
  unfold SCtx.buildReply at h ⊢
  cases hg : x.getToken with
  | error e => rw [hg] at h; simp at h
  | ok t =>
    rw [hg] at h
    simp only [Except.ok.injEq] at h ⊢
    refine ⟨[((x.hdr.setCode code).setType acknowledgement).b0, ((x.hdr.setCode code).setType acknowledgement).b1,
      ((x.hdr.setCode code).setType acknowledgement).b2, ((x.hdr.setCode code).setType acknowledgement).b3] ++ t,
      fun cap' hc => ?_, ?_⟩
    · rw [header_token_out, List.take_of_length_le hc]
    · rw [← h, header_token_out]

theorem onEvents_append (cap : Nat) : ∀ (a b : List Event) (x : SCtx), x.onEvents cap (a ++ b) =
    match x.onEvents cap a with
    | .error e => .error e
    | .ok x => x.onEvents cap b
  | [], b, x => rfl
  | e :: a, b, x => by
    rw [List.cons_append, SCtx.onEvents, SCtx.onEvents]
    cases x.onEvent cap e with
    | error f => rfl
    | ok y => exact onEvents_append cap a b y

/-- The options of a message move the matcher along the URI path and do nothing else. -/
theorem onEvents_options (cap : Nat) : ∀ (opts : List Opt) (prev : Nat) (_ : OptsOk prev opts) (x : SCtx),
    x.onEvents cap (opts.map fun o => .option (UInt16.ofNat o.number) o.value true) =
      .ok { x with uri := x.uri.feed ((opts.filter fun o => o.number = 11).map fun o => o.value.map fun b => Char.ofNat b.toNat) }
  | [], _, _, x => rfl
  | o :: opts, prev, h, x => by
    obtain ⟨h1, h2, h3, h4⟩ := h
    have hn : (UInt16.ofNat o.number == 11) = decide (o.number = 11) := by
      by_cases h : o.number = 11
      · rw [h]; rfl
      · have : UInt16.ofNat o.number ≠ 11 := by
          intro hc
          have := congrArg UInt16.toNat hc
          simp at this
          omega
        simp [h, this]
    rw [List.map_cons, SCtx.onEvents, SCtx.onEvent, hn]
    by_cases h : o.number = 11
    · simp only [h, decide_true, if_true, List.filter_cons, List.map_cons, Uri.Matcher.feed]
      rw [onEvents_options cap opts _ h4]
      rfl
    · simp only [h, decide_false, List.filter_cons, Bool.false_eq_true, if_false]
      rw [onEvents_options cap opts _ h4]

theorem replyTo_ok {m : Msg} (hm : m.Ok) {code : Nat} (hc : code < 256) : (replyTo m code).Ok := by
  obtain ⟨h1, h2, h3, h4, h5, h6, h7⟩ := hm
  exact ⟨h1, by simp [replyTo], hc, h4, h5, trivial, by simp [replyTo]⟩

/-- The context after the header and token of a message builds the reply to it. -/
theorem buildReply_msg {m : Msg} (hm : m.Ok) (x : SCtx) (code cap : Nat) (hcap : 4 + m.token.length ≤ cap)
    (hh : x.hdr = ⟨UInt8.ofNat (64 * m.version + 16 * m.type + m.token.length), UInt8.ofNat m.code,
      UInt8.ofNat (m.mid / 256), UInt8.ofNat (m.mid % 256)⟩) (junk : List UInt8)
    (ht : x.token = m.token ++ junk) :
    x.buildReply cap (UInt8.ofNat code) = .ok (encMsg (replyTo m code)) := by
  obtain ⟨h1, h2, h3, h4, h5, h6, h7⟩ := hm
  have htl : (x.hdr.tokenLength).toNat = m.token.length := by
    rw [tokenLength, tkl_toNat, hh]; simp; omega
  have hg : x.getToken = .ok m.token := by
    simp only [SCtx.getToken, htl, ht, List.length_append]
    rw [if_pos (by omega), List.take_append_of_le_length (by omega), List.take_of_length_le (by omega)]
  rw [SCtx.buildReply, hg]
  simp only [header_token_out]
  rw [List.take_of_length_le (by simp; omega)]
  have hb : ((x.hdr.setCode (UInt8.ofNat code)).setType acknowledgement).b0 =
      UInt8.ofNat (64 * m.version + 16 * 2 + m.token.length) := by
    apply UInt8.toNat_inj.1
    have e := setType_toNat x.hdr.b0 ⟨2, by omega⟩
    have e2 : ((x.hdr.setCode (UInt8.ofNat code)).setType acknowledgement).b0 =
      ((x.hdr.b0 &&& ~~~(0x30 : UInt8)) ||| (UInt8.ofNat 2 <<< 4)) := rfl
    rw [e2, e, hh]
    simp
    omega
  have hb1 : ((x.hdr.setCode (UInt8.ofNat code)).setType acknowledgement).b1 = UInt8.ofNat code := rfl
  have hb2 : ((x.hdr.setCode (UInt8.ofNat code)).setType acknowledgement).b2 = x.hdr.b2 := rfl
  have hb3 : ((x.hdr.setCode (UInt8.ofNat code)).setType acknowledgement).b3 = x.hdr.b3 := rfl
  rw [hb, hb1, hb2, hb3, hh]
  simp [encMsg, replyTo, encHeader, encOpts, encPayload]

/-- What the observers do with the events of a message up to the end of its options. -/
theorem onEvents_head {m : Msg} (hm : m.Ok) (paths : List Uri.Entry) (junk : List UInt8) (hj : junk.length = 8) (cap : Nat) :
    (SCtx.init paths junk).onEvents cap
      ([.header ⟨UInt8.ofNat (64 * m.version + 16 * m.type + m.token.length), UInt8.ofNat m.code,
        UInt8.ofNat (m.mid / 256), UInt8.ofNat (m.mid % 256)⟩, .token m.token, .optionStart] ++
      m.opts.map (fun o => .option (UInt16.ofNat o.number) o.value true)) =
    .ok ⟨⟨UInt8.ofNat (64 * m.version + 16 * m.type + m.token.length), UInt8.ofNat m.code,
        UInt8.ofNat (m.mid / 256), UInt8.ofNat (m.mid % 256)⟩, m.token ++ junk.drop m.token.length,
      (Uri.Matcher.init paths).feed (uriPath m), []⟩ := by
  obtain ⟨h1, h2, h3, h4, h5, h6, h7⟩ := hm
  rw [onEvents_append]
  simp only [SCtx.onEvents, SCtx.onEvent, SCtx.setToken, SCtx.setHeader, SCtx.init, hj, h5, if_true]
  rw [onEvents_options cap _ 0 h6]
  rfl

/-- What a server sends for the events of a message. -/
theorem onEvents_delivery {m : Msg} (hm : m.Ok) (paths : List Uri.Entry) (junk : List UInt8) (hj : junk.length = 8) (cap : Nat)
    (hcap : 4 + m.token.length ≤ cap) (tail : List Event)
    (htail : ∀ e ∈ tail, e = .completed ∨ ∃ p l, e = .payload p l) :
    ∃ x, (SCtx.init paths junk).onEvents cap
      (([.header ⟨UInt8.ofNat (64 * m.version + 16 * m.type + m.token.length), UInt8.ofNat m.code,
        UInt8.ofNat (m.mid / 256), UInt8.ofNat (m.mid % 256)⟩, .token m.token, .optionStart] ++
      m.opts.map (fun o => .option (UInt16.ofNat o.number) o.value true)) ++ .optionsCompleted :: tail) = .ok x ∧
      x.sent = if ((Uri.Matcher.init paths).feed (uriPath m)).lastFound = -1 then [encMsg (replyTo m 0x84)] else [] := by
  rw [onEvents_append, onEvents_head hm paths junk hj cap]
  simp only [SCtx.onEvents, SCtx.onEvent, SCtx.foundNode, Uri.none_]
  have ht : ∀ (l : List Event) (x : SCtx), (∀ e ∈ l, e = .completed ∨ ∃ p l, e = .payload p l) → x.onEvents cap l = .ok x := by
    intro l
    induction l with
    | nil => intro x _; rfl
    | cons e l ih =>
      intro x h
      have he : x.onEvent cap e = .ok x := by
        rcases h e List.mem_cons_self with rfl | ⟨p, q, rfl⟩ <;> rfl
      rw [SCtx.onEvents, he]
      exact ih x fun e' h' => h e' (List.mem_cons_of_mem _ h')
  by_cases hf : ((Uri.Matcher.init paths).feed (uriPath m)).lastFound = -1
  · have hr := buildReply_msg hm ⟨⟨UInt8.ofNat (64 * m.version + 16 * m.type + m.token.length), UInt8.ofNat m.code,
        UInt8.ofNat (m.mid / 256), UInt8.ofNat (m.mid % 256)⟩, m.token ++ junk.drop m.token.length,
      (Uri.Matcher.init paths).feed (uriPath m), []⟩ 0x84 cap hcap rfl _ rfl
    simp only [hf, ne_eq, not_true_eq_false, if_false, if_true]
    have h84 : (UInt8.ofNat 0x84) = (0x84 : UInt8) := rfl
    rw [h84] at hr
    rw [hr]
    exact ⟨_, ht _ _ htail, rfl⟩
  · simp only [hf, ne_eq, not_false_eq_true, if_true, if_false]
    exact ⟨_, ht _ _ htail, rfl⟩

theorem processToDone_mono : ∀ {f : Nat} {d : Dec} {c : Ctx} {r}, d.processToDone f c = .ok r →
    ∀ {g : Nat}, f ≤ g → d.processToDone g c = .ok r
  | 0, d, c, r, h, g, _ => by simp [Dec.processToDone] at h
  | f + 1, d, c, r, h, g, hg => by
    obtain ⟨g, rfl⟩ : ∃ k, g = k + 1 := ⟨g - 1, by omega⟩
    rw [Dec.processToDone] at h ⊢
    cases hs : d.stepNotify c with
    | error e => rw [hs] at h; simp at h
    | ok v =>
      obtain ⟨d', c', evs⟩ := v
      rw [hs] at h
      simp only at h ⊢
      by_cases hd : d'.st = .done
      · simp only [hd, beq_self_eq_true, if_true] at h ⊢
        exact h
      · simp only [beq_iff_eq, hd, if_false] at h ⊢
        cases hp : d'.processToDone f c' with
        | error e => rw [hp] at h; simp at h
        | ok w =>
          rw [hp] at h
          rw [processToDone_mono hp (by omega : f ≤ g)]
          exact h

/-- What a server sends for everything a message delivers. -/
theorem onEvents_all {m : Msg} (hm : m.Ok) (paths : List Uri.Entry) (jt : List UInt8) (hj : jt.length = 8) (cap : Nat)
    (hcap : 4 + m.token.length ≤ cap) :
    ∃ x, (SCtx.init paths jt).onEvents cap (delivery m) = .ok x ∧
      x.sent = if ((Uri.Matcher.init paths).feed (uriPath m)).lastFound = -1 then [encMsg (replyTo m 0x84)] else [] := by
  have htail : ∀ e ∈ (match m.payload with | none => [] | some p => [Event.payload p true]) ++ [.completed],
      e = .completed ∨ ∃ p l, e = .payload p l := by
    intro e he
    cases hp : m.payload with
    | none => rw [hp] at he; simp at he; exact Or.inl he
    | some p => rw [hp] at he; simp at he; rcases he with rfl | rfl <;> simp
  obtain ⟨x, hx, hs⟩ := onEvents_delivery hm paths jt hj cap hcap _ htail
  have he : delivery m = (([.header ⟨UInt8.ofNat (64 * m.version + 16 * m.type + m.token.length), UInt8.ofNat m.code,
      UInt8.ofNat (m.mid / 256), UInt8.ofNat (m.mid % 256)⟩, .token m.token, .optionStart] ++
    m.opts.map (fun o => .option (UInt16.ofNat o.number) o.value true)) ++ .optionsCompleted ::
      ((match m.payload with | none => [] | some p => [Event.payload p true]) ++ [.completed])) := by
    simp only [delivery, List.append_assoc, List.cons_append, List.nil_append]
    cases m.payload <;> rfl
  rw [he]
  exact ⟨x, hx, hs⟩

/-- What a server sends for a well-formed datagram. -/
theorem serve_message {m : Msg} (hm : m.Ok) (cap : Nat) (hcap : 4 + m.token.length ≤ cap) (paths : List Uri.Entry) (junk : Dec)
    (hd : junk.tbuf.length = 8) (jt : List UInt8) (hj : jt.length = 8) (fuel : Nat) (hf : 11 * (encMsg m).length + 6 ≤ fuel) :
    serve cap paths junk jt fuel (encMsg m) =
      .ok (if ((Uri.Matcher.init paths).feed (uriPath m)).lastFound = -1 then [encMsg (replyTo m 0x84)] else []) := by
  by_cases hst : junk.opt.st ≠ .payload ∨ m.token ≠ [] ∨ m.opts ≠ [] ∨ m.payload ≠ none
  · obtain ⟨N, d', hN, -, h⟩ := message_delivered_partial m hm junk hd hst
    rw [serve, h fuel (by omega)]
    obtain ⟨x, hx, hs⟩ := onEvents_all hm paths jt hj cap hcap
    simp only [hx, hs]
  · have hp : junk.opt.st = .payload := Classical.byContradiction fun h => hst (Or.inl h)
    have h1 : m.token = [] := Classical.byContradiction fun h => hst (Or.inr (Or.inl h))
    have h2 : m.opts = [] := Classical.byContradiction fun h => hst (Or.inr (Or.inr (Or.inl h)))
    have h3 : m.payload = none := Classical.byContradiction fun h => hst (Or.inr (Or.inr (Or.inr h)))
    obtain ⟨d', -, h⟩ := stale_option_state_phantom_payload m hm h1 h2 h3 junk hp
    have hlen : (encMsg m).length = 4 := by simp [encMsg, encHeader, h1, h2, h3, encOpts, encPayload]
    rw [serve, processToDone_mono h (by omega : 9 ≤ fuel)]
    simp only
    obtain ⟨x, hx, hs⟩ := onEvents_delivery hm paths jt hj cap hcap [.payload [] true, .completed]
      (by intro e he; simp at he; rcases he with rfl | rfl <;> simp)
    have he : ([.header ⟨UInt8.ofNat (64 * m.version + 16 * m.type), UInt8.ofNat m.code, UInt8.ofNat (m.mid / 256),
            UInt8.ofNat (m.mid % 256)⟩,
         .token [], .optionStart, .optionsCompleted, .payload [] true, .completed] : List Event) =
        (([.header ⟨UInt8.ofNat (64 * m.version + 16 * m.type + m.token.length), UInt8.ofNat m.code,
        UInt8.ofNat (m.mid / 256), UInt8.ofNat (m.mid % 256)⟩, .token m.token, .optionStart] ++
      m.opts.map (fun o => .option (UInt16.ofNat o.number) o.value true)) ++ .optionsCompleted ::
        [.payload [] true, .completed]) := by
      simp [h1, h2]
    rw [he, hx]
    simp only [hs]

/-- C42: a message whose path denotes a node of the table gets no automatic reply. -/
theorem known_path_no_reply {m : Msg} (hm : m.Ok) {cap : Nat} (hcap : 4 + m.token.length ≤ cap) {paths : List Uri.Entry}
    (hpf : ParentsFirst paths) {q : Int} (hq : q ≠ -1) (hd : Denotes paths (-1) (uriPath m) q)
    (junk : Dec) (hb : junk.tbuf.length = 8) (jt : List UInt8) (hj : jt.length = 8) (fuel : Nat)
    (hf : 11 * (encMsg m).length + 6 ≤ fuel) : serve cap paths junk jt fuel (encMsg m) = .ok [] := by
  rw [serve_message hm cap hcap paths junk hb jt hj fuel hf, uri_path_found hpf hd, if_neg hq]

/-- C42, C39: a message whose path denotes no node gets exactly one reply: an acknowledgement with code 4.04 that
has its message id and token. -/
theorem unknown_path_404 {m : Msg} (hm : m.Ok) {cap : Nat} (hcap : 4 + m.token.length ≤ cap) {paths : List Uri.Entry}
    (hpf : ParentsFirst paths) (hd : ∀ q, q ≠ -1 → ¬Denotes paths (-1) (uriPath m) q)
    (junk : Dec) (hb : junk.tbuf.length = 8) (jt : List UInt8) (hj : jt.length = 8) (fuel : Nat)
    (hf : 11 * (encMsg m).length + 6 ≤ fuel) :
    serve cap paths junk jt fuel (encMsg m) = .ok [encMsg (replyTo m 0x84)] := by
  have : ((Uri.Matcher.init paths).feed (uriPath m)).lastFound = -1 :=
    Classical.byContradiction fun h => hd _ h ((uri_path_iff hpf _ h).mp rfl)
  rw [serve_message hm cap hcap paths junk hb jt hj fuel hf, if_pos this]

/-- C42 for the stream decoder (partial: the exclusions of `stream_message_delivered_partial`). -/
theorem stream_404_partial (k : SbKind) {m : Msg} (hk : EndOk k m) (hm : m.Ok) {cap : Nat}
    (hcap : 4 + m.token.length ≤ cap) {paths : List Uri.Entry} (hpf : ParentsFirst paths)
    (junk : Dec) (hb : junk.tbuf.length = 8) (hst : junk.opt.st ≠ .payload ∨ m.token ≠ [] ∨ m.opts ≠ [] ∨ m.payload ≠ none)
    (hc : k.charSigned = true → ∀ b ∈ encHeader m ++ m.token, b ≠ 0xFF)
    (jt : List UInt8) (hj : jt.length = 8) (fuel : Nat) (hf : 11 * (encMsg m).length + 6 ≤ fuel) :
    (∀ q, q ≠ -1 → Denotes paths (-1) (uriPath m) q → serveStream k cap paths junk jt fuel (encMsg m) = .ok []) ∧
    ((∀ q, q ≠ -1 → ¬Denotes paths (-1) (uriPath m) q) →
      serveStream k cap paths junk jt fuel (encMsg m) = .ok [encMsg (replyTo m 0x84)]) := by
  obtain ⟨N, d', hN, -, h⟩ := stream_message_delivered_partial k m hk hm junk hb hst hc
  obtain ⟨x, hx, hs⟩ := onEvents_all hm paths jt hj cap hcap
  simp only [serveStream, h fuel (by omega), hx, hs]
  refine ⟨fun q hq hd => ?_, fun hd => ?_⟩
  · rw [uri_path_found hpf hd, if_neg hq]
  · have : ((Uri.Matcher.init paths).feed (uriPath m)).lastFound = -1 :=
      Classical.byContradiction fun h => hd _ h ((uri_path_iff hpf _ h).mp rfl)
    rw [if_pos this]

/-- A request for `/v1/temp`. -/
def serverSample : Msg :=
  { version := 1, type := 1, code := 1, mid := 0x1234, token := [0xAA, 0xFF],
    opts := [⟨3, [0x68]⟩, ⟨11, [0x76, 0x31]⟩, ⟨11, [0x74, 0x65, 0x6D, 0x70]⟩, ⟨12, []⟩], payload := some [9] }

example : serverSample.Ok ∧ uriPath serverSample = ["v1".toList, "temp".toList] := by decide +kernel

-- a non-confirmable request is answered by an acknowledgement, which RFC 7252 section 4.3 rules out
example : serve 64 [] Dec.zero (List.replicate 8 0) 300 (encMsg serverSample) =
    .ok [[0x62, 0x84, 0x12, 0x34, 0xAA, 0xFF]] := by decide +kernel
example : serve 64 uriSample Dec.zero (List.replicate 8 0) 300 (encMsg serverSample) = .ok [] := by decide +kernel

/-! ## C46 -/

/-- Servers passing a datagram to and fro: each answers with exactly one datagram, which goes to the next. -/
def exchange (srv : Nat → List UInt8 → Except Fault (List (List UInt8))) : Nat → List UInt8 → Option (List UInt8)
  | 0, bytes => some bytes
  | n + 1, bytes =>
    match srv n bytes with
    | .ok [r] => exchange srv n r
    | _ => none

/-- C46 fails: the automatic reply is itself answered, so that two servers answer each other's replies for any number
of rounds, whatever their tables and their memory are and however much room (from twelve bytes on) they have for a
reply. -/
theorem auto_replies_answered {m : Msg} (hm : m.Ok) (htype : m.type = 2) (hopts : m.opts = []) (hpay : m.payload = none)
    (hcode : m.code = 0x84) (paths : Nat → List Uri.Entry) (cap : Nat → Nat) (hcap : ∀ i, 12 ≤ cap i) (junk : Nat → Dec)
    (hb : ∀ i, (junk i).tbuf.length = 8) (jt : Nat → List UInt8) (hj : ∀ i, (jt i).length = 8) (fuel : Nat → Nat)
    (hf : ∀ i, 138 ≤ fuel i) (n : Nat) :
    exchange (fun i => serve (cap i) (paths i) (junk i) (jt i) (fuel i)) n (encMsg m) = some (encMsg m) := by
  have htok := hm.2.2.2.2.1
  have hlen : (encMsg m).length ≤ 12 := by
    simp [encMsg, encHeader, hopts, hpay, encOpts, encPayload]
    omega
  have hrep : replyTo m 0x84 = m := by
    obtain ⟨v, t, c, i, tok, o, p⟩ := m
    simp only at htype hopts hpay hcode
    subst htype hopts hpay hcode
    rfl
  have hpath : uriPath m = [] := by simp [uriPath, hopts]
  induction n with
  | zero => rfl
  | succ n ih =>
    rw [exchange, serve_message hm (cap n) (by have := hcap n; omega) (paths n) (junk n) (hb n) (jt n) (hj n) (fuel n)
      (by have := hf n; omega), hpath, hrep]
    exact ih

/-- C46 fails for every message that gets an automatic reply at all, a request among them: of two servers that each
see what the other sends, each answers every time, for any number of rounds; from the first reply on the same datagram
goes to and fro. -/
theorem auto_replies_breed {m : Msg} (hm : m.Ok) (paths : Nat → List Uri.Entry) (n : Nat) (hpf : ParentsFirst (paths n))
    (hd : ∀ q, q ≠ -1 → ¬Denotes (paths n) (-1) (uriPath m) q) (cap : Nat → Nat) (hcap : ∀ i, 12 ≤ cap i)
    (junk : Nat → Dec) (hb : ∀ i, (junk i).tbuf.length = 8) (jt : Nat → List UInt8) (hj : ∀ i, (jt i).length = 8)
    (fuel : Nat → Nat) (hf : ∀ i, 11 * (encMsg m).length + 138 ≤ fuel i) :
    exchange (fun i => serve (cap i) (paths i) (junk i) (jt i) (fuel i)) (n + 1) (encMsg m) =
      some (encMsg (replyTo m 0x84)) := by
  have htok := hm.2.2.2.2.1
  rw [exchange, unknown_path_404 hm (by have := hcap n; omega) hpf hd (junk n) (hb n) (jt n) (hj n) (fuel n)
    (by have := hf n; omega)]
  exact auto_replies_answered (replyTo_ok hm (by omega)) rfl rfl rfl rfl paths cap hcap junk hb jt hj fuel
    (fun i => by have := hf i; omega) n

example : exchange (fun _ => serve 12 [] Dec.zero (List.replicate 8 0) 500) 3 (encMsg serverSample) =
    some [0x62, 0x84, 0x12, 0x34, 0xAA, 0xFF] := by decide +kernel

example : (replyTo serverSample 0x84).Ok := by decide +kernel

/-- Events that end the options. -/
def ends (evs : List Event) : Nat := evs.countP (· == .optionsCompleted)

/-- Past the end of the options. -/
def Late (s : DState) : Prop := s = .optionsDone ∨ s = .payload ∨ s = .payloadDone

theorem step_late {d d' : Dec} {c c' : Ctx} (h : d.step c = .ok (d', c')) (hl : Late d.st) :
    d'.st = .payload ∨ d'.st = .payloadDone ∨ d'.st = .done := by
  rcases hl with hl | hl | hl
  · simp only [Dec.step, hl] at h
    repeat' split at h
    all_goals first | (simp only [Except.ok.injEq, Prod.mk.injEq] at h; rw [← h.1]; simp) | simp at h
  · simp only [Dec.step, hl] at h
    repeat' split at h
    all_goals first | (simp only [Except.ok.injEq, Prod.mk.injEq] at h; rw [← h.1]; simp; done) | simp at h
  · simp only [Dec.step, hl] at h
    repeat' split at h
    all_goals first | (simp only [Except.ok.injEq, Prod.mk.injEq] at h; rw [← h.1]; simp; done) | simp at h

theorem notify_ends {d : Dec} {c : Ctx} {evs : List Event} (h : d.notify c = .ok evs) :
    ends evs = if d.st = .optionsDone then 1 else 0 := by
  simp only [Dec.notify] at h
  repeat' split at h
  all_goals first | (simp only [Except.ok.injEq] at h; subst h; simp_all [ends]; done) | simp at h

theorem stepNotify_parts {d d' : Dec} {c c' : Ctx} {evs : List Event} (h : d.stepNotify c = .ok (d', c', evs)) :
    d.step c = .ok (d', c') ∧ d'.notify c' = .ok evs := by
  simp only [Dec.stepNotify] at h
  cases hs : d.step c with
  | error e => rw [hs] at h; simp at h
  | ok v =>
    obtain ⟨d1, c1⟩ := v
    rw [hs] at h
    simp only at h
    cases hn : d1.notify c1 with
    | error e => rw [hn] at h; simp at h
    | ok w =>
      rw [hn] at h
      simp only [Except.ok.injEq, Prod.mk.injEq] at h
      obtain ⟨rfl, rfl, rfl⟩ := h
      exact ⟨rfl, hn⟩

/-- Whatever the bytes are, the end of the options is reported at most once. -/
theorem ends_le_one : ∀ (f : Nat) (d d' : Dec) (c c' : Ctx) (evs : List Event),
    d.processToDone f c = .ok (d', c', evs) → ends evs ≤ 1 ∧ (Late d.st → ends evs = 0)
  | 0, d, d', c, c', evs, h => by simp [Dec.processToDone] at h
  | f + 1, d, d', c, c', evs, h => by
    rw [Dec.processToDone] at h
    cases hs : d.stepNotify c with
    | error e => rw [hs] at h; simp at h
    | ok v =>
      obtain ⟨d1, c1, e1⟩ := v
      obtain ⟨h1, h2⟩ := stepNotify_parts hs
      have hn := notify_ends h2
      have hl : Late d.st → ends e1 = 0 := by
        intro hl
        rcases step_late h1 hl with h | h | h <;> (rw [hn, h]; simp)
      rw [hs] at h
      simp only at h
      by_cases hd : d1.st = .done
      · simp only [hd, beq_self_eq_true, if_true, Except.ok.injEq, Prod.mk.injEq] at h
        obtain ⟨-, -, rfl⟩ := h
        exact ⟨by rw [hn]; split <;> omega, hl⟩
      · simp only [beq_iff_eq, hd, if_false] at h
        cases hp : d1.processToDone f c1 with
        | error e => rw [hp] at h; simp at h
        | ok w =>
          obtain ⟨d2, c2, e2⟩ := w
          rw [hp] at h
          simp only [Except.ok.injEq, Prod.mk.injEq] at h
          obtain ⟨-, -, rfl⟩ := h
          obtain ⟨i1, i2⟩ := ends_le_one f d1 d2 c1 c2 e2 hp
          have ha : ends (e1 ++ e2) = ends e1 + ends e2 := by simp [ends, List.countP_append]
          rw [ha]
          refine ⟨?_, ?_⟩
          · by_cases ho : d1.st = .optionsDone
            · rw [hn, if_pos ho, i2 (Or.inl ho)]; omega
            · rw [hn, if_neg ho]; omega
          · intro hlt
            rw [hl hlt, i2]
            rcases step_late h1 hlt with h | h | h
            · exact Or.inr (Or.inl h)
            · exact Or.inr (Or.inr h)
            · exact absurd h hd

theorem onEvent_bound {cap : Nat} {x y : SCtx} {e : Event} (h : x.onEvent cap e = .ok y) (hx : x.token.length = 8)
    (hs : ∀ r ∈ x.sent, r.length ≤ 12) :
    y.token.length = 8 ∧ (∀ r ∈ y.sent, r.length ≤ 12) ∧ y.sent.length ≤ x.sent.length + ends [e] := by
  cases e with
  | header hd => simp only [SCtx.onEvent, Except.ok.injEq] at h; subst h; exact ⟨hx, hs, by simp [SCtx.setHeader]⟩
  | token t =>
    simp only [SCtx.onEvent, SCtx.setToken] at h
    by_cases hl : t.length ≤ x.token.length
    · simp only [hl, if_true, Except.ok.injEq] at h
      subst h
      refine ⟨?_, hs, by simp⟩
      simp; omega
    · simp [hl] at h
  | option n v l =>
    simp only [SCtx.onEvent, Except.ok.injEq] at h
    subst h
    by_cases hn : (n == 11) = true
    · simp only [hn, if_true]; exact ⟨hx, hs, by simp⟩
    · simp only [hn]; exact ⟨hx, hs, by simp⟩
  | optionsCompleted =>
    simp only [SCtx.onEvent] at h
    by_cases hf : x.foundNode = Uri.none_
    · simp only [hf, ne_eq, not_true_eq_false, if_false] at h
      cases hr : x.buildReply cap 0x84 with
      | error e => rw [hr] at h; simp at h
      | ok r =>
        rw [hr] at h
        simp only [Except.ok.injEq] at h
        subst h
        refine ⟨hx, ?_, by simp [ends]⟩
        intro r' hr'
        rcases List.mem_append.mp hr' with h' | h'
        · exact hs r' h'
        · rw [List.mem_singleton] at h'
          subst h'
          unfold SCtx.buildReply SCtx.getToken at hr
          by_cases hg : x.hdr.tokenLength.toNat ≤ x.token.length
          · simp only [hg, if_true, header_token_out, Except.ok.injEq] at hr
            rw [← hr]
            simp
            omega
          · simp [hg] at hr
    · simp only [hf, ne_eq, not_false_eq_true, if_true, Except.ok.injEq] at h
      subst h
      exact ⟨hx, hs, by simp⟩
  | optionStart => simp only [SCtx.onEvent, Except.ok.injEq] at h; subst h; exact ⟨hx, hs, by simp⟩
  | payload p l => simp only [SCtx.onEvent, Except.ok.injEq] at h; subst h; exact ⟨hx, hs, by simp⟩
  | completed => simp only [SCtx.onEvent, Except.ok.injEq] at h; subst h; exact ⟨hx, hs, by simp⟩

theorem onEvents_bound {cap : Nat} : ∀ {evs : List Event} {x y : SCtx}, x.onEvents cap evs = .ok y → x.token.length = 8 →
    (∀ r ∈ x.sent, r.length ≤ 12) → (∀ r ∈ y.sent, r.length ≤ 12) ∧ y.sent.length ≤ x.sent.length + ends evs
  | [], x, y, h, hx, hs => by
    simp only [SCtx.onEvents, Except.ok.injEq] at h
    subst h
    exact ⟨hs, by simp⟩
  | e :: evs, x, y, h, hx, hs => by
    rw [SCtx.onEvents] at h
    cases h1 : x.onEvent cap e with
    | error f => rw [h1] at h; simp at h
    | ok z =>
      rw [h1] at h
      obtain ⟨a, b, c⟩ := onEvent_bound h1 hx hs
      obtain ⟨i, j⟩ := onEvents_bound h a b
      refine ⟨i, ?_⟩
      have : ends (e :: evs) = ends [e] + ends evs := by simp [ends, List.countP_cons]; omega
      omega

/-- C46 (partial: what remains true): whatever arrives, well-formed or not, a server sends at most one automatic
reply, of at most twelve bytes.  Missing: that replies are not answered, which is false (`auto_replies_answered`). -/
theorem auto_replies_bounded_partial (cap : Nat) (paths : List Uri.Entry) (junk : Dec) (jt : List UInt8) (hj : jt.length = 8)
    (fuel : Nat) (bytes : List UInt8) (rs : List (List UInt8)) (h : serve cap paths junk jt fuel bytes = .ok rs) :
    rs.length ≤ 1 ∧ ∀ r ∈ rs, r.length ≤ 12 := by
  rw [serve] at h
  cases hp : Dec.processToDone fuel (Dec.fresh junk) ⟨bytes, 0, true⟩ with
  | error e => rw [hp] at h; simp at h
  | ok v =>
    obtain ⟨d, c, evs⟩ := v
    rw [hp] at h
    simp only at h
    cases hx : (SCtx.init paths jt).onEvents cap evs with
    | error e => rw [hx] at h; simp at h
    | ok x =>
      rw [hx] at h
      simp only [Except.ok.injEq] at h
      subst h
      obtain ⟨h1, h2⟩ := onEvents_bound hx hj (by simp [SCtx.init])
      have := (ends_le_one _ _ _ _ _ _ hp).1
      have h0 : (SCtx.init paths jt).sent.length = 0 := rfl
      exact ⟨by omega, h1⟩

example : serve 64 [] Dec.zero (List.replicate 8 0) 300 [0x41, 2, 3, 4, 5, 0xF1, 7] = .ok [[0x61, 0x84, 3, 4, 5]] := by
  decide +kernel

end Verif.Props
