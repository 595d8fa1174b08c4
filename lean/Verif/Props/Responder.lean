import Verif.Model.Responder
import Verif.Props.Server
import Verif.Props.StreamRoundTrip
import Verif.Props.UInt

/-! # Integer options (C61) and the resource that tells the version (C60) -/
namespace Verif.Props
open Verif.Model Verif.Spec Verif.Proofs Verif.Model.Header OptEnc SEnc

/-! ## C61 -/

theorem assessInt_nonneg (n : Nat) : ∀ (fuel : Nat) (c : UInt8), byteLen n < fuel →
    assessInt fuel (n : Int) c = .ok (c + UInt8.ofNat (byteLen n)) := by
  induction n using Nat.strongRecOn with
  | _ n ih =>
    intro fuel c hf
    obtain ⟨fuel, rfl⟩ : ∃ g, fuel = g + 1 := ⟨fuel - 1, by omega⟩
    rw [assessInt]
    by_cases h : n = 0
    · subst h; simp [byteLen_zero]
    · have hb := byteLen_pos h
      rw [if_neg (by omega), show ((n : Int) / 256) = ((n / 256 : Nat) : Int) by omega,
        ih (n / 256) (by omega) fuel (c + 1) (by omega), hb]
      congr 1
      apply UInt8.toNat_inj.1
      simp; omega

/-- C61 (partial: numbers that are not negative): writing an integer option returns and writes the option with the
shortest big-endian form of the number, which every reader of the library turns back into the number. -/
theorem option_int_written_partial (prev number : Nat) (hn : prev ≤ number) (hn2 : number < 65536) (hd : number - prev < 65266)
    (v : Int) (hv : 0 ≤ v) (hv2 : v < 2 ^ 31) (junk : List UInt8) (hj : junk.length = 4) (fuel : Nat) (hf : 5 ≤ fuel) :
    ∃ hdr value, HdrOf hdr (number - prev) value.length ∧ hdr.length ≤ 5 ∧ beValue value = v.toNat ∧ uintGet 32 value = v.toNat ∧
      (∀ other, beValue other = v.toNat → value.length ≤ other.length) ∧
      ∀ s : SEnc, s.oe.current = UInt16.ofNat prev → s.out.length + hdr.length + value.length ≤ s.cap →
        ∃ oe, oe.current = UInt16.ofNat number ∧ s.optionInt fuel (UInt16.ofNat number) v junk =
          .ok (⟨oe, s.out ++ (hdr ++ value), s.cap⟩, true) := by
  obtain ⟨n, rfl⟩ : ∃ n : Nat, v = (n : Int) := ⟨v.toNat, by omega⟩
  have hn31 : n < 2 ^ 31 := by omega
  have h4 : byteLen n ≤ 4 := byteLen_le (by omega)
  have ha := assessInt_nonneg n fuel 0 (by omega)
  have hk : (0 + UInt8.ofNat (byteLen n)).toNat = byteLen n := by simp; omega
  have hval : beValue (beBytes (byteLen n) n) = n := beBytes_byteLen_value n
  have hlen : (beBytes (byteLen n) n).length = byteLen n := by simp
  obtain ⟨hdr, h1, h2, h3⟩ := option_written prev number (beBytes (byteLen n) n) hn hn2 (by omega) ⟨hd, Or.inl (by omega)⟩
  refine ⟨hdr, beBytes (byteLen n) n, h1, h2, by simpa using hval, ?_, ?_, fun s hc hr => ?_⟩
  · rw [uint_decode_value 32 (by omega), hval]
    simp only [Int.toNat_natCast]
    exact Nat.mod_eq_of_lt (by omega)
  · intro other ho
    obtain ⟨out, e1, -, -, -, -, e2⟩ := uint_shortest n (by omega) (List.replicate 8 0) (by simp)
    have e3 := uintSet_eq (n := n) (by omega) (List.replicate 8 0)
    rw [if_pos (by simp; omega), e1] at e3
    simp only [Option.some.injEq, Prod.mk.injEq] at e3
    have hol : out.length = byteLen n := by
      have hle : out.length ≤ other.length := (e2 other (by simpa using ho)).1
      have h5 := congrArg UInt8.toNat e3.2
      have h6 : out.length ≤ (beBytes (byteLen n) n).length := (e2 _ hval).1
      simp at h5
      omega
    have := (e2 other (by simpa using ho)).1
    omega
  · obtain ⟨oe, f1, f2⟩ := h3 s hc hr
    refine ⟨oe, f1, ?_⟩
    rw [SEnc.optionInt, ha]
    simp only [hk, Int.toNat_natCast, uintSetLen_eq, hj, h4, if_true]
    rw [List.take_append_of_le_length (by omega), List.take_of_length_le (by omega)]
    exact f2

/-- C61 fails for every negative number, which the parameter can hold: writing never returns. -/
theorem option_int_negative_hangs (v : Int) (hv : v < 0) (s : SEnc) (number : UInt16) (junk : List UInt8) (fuel : Nat) :
    s.optionInt fuel number v junk = .error .outOfFuel := by
  have : ∀ (fuel : Nat) (v : Int) (c : UInt8), v < 0 → assessInt fuel v c = .error .outOfFuel := by
    intro fuel
    induction fuel with
    | zero => intro v c _; rfl
    | succ fuel ih =>
      intro v c hv
      rw [assessInt, if_neg (by omega)]
      exact ih _ _ (by omega)
  rw [SEnc.optionInt, this fuel v 0 hv]

/-- C61, exactly: with room for the longest form of the option, writing an integer option returns just when the number is not
negative. -/
theorem option_int_returns_iff (prev number : Nat) (hn : prev ≤ number) (hn2 : number < 65536) (hd : number - prev < 65266)
    (v : Int) (hv2 : v < 2 ^ 31) (junk : List UInt8) (hj : junk.length = 4) (s : SEnc) (hs : s.oe.current = UInt16.ofNat prev)
    (hr : s.out.length + 9 ≤ s.cap) :
    (∃ fuel r, s.optionInt fuel (UInt16.ofNat number) v junk = .ok r) ↔ 0 ≤ v := by
  constructor
  · rintro ⟨fuel, r, h⟩
    refine Classical.byContradiction fun hv => ?_
    rw [option_int_negative_hangs v (by omega)] at h; cases h
  · intro hv
    obtain ⟨hdr, value, -, h5, -, -, hm, hw⟩ := option_int_written_partial prev number hn hn2 hd v hv hv2 junk hj 5 (by omega)
    have hl : value.length ≤ 4 := by
      have := hm (beBytes 4 v.toNat) (by rw [beValue_beBytes]; omega)
      simpa using this
    obtain ⟨oe, -, e⟩ := hw s hs (by omega)
    exact ⟨5, _, e⟩

example : (SEnc.init 20).optionInt 5 60 0x1234 [0, 0, 0, 0] = .ok (⟨⟨.optionLengthDone, 60, 1⟩, [0xD2, 47, 0x12, 0x34], 20⟩, true) := by
  decide +kernel

/-! ## C60 -/

/-- Writing Content-Format 0 as the first option, whatever the room. -/
theorem format_out (s : SEnc) (hs : s.oe = OptEnc.init) (junk : List UInt8) :
    ∃ s' ok, s.optionInt 8 12 0 junk = .ok (s', ok) ∧ s'.cap = s.cap ∧ s'.out = s.out ++ [0xC0].take (s.cap - s.out.length) := by
  have h0 : s.optionInt 8 12 0 junk = s.option 12 [] := by simp [SEnc.optionInt, assessInt, uintSetLen]
  obtain ⟨oe, out, cap⟩ := s
  simp only at hs
  subst hs
  rw [h0, SEnc.option]
  by_cases hr : out.length < cap
  · obtain ⟨q, he⟩ := short_emits ⟨12, 0, []⟩ 0 0 (by decide) (by decide)
    have hb : ((helper (0 : UInt16) 0 ||| (helper ((12 : UInt16) - 0) 0 <<< 4)) :: codeExt ((12 : UInt16) - 0)) = [0xC0] := by decide
    rw [hb] at he
    have := loop_of_emits he (fuelFor ⟨OptEnc.init, out, cap⟩) out cap trivial (by simp; omega)
      (by simp only [fuelFor, room, erank]; omega)
    have h1 : (⟨OptEnc.init, out, cap⟩ : SEnc).optionHeader 12 0 =
        .ok (⟨⟨.optionLengthDone, 12, q⟩, out ++ [0xC0], cap⟩, true) := this
    simp only [List.length_nil]
    rw [show UInt16.ofNat 0 = 0 from rfl, h1]
    refine ⟨_, _, rfl, rfl, ?_⟩
    simp only [SEnc.putn, List.take_nil, List.append_nil]
    rw [List.take_of_length_le (by simp; omega)]
  · have h1 : (⟨OptEnc.init, out, cap⟩ : SEnc).optionHeader 12 0 = .ok (⟨⟨.firstByteDone, 0, 0⟩, out, cap⟩, false) := by
      rw [SEnc.optionHeader, fuelFor]
      rw [show ∀ n, n + 8 = (n + 7) + 1 from fun _ => rfl, optionLoop]
      simp [OptEnc.init, OptEnc.next, generate, SEnc.putc, hr]
    simp only [List.length_nil]
    rw [show UInt16.ofNat 0 = 0 from rfl, h1]
    refine ⟨_, _, rfl, rfl, ?_⟩
    rw [show cap - out.length = 0 by omega]
    simp

/-- The reply is that of the specification, as far as there is room. -/
theorem versionReply_msg {m : Msg} (hm : m.Ok) (x : SCtx) (cap : Nat) (text junkVec : List UInt8)
    (hh : x.hdr = ⟨UInt8.ofNat (64 * m.version + 16 * m.type + m.token.length), UInt8.ofNat m.code,
      UInt8.ofNat (m.mid / 256), UInt8.ofNat (m.mid % 256)⟩) (junk : List UInt8) (ht : x.token = m.token ++ junk) :
    x.versionReply cap text junkVec = .ok ((encMsg (textReply m text)).take cap) := by
  have hbig := buildReply_msg hm x 0x45 (4 + m.token.length) (by omega) hh junk ht
  have hg : x.getToken = .ok m.token := by
    have htl : (x.hdr.tokenLength).toNat = m.token.length := by
      obtain ⟨h1, h2, h3, h4, h5, h6, h7⟩ := hm
      rw [tokenLength, tkl_toNat, hh]; simp; omega
    simp only [SCtx.getToken, htl, ht, List.length_append]
    rw [if_pos (by omega), List.take_append_of_le_length (by omega), List.take_of_length_le (by omega)]
  simp only [SCtx.buildReply, hg, header_token_out, Except.ok.injEq] at hbig
  rw [List.take_of_length_le (by simp; omega)] at hbig
  simp only [SCtx.versionReply, hg]
  generalize hs : ((SEnc.init cap).header ((x.hdr.setCode 0x45).setType acknowledgement)).token m.token = s
  have hso : s.out = (encMsg (replyTo m 0x45)).take cap := by
    rw [← hs, header_token_out, ← hbig]; rfl
  have hsc : s.cap = cap := by rw [← hs]; rfl
  have hse : s.oe = OptEnc.init := by rw [← hs]; rfl
  obtain ⟨s', ok, e1, e2, e3⟩ := format_out s hse junkVec
  rw [e1]
  simp only [Except.ok.injEq]
  have hfull : encMsg (textReply m text) = encMsg (replyTo m 0x45) ++ ([0xC0] ++ ([0xFF] ++ text)) := by
    simp [encMsg, textReply, replyTo, encHeader, encOpts, encPayload, optHeader, nibble, extBytes]
  rw [hfull]
  generalize encMsg (replyTo m 0x45) = R at hso
  rw [hso, hsc] at e3
  rw [hsc] at e2
  obtain ⟨oe, out, c⟩ := s'
  simp only at e2 e3
  subst e2 e3
  simp only [SEnc.payloadMarker, SEnc.putc, SEnc.putn, SEnc.room]
  by_cases h1 : c ≤ R.length
  · have hl : (List.take c R).length = c := by simp; omega
    simp only [hl, Nat.sub_self, List.take_zero, List.append_nil, Nat.lt_irrefl, if_false]
    rw [List.take_append_of_le_length h1]
  · have hl : List.take c R = R := List.take_of_length_le (by omega)
    obtain ⟨k, rfl⟩ : ∃ k, c = R.length + (k + 1) := ⟨c - R.length - 1, by omega⟩
    have hk : R.length + (k + 1) - R.length = k + 1 := by omega
    simp only [hl, hk, List.take_succ_cons, List.take_nil, List.length_append, List.length_cons, List.length_nil]
    rw [List.take_length_add_append]
    cases k with
    | zero => simp
    | succ k =>
      simp
      omega

/-- The observers without the version observer do the same up to the end of the message. -/
theorem versionEvents_before (cap : Nat) (id : Int) (text jv : List UInt8) : ∀ (l : List Event) (x : SCtx),
    Event.completed ∉ l → ∀ tail, x.versionEvents cap id text jv (l ++ tail) =
      match x.onEvents cap l with
      | .error e => .error e
      | .ok x => x.versionEvents cap id text jv tail
  | [], x, _, tail => rfl
  | e :: l, x, h, tail => by
    have he : x.versionEvent cap id text jv e = x.onEvent cap e := by
      cases e <;> first | rfl | exact absurd List.mem_cons_self h
    rw [List.cons_append, SCtx.versionEvents, he, SCtx.onEvents]
    cases x.onEvent cap e with
    | error f => rfl
    | ok y => exact versionEvents_before cap id text jv l y (fun h' => h (List.mem_cons_of_mem _ h')) tail

/-- What the server with the version observer sends for the events of a message. -/
theorem versionEvents_delivery {m : Msg} (hm : m.Ok) (paths : List Uri.Entry) (jt : List UInt8) (hj : jt.length = 8) (cap : Nat)
    (id : Int) (hid : id ≠ -1) (text jv : List UInt8) (pay : List Event) (hpay : ∀ e ∈ pay, ∃ p l, e = .payload p l)
    (hcap : 4 + m.token.length ≤ cap ∨ ((Uri.Matcher.init paths).feed (uriPath m)).lastFound ≠ -1) :
    ∃ x, (SCtx.init paths jt).versionEvents cap id text jv
      (([.header ⟨UInt8.ofNat (64 * m.version + 16 * m.type + m.token.length), UInt8.ofNat m.code,
        UInt8.ofNat (m.mid / 256), UInt8.ofNat (m.mid % 256)⟩, .token m.token, .optionStart] ++
      m.opts.map (fun o => .option (UInt16.ofNat o.number) o.value true)) ++ .optionsCompleted :: (pay ++ [.completed])) = .ok x ∧
      x.sent = if ((Uri.Matcher.init paths).feed (uriPath m)).lastFound = -1 then [encMsg (replyTo m 0x84)]
        else if ((Uri.Matcher.init paths).feed (uriPath m)).lastFound = id then [(encMsg (textReply m text)).take cap] else [] := by
  have hp : ∀ (l : List Event) (x : SCtx), (∀ e ∈ l, ∃ p q, e = .payload p q) →
      x.versionEvents cap id text jv (l ++ [.completed]) = x.versionEvents cap id text jv [.completed] := by
    intro l
    induction l with
    | nil => intro x _; rfl
    | cons e l ih =>
      intro x h
      obtain ⟨p, q, rfl⟩ := h e List.mem_cons_self
      exact ih x fun e' h' => h e' (List.mem_cons_of_mem _ h')
  rw [versionEvents_before _ _ _ _ _ _ (by simp), onEvents_head hm paths jt hj cap]
  simp only
  rw [SCtx.versionEvents]
  by_cases hf : ((Uri.Matcher.init paths).feed (uriPath m)).lastFound = -1
  · have hr := buildReply_msg hm ⟨⟨UInt8.ofNat (64 * m.version + 16 * m.type + m.token.length), UInt8.ofNat m.code,
        UInt8.ofNat (m.mid / 256), UInt8.ofNat (m.mid % 256)⟩, m.token ++ jt.drop m.token.length,
      (Uri.Matcher.init paths).feed (uriPath m), []⟩ 0x84 cap (hcap.resolve_right (fun h => h hf)) rfl _ rfl
    have h84 : (UInt8.ofNat 0x84) = (0x84 : UInt8) := rfl
    rw [h84] at hr
    simp only [SCtx.versionEvent, SCtx.onEvent, SCtx.foundNode, Uri.none_, hf, ne_eq, not_true_eq_false, if_false, if_true, hr]
    rw [hp pay _ hpay]
    simp only [SCtx.versionEvents, SCtx.versionEvent, SCtx.foundNode, hf, Ne.symm hid, if_false]
    exact ⟨_, rfl, rfl⟩
  · simp only [SCtx.versionEvent, SCtx.onEvent, SCtx.foundNode, Uri.none_, hf, ne_eq, not_false_eq_true, if_true, if_false]
    rw [hp pay _ hpay]
    by_cases hi : ((Uri.Matcher.init paths).feed (uriPath m)).lastFound = id
    · have hv := versionReply_msg hm ⟨⟨UInt8.ofNat (64 * m.version + 16 * m.type + m.token.length), UInt8.ofNat m.code,
        UInt8.ofNat (m.mid / 256), UInt8.ofNat (m.mid % 256)⟩, m.token ++ jt.drop m.token.length,
        (Uri.Matcher.init paths).feed (uriPath m), []⟩ cap text jv rfl _ rfl
      simp only [SCtx.versionEvents, SCtx.versionEvent, SCtx.foundNode, hi, if_true, hv]
      exact ⟨_, rfl, rfl⟩
    · simp only [SCtx.versionEvents, SCtx.versionEvent, SCtx.foundNode, hi, if_false]
      exact ⟨_, rfl, rfl⟩

theorem versionEvents_all {m : Msg} (hm : m.Ok) (paths : List Uri.Entry) (jt : List UInt8) (hj : jt.length = 8) (cap : Nat)
    (id : Int) (hid : id ≠ -1) (text jv : List UInt8)
    (hcap : 4 + m.token.length ≤ cap ∨ ((Uri.Matcher.init paths).feed (uriPath m)).lastFound ≠ -1) :
    ∃ x, (SCtx.init paths jt).versionEvents cap id text jv (delivery m) = .ok x ∧
      x.sent = if ((Uri.Matcher.init paths).feed (uriPath m)).lastFound = -1 then [encMsg (replyTo m 0x84)]
        else if ((Uri.Matcher.init paths).feed (uriPath m)).lastFound = id then [(encMsg (textReply m text)).take cap] else [] := by
  obtain ⟨x, hx, hs⟩ := versionEvents_delivery hm paths jt hj cap id hid text jv
    (match m.payload with | none => [] | some p => [Event.payload p true])
    (by intro e he; cases hp : m.payload <;> rw [hp] at he <;> simp at he; exact ⟨_, _, he⟩) hcap
  refine ⟨x, ?_, hs⟩
  rw [← hx]
  congr 1
  simp only [delivery, List.append_assoc, List.cons_append, List.nil_append]
  cases m.payload <;> rfl

/-- What the server with the version observer sends for a well-formed datagram. -/
theorem serveVersion_message {m : Msg} (hm : m.Ok) (cap : Nat) (paths : List Uri.Entry) (id : Int) (hid : id ≠ -1)
    (hcap : 4 + m.token.length ≤ cap ∨ ((Uri.Matcher.init paths).feed (uriPath m)).lastFound ≠ -1) (text : List UInt8) (junk : Dec)
    (hd : junk.tbuf.length = 8) (jt : List UInt8) (hj : jt.length = 8) (jv : List UInt8) (fuel : Nat)
    (hf : 11 * (encMsg m).length + 6 ≤ fuel) :
    serveVersion cap paths id text junk jt jv fuel (encMsg m) =
      .ok (if ((Uri.Matcher.init paths).feed (uriPath m)).lastFound = -1 then [encMsg (replyTo m 0x84)]
        else if ((Uri.Matcher.init paths).feed (uriPath m)).lastFound = id then [(encMsg (textReply m text)).take cap] else []) := by
  by_cases hst : junk.opt.st ≠ .payload ∨ m.token ≠ [] ∨ m.opts ≠ [] ∨ m.payload ≠ none
  · obtain ⟨N, d', hN, -, h⟩ := message_delivered_partial m hm junk hd hst
    rw [serveVersion, h fuel (by omega)]
    obtain ⟨x, hx, hs⟩ := versionEvents_all hm paths jt hj cap id hid text jv hcap
    simp only [hx, hs]
  · have hp : junk.opt.st = .payload := Classical.byContradiction fun h => hst (Or.inl h)
    have h1 : m.token = [] := Classical.byContradiction fun h => hst (Or.inr (Or.inl h))
    have h2 : m.opts = [] := Classical.byContradiction fun h => hst (Or.inr (Or.inr (Or.inl h)))
    have h3 : m.payload = none := Classical.byContradiction fun h => hst (Or.inr (Or.inr (Or.inr h)))
    obtain ⟨d', -, h⟩ := stale_option_state_phantom_payload m hm h1 h2 h3 junk hp
    have hlen : (encMsg m).length = 4 := by simp [encMsg, encHeader, h1, h2, h3, encOpts, encPayload]
    rw [serveVersion, processToDone_mono h (by omega : 9 ≤ fuel)]
    simp only
    obtain ⟨x, hx, hs⟩ := versionEvents_delivery hm paths jt hj cap id hid text jv [.payload [] true]
      (by intro e he; simp at he; exact ⟨_, _, he⟩) hcap
    have he : ([.header ⟨UInt8.ofNat (64 * m.version + 16 * m.type), UInt8.ofNat m.code, UInt8.ofNat (m.mid / 256),
            UInt8.ofNat (m.mid % 256)⟩,
         .token [], .optionStart, .optionsCompleted, .payload [] true, .completed] : List Event) =
        (([.header ⟨UInt8.ofNat (64 * m.version + 16 * m.type + m.token.length), UInt8.ofNat m.code,
        UInt8.ofNat (m.mid / 256), UInt8.ofNat (m.mid % 256)⟩, .token m.token, .optionStart] ++
      m.opts.map (fun o => .option (UInt16.ofNat o.number) o.value true)) ++ .optionsCompleted ::
        ([.payload [] true] ++ [.completed])) := by
      simp [h1, h2]
    rw [he, hx]
    simp only [hs]

theorem textReply_ok {m : Msg} (hm : m.Ok) {text : List UInt8} (ht : text ≠ []) : (textReply m text).Ok := by
  obtain ⟨h1, h2, h3, h4, h5, h6, h7⟩ := hm
  exact ⟨h1, by simp [textReply], by simp [textReply], h4, h5, by simp [textReply, OptsOk], by simp [textReply, ht]⟩

/-- C60: a message whose path denotes the node of the version gets exactly one reply: an acknowledgement with 2.05, its
message id and token, Content-Format 0 and the text.  It is a well-formed message. -/
theorem version_answered {m : Msg} (hm : m.Ok) {text : List UInt8} (ht : text ≠ []) {cap : Nat}
    (hcap : 6 + m.token.length + text.length ≤ cap) {paths : List Uri.Entry} (hpf : ParentsFirst paths) {id : Int} (hid : id ≠ -1)
    (hd : Denotes paths (-1) (uriPath m) id) (junk : Dec) (hb : junk.tbuf.length = 8) (jt : List UInt8) (hj : jt.length = 8)
    (jv : List UInt8) (fuel : Nat) (hf : 11 * (encMsg m).length + 6 ≤ fuel) :
    (textReply m text).Ok ∧ serveVersion cap paths id text junk jt jv fuel (encMsg m) = .ok [encMsg (textReply m text)] := by
  refine ⟨textReply_ok hm ht, ?_⟩
  have hu := uri_path_found hpf hd
  rw [serveVersion_message hm cap paths id hid (Or.inr (by rw [hu]; exact hid)) text junk hb jt hj jv fuel hf, hu, if_neg hid,
    if_pos rfl, List.take_of_length_le]
  simp [encMsg, textReply, encHeader, encOpts, encPayload, optHeader, nibble, extBytes]
  omega

/-- C60: a message for another node gets no reply, and one for no node exactly the 4.04. -/
theorem version_only_there {m : Msg} (hm : m.Ok) {text : List UInt8} {cap : Nat} (hcap : 4 + m.token.length ≤ cap)
    {paths : List Uri.Entry} (hpf : ParentsFirst paths) {id : Int} (hid : id ≠ -1) (junk : Dec) (hb : junk.tbuf.length = 8)
    (jt : List UInt8) (hj : jt.length = 8) (jv : List UInt8) (fuel : Nat) (hf : 11 * (encMsg m).length + 6 ≤ fuel) :
    (∀ q, q ≠ -1 → q ≠ id → Denotes paths (-1) (uriPath m) q →
      serveVersion cap paths id text junk jt jv fuel (encMsg m) = .ok []) ∧
    ((∀ q, q ≠ -1 → ¬Denotes paths (-1) (uriPath m) q) →
      serveVersion cap paths id text junk jt jv fuel (encMsg m) = .ok [encMsg (replyTo m 0x84)]) := by
  rw [serveVersion_message hm cap paths id hid (Or.inl hcap) text junk hb jt hj jv fuel hf]
  refine ⟨fun q hq hqi hd => ?_, fun hd => ?_⟩
  · rw [uri_path_found hpf hd, if_neg hq, if_neg hqi]
  · have : ((Uri.Matcher.init paths).feed (uriPath m)).lastFound = -1 :=
      Classical.byContradiction fun h => hd _ h ((uri_path_iff hpf _ h).mp rfl)
    rw [if_pos this]

/-- C60 for the stream decoder (partial: the exclusions of `stream_message_delivered_partial`). -/
theorem stream_version_partial (k : SbKind) {m : Msg} (hk : EndOk k m) (hm : m.Ok) {text : List UInt8} {cap : Nat}
    (hcap : 6 + m.token.length + text.length ≤ cap) {paths : List Uri.Entry} (hpf : ParentsFirst paths) {id : Int} (hid : id ≠ -1)
    (junk : Dec) (hb : junk.tbuf.length = 8) (hst : junk.opt.st ≠ .payload ∨ m.token ≠ [] ∨ m.opts ≠ [] ∨ m.payload ≠ none)
    (hc : k.charSigned = true → ∀ b ∈ encHeader m ++ m.token, b ≠ 0xFF)
    (jt : List UInt8) (hj : jt.length = 8) (jv : List UInt8) (fuel : Nat) (hf : 11 * (encMsg m).length + 6 ≤ fuel) :
    (Denotes paths (-1) (uriPath m) id →
      serveVersionStream k cap paths id text junk jt jv fuel (encMsg m) = .ok [encMsg (textReply m text)]) ∧
    (∀ q, q ≠ -1 → q ≠ id → Denotes paths (-1) (uriPath m) q →
      serveVersionStream k cap paths id text junk jt jv fuel (encMsg m) = .ok []) ∧
    ((∀ q, q ≠ -1 → ¬Denotes paths (-1) (uriPath m) q) →
      serveVersionStream k cap paths id text junk jt jv fuel (encMsg m) = .ok [encMsg (replyTo m 0x84)]) := by
  obtain ⟨N, d', hN, -, h⟩ := stream_message_delivered_partial k m hk hm junk hb hst hc
  obtain ⟨x, hx, hs⟩ := versionEvents_all hm paths jt hj cap id hid text jv (Or.inl (by omega))
  simp only [serveVersionStream, h fuel (by omega), hx, hs]
  refine ⟨fun hd => ?_, fun q hq hqi hd => ?_, fun hd => ?_⟩
  · rw [uri_path_found hpf hd, if_neg hid, if_pos rfl, List.take_of_length_le]
    simp [encMsg, textReply, encHeader, encOpts, encPayload, optHeader, nibble, extBytes]
    omega
  · rw [uri_path_found hpf hd, if_neg hq, if_neg hqi]
  · have : ((Uri.Matcher.init paths).feed (uriPath m)).lastFound = -1 :=
      Classical.byContradiction fun h => hd _ h ((uri_path_iff hpf _ h).mp rfl)
    rw [if_pos this]

/-- C60 fails: neither the method nor the type is looked at.  A request to delete the version, and even a response, get
the same 2.05 as a request to get it, and a message that is not confirmable is acknowledged. -/
theorem version_any_method {m : Msg} (hm : m.Ok) (code type : Nat) (hc : code < 256) (hty : type < 4) {text : List UInt8}
    {cap : Nat} {paths : List Uri.Entry} (hpf : ParentsFirst paths) {id : Int} (hid : id ≠ -1)
    (hd : Denotes paths (-1) (uriPath m) id) (junk : Dec) (hb : junk.tbuf.length = 8) (jt : List UInt8) (hj : jt.length = 8)
    (jv : List UInt8) (fuel : Nat) (hf : 11 * (encMsg m).length + 6 ≤ fuel) :
    serveVersion cap paths id text junk jt jv fuel (encMsg { m with code := code, type := type }) =
      .ok [(encMsg (textReply m text)).take cap] := by
  have hm' : ({ m with code := code, type := type } : Msg).Ok := by
    obtain ⟨h1, h2, h3, h4, h5, h6, h7⟩ := hm
    exact ⟨h1, hty, hc, h4, h5, h6, h7⟩
  have hu := uri_path_found hpf hd
  have hu' : uriPath ({ m with code := code, type := type } : Msg) = uriPath m := rfl
  have hl : (encMsg ({ m with code := code, type := type } : Msg)).length = (encMsg m).length := by simp [encMsg, encHeader]
  rw [serveVersion_message hm' cap paths id hid (Or.inr (by rw [hu', hu]; exact hid)) text junk hb jt hj jv fuel (by omega), hu', hu,
    if_neg hid, if_pos rfl]
  rfl

/-- C60 fails: with too little room the reply is cut off, and with an empty text it ends in a payload marker that
nothing follows, which RFC 7252 section 3 rules out. -/
theorem version_cut_or_bare {m : Msg} (hm : m.Ok) {text : List UInt8}
    {cap : Nat} {paths : List Uri.Entry} (hpf : ParentsFirst paths) {id : Int} (hid : id ≠ -1)
    (hd : Denotes paths (-1) (uriPath m) id) (junk : Dec) (hb : junk.tbuf.length = 8) (jt : List UInt8) (hj : jt.length = 8)
    (jv : List UInt8) (fuel : Nat) (hf : 11 * (encMsg m).length + 6 ≤ fuel) :
    (cap < 6 + m.token.length + text.length → ∃ r, serveVersion cap paths id text junk jt jv fuel (encMsg m) = .ok [r] ∧
      r.length = cap ∧ r ≠ encMsg (textReply m text)) ∧
    (text = [] → 6 + m.token.length ≤ cap → serveVersion cap paths id text junk jt jv fuel (encMsg m) =
      .ok [encHeader (replyTo m 0x45) ++ m.token ++ [0xC0, 0xFF]]) := by
  have hu := uri_path_found hpf hd
  rw [serveVersion_message hm cap paths id hid (Or.inr (by rw [hu]; exact hid)) text junk hb jt hj jv fuel hf, hu, if_neg hid,
    if_pos rfl]
  have hl : (encMsg (textReply m text)).length = 6 + m.token.length + text.length := by
    simp [encMsg, textReply, encHeader, encOpts, encPayload, optHeader, nibble, extBytes]
    omega
  refine ⟨fun h => ⟨_, rfl, by simp; omega, fun hc => ?_⟩, fun h1 h2 => ?_⟩
  · have := congrArg List.length hc
    simp at this
    omega
  · subst h1
    rw [List.take_of_length_le (by simp at hl; omega)]
    simp [encMsg, textReply, replyTo, encHeader, encOpts, encPayload, optHeader, nibble, extBytes]

-- `serverSample` is a request for `/v1/temp`, node 4 of the sample table
example : serveVersion 64 uriSample 4 [0x31, 0x2E, 0x30] Dec.zero (List.replicate 8 0) [0, 0, 0, 0] 300 (encMsg serverSample) =
    .ok [[0x62, 0x45, 0x12, 0x34, 0xAA, 0xFF, 0xC0, 0xFF, 0x31, 0x2E, 0x30]] := by decide +kernel

end Verif.Props
