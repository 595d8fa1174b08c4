import Verif.Props.ServerAny
import Verif.Props.ExamplesAny
import Verif.Props.Echo
import Verif.Props.Examples

/-! # C105: how long an answer is, beside the datagram that asks for it -/
namespace Verif.Props
open Verif.Model Verif.Spec Verif.Proofs Verif.Model.Header Pull Observable

theorem tokenOf_length {bytes : List UInt8} (h : HasToken bytes) : (tokenOf bytes).length = tokenClaim bytes := by
  have := h.1
  simp only [tokenOf, List.length_take, List.length_drop]
  omega

theorem serve_more {cap : Nat} {paths : List Uri.Entry} {junk : Dec} {jt : List UInt8} {f : Nat} {bytes : List UInt8} {rs : List (List UInt8)}
    (h : serve cap paths junk jt f bytes = .ok rs) {g : Nat} (hg : f ≤ g) : serve cap paths junk jt g bytes = .ok rs := by
  unfold serve at h ⊢
  cases he : Dec.processToDone f (Dec.fresh junk) ⟨bytes, 0, true⟩ with
  | error e => rw [he] at h; simp at h
  | ok r =>
    rw [he] at h
    rw [processToDone_mono he hg]
    exact h

/-- C105: whatever datagram the server with automatic replies comes through with, all it sends together is no longer than the
datagram. -/
theorem auto_replies_not_longer (cap : Nat) (hcap : 12 ≤ cap) {paths : List Uri.Entry} (hpf : ParentsFirst paths) (junk : Dec)
    (hb : junk.tbuf.length = 8) (jt : List UInt8) (hjt : jt.length = 8) (fuel : Nat) (bytes : List UInt8) (rs : List (List UInt8))
    (h : serve cap paths junk jt fuel bytes = .ok rs) : (rs.map List.length).sum ≤ bytes.length := by
  have ht : HasToken bytes := (datagram_survived_iff bytes cap paths junk hb jt hjt).mp ⟨fuel, rs, h⟩
  have h' := serve_more h (Nat.le_max_left fuel (11 * bytes.length + 65561))
  obtain ⟨h1, h2⟩ := any_datagram_served_partial bytes ht (cap := cap) (by have := ht.2; omega) hpf junk hb jt hjt
    (max fuel (11 * bytes.length + 65561)) (Nat.le_max_right _ _)
  by_cases hd : ∃ q, q ≠ -1 ∧ Denotes paths (-1) (pathIn bytes) q
  · rw [h1 hd] at h'
    have : rs = [] := by simpa using h'.symm
    subst this
    simp
  · rw [h2 fun q hq hq' => hd ⟨q, hq, hq'⟩] at h'
    have : rs = [ackHead bytes 0x84 ++ tokenOf bytes] := by simpa using h'.symm
    subst this
    have := ht.1
    simp [ackHead, tokenOf_length ht]
    omega

/-- C105 (partial: datagrams with a complete header and token): nor is the answer of the ping example. -/
theorem ping_not_longer_partial (bytes : List UInt8) (h : HasToken bytes) (junk : Dec) (hj : junk.tbuf.length = 8)
    (junkToken : List UInt8) (hjt : junkToken.length = 8) (junkHeader : Header) (room : Nat) (hroom : 12 ≤ room) (out : List UInt8)
    (e : pingReply room junk junkToken junkHeader (fun p => .ok ([], p)) bytes = .ok out) : out.length ≤ bytes.length := by
  rw [(ping_any_echo_partial bytes h junk hj junkToken hjt junkHeader room hroom).1] at e
  have : out = replyHead bytes 0x45 ++ tokenOf bytes := by simpa using e.symm
  subst this
  have := h.1
  simp [replyHead, tokenOf_length h]
  omega

/-- C105: for the ping example exactly: of the datagrams that announce a token of at most eight bytes behind a complete
header, the answer is longer than the datagram for those that do not contain the token. -/
theorem ping_longer_iff (bytes : List UInt8) (h4 : 4 ≤ bytes.length) (h8 : tokenClaim bytes ≤ 8) (junk : Dec) (hj : junk.tbuf.length = 8)
    (junkToken : List UInt8) (hjt : junkToken.length = 8) (junkHeader : Header) (room : Nat) (hroom : 12 ≤ room) :
    (∃ out, pingReply room junk junkToken junkHeader (fun p => .ok ([], p)) bytes = .ok out ∧ bytes.length < out.length) ↔ ¬HasToken bytes := by
  constructor
  · rintro ⟨out, e, hl⟩ h
    have := ping_not_longer_partial bytes h junk hj junkToken hjt junkHeader room hroom out e
    omega
  · intro h
    have hc : bytes.length < 4 + tokenClaim bytes := by
      unfold HasToken at h
      omega
    refine ⟨_, (ping_cut_token_leak bytes h4 hc h8 junk hj junkToken hjt junkHeader room hroom).1, ?_⟩
    simp [replyHead, List.length_take]
    omega

/-- C105 (partial: exclusions of `echo_bytes_partial`): nor is the answer of the echo server. -/
theorem echo_not_longer_partial (k : SbKind) (h : Header) (t rest : List UInt8) (ht : t.length = h.tokenLength.toNat) (h8 : t.length ≤ 8)
    (hc : k.charSigned = true → ∀ b ∈ [h.b0, h.b1, h.b2, h.b3] ++ t, b ≠ 0xFF) (hk : k.endNeg = false ∨ t ≠ [] ∨ ¬ HeaderLast rest) (cap : Nat)
    (junk : Dec) (hj : junk.tbuf.length = 8) (cur : List UInt8) (more : List (List UInt8))
    (hs : cur ++ more.flatten = [h.b0, h.b1, h.b2, h.b3] ++ t ++ rest) (out : List UInt8) (e : echoReply k cap junk ⟨cur, more⟩ = .ok out) :
    out.length ≤ (cur ++ more.flatten).length := by
  rw [echo_bytes_partial k h t rest ht h8 hc hk cap junk hj cur more hs] at e
  have : out = ([((h.setType acknowledgement).setCode codeValid).b0, codeValid, h.b2, h.b3] ++ t).take cap := by simpa using e.symm
  subst this
  rw [hs]
  simp [List.length_take]
  omega

/-- C105: a datagram that the echo server has not got the header of is answered from memory, with more bytes than it has. -/
theorem echo_short_longer (neg : Bool) (bytes : List UInt8) (hl : bytes.length < 4) (hc : ∀ b ∈ bytes, b ≠ 0xFF) (cap : Nat) (hcap : 4 ≤ cap)
    (junk : Dec) (hj : junk.tbuf.length = 8) (out : List UInt8) (e : echoReply ⟨true, neg⟩ cap junk ⟨bytes, []⟩ = .ok out) :
    bytes.length < out.length := by
  rw [echo_from_memory neg bytes hl hc cap junk hj _ rfl] at e
  split at e
  · have := Except.ok.inj e
    subst this
    simp [List.length_take]
    omega
  · simp at e

/-- C105: for every datagram to the node of the version resource, its answer is longer than the datagram exactly if the text is
longer than all that follows the token, less two bytes. -/
theorem version_longer_iff (bytes : List UInt8) (h : HasToken bytes) {text : List UInt8} {cap : Nat}
    (hcap : 6 + tokenClaim bytes + text.length ≤ cap) {paths : List Uri.Entry} (hpf : ParentsFirst paths) {id : Int} (hid : id ≠ -1)
    (hd : Denotes paths (-1) (pathIn bytes) id) (junk : Dec) (hb : junk.tbuf.length = 8) (jt : List UInt8) (hjt : jt.length = 8) (jv : List UInt8)
    (fuel : Nat) (hf : 11 * bytes.length + 65561 ≤ fuel) :
    (∃ r, serveVersion cap paths id text junk jt jv fuel bytes = .ok [r] ∧ bytes.length < r.length) ↔
      (behindToken bytes).length < 2 + text.length := by
  have hv := (any_datagram_version_partial bytes h hcap hpf hid junk hb jt hjt jv fuel hf).1 hd
  have hlen : (ackHead bytes 0x45 ++ tokenOf bytes ++ 0xC0 :: 0xFF :: text).length = 6 + tokenClaim bytes + text.length := by
    simp [ackHead, tokenOf_length h]
    omega
  have hbt : (behindToken bytes).length = bytes.length - (4 + tokenClaim bytes) := by simp [behindToken]
  have := h.1
  constructor
  · rintro ⟨r, hr, hl⟩
    rw [hv] at hr
    have : r = ackHead bytes 0x45 ++ tokenOf bytes ++ 0xC0 :: 0xFF :: text := by simpa using hr.symm
    rw [this, hlen] at hl
    omega
  · intro hl
    exact ⟨_, hv, by rw [hlen]; omega⟩

/-! ## The path, observe and discovery examples -/

/-- Bytes that options need at least: one for the header, and the value. -/
def optsWeight (os : List Opt) : Nat := (os.map fun o => o.value.length + 1).sum

theorem isOpts_weight : ∀ {prev : Nat} {os : List Opt} {ob : List UInt8}, IsOpts prev os ob → optsWeight os ≤ ob.length := by
  intro prev os ob h
  induction h with
  | nil => simp [optsWeight]
  | cons _ _ _ hh _ ih =>
    rename_i prev o os hdr bs _ _ _ _
    have h1 : 1 ≤ hdr.length := by
      obtain ⟨_, _, _, rfl, _⟩ := hh
      simp
    simp only [optsWeight, List.map_cons, List.sum_cons, List.length_append] at ih ⊢
    omega

theorem shown_weight (marker : Bool) : ∀ os : List Opt, optsWeight (iteratorShows marker os) + (if 2 ≤ os.length then 1 else 0) ≤ optsWeight os
  | [] => by simp [optsWeight, iteratorShows]
  | [o] => by
    simp only [iteratorShows]
    split <;> simp [optsWeight]
  | [o, p] => by simp [optsWeight, iteratorShows]; omega
  | o :: p :: q :: rest => by
    have ih := shown_weight marker rest
    simp only [iteratorShows, optsWeight, List.map_cons, List.sum_cons, List.length_cons, List.length_nil] at ih ⊢
    have : (if 2 ≤ rest.length + 1 + 1 + 1 then 1 else 0) ≤ 1 := by split <;> omega
    omega

theorem slashText_weight : ∀ os : List Opt, (slashText os).length ≤ optsWeight os
  | [] => by simp [slashText, segments, optsWeight]
  | o :: os => by
    have ih := slashText_weight os
    simp only [slashText, segments, optsWeight, List.map_cons, List.sum_cons, List.filter_cons] at ih ⊢
    split
    · simp only [List.map_cons, List.flatten_cons, List.length_append, List.length_cons, List.length_nil]
      omega
    · omega

theorem response_length (m : Msg) (code : Nat) (text : List UInt8) :
    (encMsg (response m code (some text))).length = 5 + m.token.length + text.length := by
  simp [encMsg, encHeader, response, encOpts, encPayload]
  omega

theorem shown_text_length (m : Msg) (ob : List UInt8) (hob : IsOpts 0 m.opts ob) (code : Nat) :
    (encMsg (response m code (some (slashText (iteratorShows m.payload.isSome m.opts))))).length ≤ (wire m ob).length + 1 ∧
    (m.payload ≠ none ∨ 2 ≤ m.opts.length →
      (encMsg (response m code (some (slashText (iteratorShows m.payload.isSome m.opts))))).length ≤ (wire m ob).length) := by
  have h1 := isOpts_weight hob
  have h2 := shown_weight m.payload.isSome m.opts
  have h3 := slashText_weight (iteratorShows m.payload.isSome m.opts)
  have hw : (wire m ob).length = 4 + m.token.length + ob.length + (encPayload m.payload).length := by
    simp [wire, encHeader]
    omega
  rw [response_length, hw]
  refine ⟨by omega, ?_⟩
  rintro (h | h)
  · have : 1 ≤ (encPayload m.payload).length := by
      cases hp : m.payload with
      | none => exact absurd hp h
      | some p => simp [encPayload]
    omega
  · rw [if_pos h] at h2
    omega

/-- C105 (partial: well-formed messages): the answer of the path example is at most one byte longer than the message, and not
longer if the message has a payload or two options. -/
theorem path_not_longer_partial (m : Msg) (hm : m.Ok) (ob : List UInt8) (hob : IsOpts 0 m.opts ob) (junk : Dec)
    (hj : junk.tbuf.length = 8) (hst : junk.opt.st ≠ .payload ∨ m.token ≠ [] ∨ m.opts ≠ [] ∨ m.payload ≠ none)
    (junkToken : List UInt8) (hjt : junkToken.length = 8) (junkHeader : Header) (cap room fuel : Nat)
    (hcap : (slashText (iteratorShows m.payload.isSome m.opts)).length ≤ cap) (hroom : 13 + cap ≤ room) (hf : m.opts.length < fuel)
    (out : List UInt8) (e : uriReply cap room fuel junk junkToken junkHeader (wire m ob) = .ok out) :
    out.length ≤ (wire m ob).length + 1 ∧ (m.payload ≠ none ∨ 2 ≤ m.opts.length → out.length ≤ (wire m ob).length) := by
  rw [path_echoed_partial m hm ob hob junk hj hst junkToken hjt junkHeader cap room fuel hcap hroom hf] at e
  have := Except.ok.inj e
  subst this
  exact shown_text_length m ob hob _

/-- C105: the one byte does occur: a message without options and payload gets an answer one byte longer, the payload marker
that nothing follows. -/
theorem path_bare_longer (m : Msg) (hm : m.Ok) (ho : m.opts = []) (hp : m.payload = none) (junk : Dec)
    (hj : junk.tbuf.length = 8) (hst : junk.opt.st ≠ .payload ∨ m.token ≠ [])
    (junkToken : List UInt8) (hjt : junkToken.length = 8) (junkHeader : Header) (cap room fuel : Nat) (hroom : 13 + cap ≤ room) (hf : 0 < fuel) :
    ∃ out, uriReply cap room fuel junk junkToken junkHeader (encMsg m) = .ok out ∧ out.length = (encMsg m).length + 1 := by
  have h := path_echoed_partial m hm (encOpts 0 m.opts) (isOpts_encOpts 0 _ hm.2.2.2.2.2.1) junk hj
    (by rcases hst with h | h; exact .inl h; exact .inr (.inl h)) junkToken hjt junkHeader cap room fuel
    (by simp [ho, iteratorShows, slashText, segments]) hroom (by rw [ho]; exact hf)
  rw [wire_encMsg] at h
  refine ⟨_, h, ?_⟩
  rw [response_length]
  simp [ho, hp, iteratorShows, slashText, segments, encMsg, encHeader, encOpts, encPayload]
  omega

/-- C105 (partial: well-formed messages, room for the registrations): the same for the observe example. -/
theorem observe_not_longer_partial {A : Type} (m : Msg) (hm : m.Ok) (ob : List UInt8) (hob : IsOpts 0 m.opts ob) (junk : Dec)
    (hj : junk.tbuf.length = 8) (hst : junk.opt.st ≠ .payload ∨ m.token ≠ [] ∨ m.opts ≠ [] ∨ m.payload ≠ none)
    (junkToken : List UInt8) (hjt : junkToken.length = 8) (junkHeader : Header) (cap regCap room fuel : Nat) (reg : Registrar A)
    (addr : A) (hcap : (slashText (iteratorShows m.payload.isSome m.opts)).length ≤ cap) (hroom : 13 + cap ≤ room)
    (hreg : reg.sessions.length + ((observeValues (iteratorShows m.payload.isSome m.opts)).map fun v => v.headD 0).count 0 ≤ regCap)
    (hf : m.opts.length < fuel) (reg' : Registrar A) (out : List UInt8)
    (e : observeReply cap regCap room fuel junk junkToken junkHeader reg addr (wire m ob) = .ok (reg', out)) :
    out.length ≤ (wire m ob).length + 1 ∧ (m.payload ≠ none ∨ 2 ≤ m.opts.length → out.length ≤ (wire m ob).length) := by
  rw [observe_answered_partial m hm ob hob junk hj hst junkToken hjt junkHeader cap regCap room fuel reg addr hcap hroom hreg hf] at e
  have := congrArg Prod.snd (Except.ok.inj e)
  subst this
  exact shown_text_length m ob hob _

/-- C105: the discovery example sends its whole listing for a request of any length: five bytes, the token and the listing. -/
theorem discovery_length (m : Msg) (hm : m.Ok) (ob : List UInt8) (hob : IsOpts 0 m.opts ob) (junk : Dec)
    (hj : junk.tbuf.length = 8) (hst : junk.opt.st ≠ .payload ∨ m.token ≠ [] ∨ m.opts ≠ [] ∨ m.payload ≠ none)
    (junkToken : List UInt8) (hjt : junkToken.length = 8) (junkHeader : Header) (paths : List Uri.Entry)
    (coredata : List Uri.CoREData) (title : Int → Option (List Char)) (idCore : Int) (hid : idCore ≠ -1)
    (text : List Char) (htext : Uri.discover coredata title paths = some text) (room fuel : Nat)
    (hroom : 14 + text.length ≤ room) (hf : m.opts.length < fuel) :
    ∃ out, discoverReply room fuel paths coredata title idCore junk junkToken junkHeader (wire m ob) = .ok out ∧
      out.length = 5 + m.token.length + (if shownNode paths m = idCore then text.length else 0) ∧
      ((wire m ob).length < out.length ↔
        ob.length + (encPayload m.payload).length < 1 + (if shownNode paths m = idCore then text.length else 0)) := by
  refine ⟨_, discovery_answered_partial m hm ob hob junk hj hst junkToken hjt junkHeader paths coredata title idCore hid text htext room fuel
    hroom hf, ?_⟩
  have hw : (wire m ob).length = 4 + m.token.length + ob.length + (encPayload m.payload).length := by
    simp [wire, encHeader]
    omega
  rw [response_length, hw]
  split
  · simp only [List.length_map]
    refine ⟨trivial, ?_⟩
    omega
  · simp only [List.length_nil]
    refine ⟨trivial, ?_⟩
    omega

end Verif.Props
