import Verif.Props.Echo
import Verif.Proofs.CutValues

/-! # C69: the server with a path table on a datagram in several segments -/
namespace Verif.Props
open Verif.Model Verif.Spec Verif.Proofs Verif.Model.Header Verif.Model.Observable Dec

/-- The options the server is told of a message in segments are those of `asSeen`. -/
theorem boiler_cut_options (cap : Nat) (id : Int) (text jv : List UInt8) (bufs : List (List UInt8)) (tail : List Event) :
    ∀ (os : List Opt) (prev k : Nat) (bs : List UInt8) (_ : OptsOk prev os) (x : SCtx),
    SCtx.runEvents (SCtx.boilerEvent cap id text jv) x (cutOptions bufs k os bs ++ tail) =
      SCtx.runEvents (SCtx.boilerEvent cap id text jv)
        { x with uri := x.uri.feed (((seenOpts bufs k os bs).filter fun o => o.number = 11).map fun o =>
          o.value.map fun b => Char.ofNat b.toNat) } tail
  | [], _, _, _, _, _ => rfl
  | o :: os, prev, k, bs, h, x => by
    obtain ⟨h1, h2, h3, h4⟩ := h
    have hn : (UInt16.ofNat o.number == 11) = decide (o.number = 11) := by
      by_cases h : o.number = 11
      · rw [h]; rfl
      · have : UInt16.ofNat o.number ≠ 11 := by
          intro hc
          have := congrArg UInt16.toNat hc
          simp at this
          omega
        simp [h, this]
    simp only [cutOptions, seenOpts, List.cons_append, SCtx.runEvents, SCtx.boilerEvent, hn]
    rw [boiler_cut_options cap id text jv bufs tail os _ _ _ h4]
    by_cases h : o.number = 11
    · simp only [h, decide_true, if_true, List.filter_cons, List.map_cons, Uri.Matcher.feed]
      rfl
    · simp only [h, decide_false, List.filter_cons, Bool.false_eq_true, if_false]

theorem boiler_skips (cap : Nat) (id : Int) (text jv : List UInt8) (tail : List Event) :
    ∀ (l : List Event) (x : SCtx), (∀ e ∈ l, e = .optionsCompleted ∨ ∃ p b, e = .payload p b) →
    SCtx.runEvents (SCtx.boilerEvent cap id text jv) x (l ++ tail) = SCtx.runEvents (SCtx.boilerEvent cap id text jv) x tail
  | [], _, _ => rfl
  | e :: l, x, h => by
    have he : x.boilerEvent cap id text jv e = .ok x := by
      rcases h e List.mem_cons_self with rfl | ⟨p, b, rfl⟩ <;> rfl
    rw [List.cons_append, SCtx.runEvents, he]
    exact boiler_skips cap id text jv tail l x fun e he => h e (List.mem_cons_of_mem _ he)

theorem pieceEvents_payload (l : List (List UInt8)) : ∀ e ∈ pieceEvents l, ∃ p b, e = .payload p b := by
  induction l with
  | nil => simp [pieceEvents]
  | cons c cs ih =>
    intro e he
    rw [pieceEvents] at he
    rcases List.mem_cons.mp he with rfl | he
    · exact ⟨_, _, rfl⟩
    · exact ih e he

/-- C69 for the server with a path table, in however many segments and with any legal encoding of the options (partial:
the exclusions of `stream_segments_exact_partial`): every well-formed message is answered by exactly one message: the version
if the path as it is seen in these segments denotes that node, and 4.04 otherwise. -/
theorem boilerplate_segments_partial (k : SbKind) (m : Msg) (hk : EndOk k m) (hm : m.Ok) (ob : List UInt8)
    (hob : IsOpts 0 m.opts ob) (junk : Dec) (hj : junk.tbuf.length = 8)
    (hst : junk.opt.st ≠ .payload ∨ m.token ≠ [] ∨ m.opts ≠ [] ∨ m.payload ≠ none)
    (hc : k.charSigned = true → ∀ b ∈ encHeader m ++ m.token, b ≠ 0xFF) (text : List UInt8) (cap : Nat)
    (hcap : 6 + m.token.length + text.length ≤ cap) {paths : List Uri.Entry} (hpf : ParentsFirst paths) {id : Int} (hid : id ≠ -1)
    (jt : List UInt8) (hjt : jt.length = 8) (jv : List UInt8) (cur : List UInt8) (more : List (List UInt8))
    (hcut : cur ++ more.flatten = wire m ob) :
    ∃ N, ∀ fuel, N ≤ fuel →
      (Denotes paths (-1) (uriPath (asSeen m ob (cur :: more))) id →
        serveWith (SCtx.boilerEvent cap id text jv) k paths junk jt fuel ⟨cur, more⟩ = .ok [encMsg (textReply m text)]) ∧
      (¬Denotes paths (-1) (uriPath (asSeen m ob (cur :: more))) id →
        serveWith (SCtx.boilerEvent cap id text jv) k paths junk jt fuel ⟨cur, more⟩ = .ok [encMsg (replyTo m 0x84)]) := by
  obtain ⟨N, d', -, h⟩ := stream_segments_exact_partial k m hk hm ob hob junk hj hst hc cur more hcut
  refine ⟨N, fun fuel hf => ?_⟩
  have h8 := hm.2.2.2.2.1
  generalize hu : (Uri.Matcher.init paths).feed (uriPath (asSeen m ob (cur :: more))) = u
  have hrun : SCtx.runEvents (SCtx.boilerEvent cap id text jv) (SCtx.init paths jt) (streamReport m ob (cur :: more)) =
      (SCtx.mk ⟨UInt8.ofNat (64 * m.version + 16 * m.type + m.token.length), UInt8.ofNat m.code,
        UInt8.ofNat (m.mid / 256), UInt8.ofNat (m.mid % 256)⟩ (m.token ++ jt.drop m.token.length) u []).send
        (.ok (if u.lastFound = id then encMsg (textReply m text) else encMsg (replyTo m 0x84))) := by
    have hv := versionReply_msg hm ⟨⟨UInt8.ofNat (64 * m.version + 16 * m.type + m.token.length), UInt8.ofNat m.code,
        UInt8.ofNat (m.mid / 256), UInt8.ofNat (m.mid % 256)⟩, m.token ++ jt.drop m.token.length, u, []⟩ cap text jv rfl _ rfl
    rw [List.take_of_length_le (by
      simp [encMsg, textReply, encHeader, encOpts, encPayload, optHeader, nibble, extBytes]; omega)] at hv
    have hr := buildReply_msg hm ⟨⟨UInt8.ofNat (64 * m.version + 16 * m.type + m.token.length), UInt8.ofNat m.code,
        UInt8.ofNat (m.mid / 256), UInt8.ofNat (m.mid % 256)⟩, m.token ++ jt.drop m.token.length, u, []⟩ 0x84 cap (by omega) rfl _ rfl
    have h84 : (UInt8.ofNat 0x84) = (0x84 : UInt8) := rfl
    rw [h84] at hr
    simp only [streamReport, List.append_assoc, List.cons_append, List.nil_append, SCtx.runEvents, SCtx.boilerEvent, SCtx.setToken,
      SCtx.setHeader, SCtx.init, hjt, h8, if_true]
    rw [boiler_cut_options cap id text jv _ _ m.opts 0 _ _ hm.2.2.2.2.2.1]
    have hskip : ∀ (l : List Event) (x : SCtx), (∀ e ∈ l, ∃ p b, e = .payload p b) →
        SCtx.runEvents (SCtx.boilerEvent cap id text jv) x (.optionsCompleted :: (l ++ [.completed])) =
          SCtx.runEvents (SCtx.boilerEvent cap id text jv) x [.completed] := by
      intro l x hl
      exact boiler_skips cap id text jv [.completed] (.optionsCompleted :: l) x (by
        intro e he
        rcases List.mem_cons.mp he with rfl | he
        · exact Or.inl rfl
        · exact Or.inr (hl e he))
    rw [hskip _ _ (by
      cases m.payload with
      | none => simp
      | some p => exact pieceEvents_payload _)]
    have hu' : (Uri.Matcher.init paths).feed (((seenOpts (cur :: more) (4 + m.token.length) m.opts (ob ++ encPayload m.payload)).filter
        fun o => o.number = 11).map fun o => o.value.map fun b => Char.ofNat b.toNat) = u := hu
    rw [hu']
    simp only [SCtx.runEvents, SCtx.boilerEvent, SCtx.foundNode, hv, hr]
    by_cases hl : u.lastFound = id <;> simp only [hl, if_true, if_false, SCtx.send]
  simp only [serveWith, h fuel hf, hrun, SCtx.send, List.nil_append]
  subst hu
  constructor
  · intro hden
    rw [if_pos (uri_path_found hpf hden)]
  · intro hden
    rw [if_neg (fun he => hden ((uri_path_iff hpf _ (by rw [he]; exact hid)).mp rfl |> fun g => by rwa [he] at g))]

/-- Bytes inside the first buffer. -/
theorem restOfBuffer_first {c : List UInt8} {cs : List (List UInt8)} {k : Nat} (h : k < c.length) : restOfBuffer k (c :: cs) = c.drop k := by
  rw [restOfBuffer, if_pos h]

/-- Options that lie in the first buffer are seen as they are. -/
theorem seen_first {prev : Nat} {os : List Opt} {ob : List UInt8} (h : IsOpts prev os ob) : ∀ (c : List UInt8) (cs : List (List UInt8))
    (pre rest : List UInt8), pre ++ ob <+: c → c ++ cs.flatten = pre ++ (ob ++ rest) → seenOpts (c :: cs) pre.length os (ob ++ rest) = os := by
  induction h with
  | nil => intros; rfl
  | @cons prev o os hdr bs h1 h2 h3 h4 h5 ih =>
    intro c cs pre rest hp he
    obtain ⟨z, rfl⟩ := hp
    have e1 : behindHead (hdr ++ o.value ++ bs ++ rest) = o.value ++ bs ++ rest := by
      rw [List.append_assoc, List.append_assoc, behindHead_hdr h4, List.append_assoc]
    have e2 : pre.length + ((hdr ++ o.value ++ bs ++ rest).length - (o.value ++ bs ++ rest).length) = (pre ++ hdr).length := by
      simp only [List.length_append]; omega
    have hval : (restOfBuffer (pre ++ hdr).length ((pre ++ (hdr ++ o.value ++ bs) ++ z) :: cs)).take o.value.length = o.value := by
      by_cases hv : o.value = []
      · rw [hv]; rfl
      · have : 0 < o.value.length := List.length_pos_iff.mpr hv
        rw [restOfBuffer_first (by simp; omega)]
        have : pre ++ (hdr ++ o.value ++ bs) ++ z = (pre ++ hdr) ++ (o.value ++ (bs ++ z)) := by simp
        rw [this, List.drop_left, List.take_left]
    have := ih (pre ++ (hdr ++ o.value ++ bs) ++ z) cs (pre ++ hdr ++ o.value) rest ⟨z, by simp⟩ (by simpa using he)
    simp only [seenOpts, e1, e2, hval]
    rw [show (o.value ++ bs ++ rest).drop o.value.length = bs ++ rest by rw [List.append_assoc, List.drop_left],
      show (pre ++ hdr).length + o.value.length = (pre ++ hdr ++ o.value).length by rw [List.length_append (bs := o.value)]]
    rw [this]

/-- C69 for the server with a path table when header, token and options are in the first segment (partial as above): however
the payload is divided, the answer is the right one. -/
theorem boilerplate_payload_cut_partial (k : SbKind) (m : Msg) (hk : EndOk k m) (hm : m.Ok) (ob : List UInt8)
    (hob : IsOpts 0 m.opts ob) (junk : Dec) (hj : junk.tbuf.length = 8)
    (hst : junk.opt.st ≠ .payload ∨ m.token ≠ [] ∨ m.opts ≠ [] ∨ m.payload ≠ none)
    (hc : k.charSigned = true → ∀ b ∈ encHeader m ++ m.token, b ≠ 0xFF) (text : List UInt8) (cap : Nat)
    (hcap : 6 + m.token.length + text.length ≤ cap) {paths : List Uri.Entry} (hpf : ParentsFirst paths) {id : Int} (hid : id ≠ -1)
    (jt : List UInt8) (hjt : jt.length = 8) (jv : List UInt8) (cur : List UInt8) (more : List (List UInt8))
    (hcut : cur ++ more.flatten = wire m ob) (hfirst : 4 + m.token.length + ob.length ≤ cur.length) :
    ∃ N, ∀ fuel, N ≤ fuel →
      (Denotes paths (-1) (uriPath m) id →
        serveWith (SCtx.boilerEvent cap id text jv) k paths junk jt fuel ⟨cur, more⟩ = .ok [encMsg (textReply m text)]) ∧
      (¬Denotes paths (-1) (uriPath m) id →
        serveWith (SCtx.boilerEvent cap id text jv) k paths junk jt fuel ⟨cur, more⟩ = .ok [encMsg (replyTo m 0x84)]) := by
  have hlen : (encHeader m ++ m.token).length = 4 + m.token.length := by simp [encHeader]; omega
  have hw : wire m ob = (encHeader m ++ m.token) ++ (ob ++ encPayload m.payload) := by simp [wire]
  have hpre : (encHeader m ++ m.token) ++ ob <+: cur := by
    have a : (encHeader m ++ m.token) ++ ob <+: cur ++ more.flatten := ⟨encPayload m.payload, by rw [hcut, hw]; simp⟩
    have b : cur <+: cur ++ more.flatten := List.prefix_append _ _
    exact List.prefix_of_prefix_length_le a b (by simp only [List.length_append] at hlen ⊢; omega)
  have hseen : asSeen m ob (cur :: more) = m := by
    have := seen_first hob cur more (encHeader m ++ m.token) (encPayload m.payload) hpre (by rw [hcut, hw])
    rw [hlen] at this
    rw [asSeen, this]
  have := boilerplate_segments_partial k m hk hm ob hob junk hj hst hc text cap hcap hpf hid jt hjt jv cur more hcut
  rwa [hseen] at this

/-- C69 fails for every path of one segment that is cut: behind at least one byte of the name and before its last, the
server answers 4.04 to a request for the version (whose node has no other name), whatever the message is otherwise. -/
theorem boilerplate_cut_refused (k : SbKind) (m : Msg) (hm : m.Ok) (name hdr : List UInt8)
    (hopts : m.opts = [⟨11, name⟩]) (hhdr : HdrOf hdr 11 name.length) (junk : Dec) (hj : junk.tbuf.length = 8)
    (hc : k.charSigned = true → ∀ b ∈ encHeader m ++ m.token, b ≠ 0xFF) (text : List UInt8) (cap : Nat)
    (hcap : 6 + m.token.length + text.length ≤ cap) {paths : List Uri.Entry} (hpf : ParentsFirst paths) {id : Int} (hid : id ≠ -1)
    (hname : ∀ e ∈ paths, e.id = id → e.seg = SCtx.str name)
    (jt : List UInt8) (hjt : jt.length = 8) (jv : List UInt8) (j : Nat) (hj0 : 0 < j) (hjl : j < name.length) :
    ∃ N, ∀ fuel, N ≤ fuel →
      serveWith (SCtx.boilerEvent cap id text jv) k paths junk jt fuel
        ⟨encHeader m ++ m.token ++ hdr ++ name.take j, [name.drop j ++ encPayload m.payload]⟩ = .ok [encMsg (replyTo m 0x84)] := by
  have hnl : name.length < 65536 := by
    have := hm.2.2.2.2.2.1
    rw [hopts] at this
    exact this.2.2.1
  have hob : IsOpts 0 m.opts (hdr ++ name ++ []) := by
    rw [hopts]
    exact .cons (o := ⟨11, name⟩) (Nat.zero_le _) (by show (11 : Nat) < _; omega) hnl hhdr .nil
  have hk : EndOk k m := Or.inr (Or.inr (by
    rw [hopts]
    rintro o ⟨⟩ h
    have : name = [] := h
    simp [this] at hjl))
  have hlen : (encHeader m ++ m.token).length = 4 + m.token.length := by simp [encHeader]; omega
  have hcut : (encHeader m ++ m.token ++ hdr ++ name.take j) ++ [name.drop j ++ encPayload m.payload].flatten = wire m (hdr ++ name ++ []) := by
    simp only [wire, List.flatten_cons, List.flatten_nil, List.append_nil, List.append_assoc]
    rw [← List.append_assoc (name.take j), List.take_append_drop]
  obtain ⟨N, h⟩ := boilerplate_segments_partial k m hk hm _ hob junk hj (Or.inr (Or.inr (Or.inl (by simp [hopts])))) hc text cap hcap hpf hid
    jt hjt jv _ _ hcut
  refine ⟨N, fun fuel hf => (h fuel hf).2 ?_⟩
  have hseen : uriPath (asSeen m (hdr ++ name ++ []) [encHeader m ++ m.token ++ hdr ++ name.take j, name.drop j ++ encPayload m.payload]) =
      [SCtx.str (name.take j)] := by
    have e1 : behindHead (hdr ++ name ++ [] ++ encPayload m.payload) = name ++ encPayload m.payload := by
      rw [List.append_nil, List.append_assoc, behindHead_hdr hhdr]
    have e2 : 4 + m.token.length + ((hdr ++ name ++ [] ++ encPayload m.payload).length - (name ++ encPayload m.payload).length) =
        (encHeader m ++ m.token ++ hdr).length := by
      rw [List.length_append (as := encHeader m ++ m.token), hlen, List.append_nil, List.append_assoc, List.length_append]
      omega
    have e3 : restOfBuffer (encHeader m ++ m.token ++ hdr).length
        [encHeader m ++ m.token ++ hdr ++ name.take j, name.drop j ++ encPayload m.payload] = name.take j := by
      rw [restOfBuffer_first (by rw [List.length_append (bs := name.take j), List.length_take]; omega), List.drop_left]
    simp only [uriPath, asSeen, hopts, seenOpts, e1, e2, e3]
    rw [List.take_of_length_le (by simp; omega)]
    rfl
  rw [hseen]
  intro hden
  cases hden with
  | step hfe hrest =>
    cases hrest
    obtain ⟨pre, post, rfl, hs, -, -⟩ := hfe
    have h1 := hname _ (by simp) rfl
    rw [hs] at h1
    have := congrArg List.length h1
    simp [SCtx.str] at this
    omega

/-- The hypotheses are met by the server's own path, whose last segment is `version`, cut behind `ver`. -/
example (signed neg : Bool) : ∃ N, ∀ fuel, N ≤ fuel →
    serveWith (SCtx.boilerEvent 64 4 [0x31] [0, 0, 0, 0]) ⟨signed, neg⟩ [⟨"version".toList, 4, -1⟩] Dec.zero (List.replicate 8 0) fuel
      ⟨[0x40, 1, 0, 7, 0xB7, 0x76, 0x65, 0x72], [[0x73, 0x69, 0x6F, 0x6E]]⟩ = .ok [[0x60, 0x84, 0, 7]] := by
  have := boilerplate_cut_refused ⟨signed, neg⟩ ⟨1, 0, 1, 7, [], [⟨11, [0x76, 0x65, 0x72, 0x73, 0x69, 0x6F, 0x6E]⟩], none⟩ (by decide)
    [0x76, 0x65, 0x72, 0x73, 0x69, 0x6F, 0x6E] [0xB7] rfl ⟨0xB7, [], [], rfl, by decide, fun t => ⟨11, rfl, rfl⟩, fun t => ⟨7, rfl, rfl⟩⟩ Dec.zero rfl
    (fun _ => by decide) [0x31] 64 (by decide) (paths := [⟨"version".toList, 4, -1⟩]) ?_ (id := 4) (by decide) (by decide) (List.replicate 8 0) rfl
    [0, 0, 0, 0] 3 (by decide) (by decide)
  · exact this
  · intro pre e post h x hx
    cases pre with
    | nil =>
      simp only [List.nil_append, List.cons.injEq] at h
      obtain ⟨rfl, rfl⟩ := h
      simp only [List.nil_append, List.mem_singleton] at hx
      subst hx
      decide
    | cons a l => simp at h

end Verif.Props
