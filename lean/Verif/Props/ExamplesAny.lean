import Verif.Spec.ExamplesAny
import Verif.Props.Examples
import Verif.Props.PullAny

/-! # C80: the example servers on any datagram whatever -/
namespace Verif.Props
open Verif.Model Verif.Spec Verif.Proofs Verif.Model.Header Pull Observable

/-- The header as it stands in the datagram. -/
def sentHeader (bytes : List UInt8) : Header := ⟨bytes.getD 0 0, bytes.getD 1 0, bytes.getD 2 0, bytes.getD 3 0⟩

theorem claim_eq (bytes : List UInt8) : announcedTkl bytes = tokenClaim bytes := by
  cases bytes <;> simp [announcedTkl, tokenClaim]

theorem sentHeader_tkl (bytes : List UInt8) : (sentHeader bytes).tokenLength.toNat = tokenClaim bytes := by
  rw [tokenLength, show (15 : UInt8) = 0x0F from rfl, tkl_toNat]; rfl

/-- Every reading of a datagram with a whole header has the header that was sent, and the token if there is one. -/
theorem reading_head {junk : Dec} (hj : junk.tbuf.length = 8) {bytes : List UInt8} (h4 : 4 ≤ bytes.length)
    {F : Pull → Except Fault (List (UInt16 × List UInt8) × Pull)} {r : Reading} (e : readWith F (make junk bytes) = .ok r) :
    r.header = sentHeader bytes ∧ (HasToken bytes → r.token = tokenOf bytes) ∧
      (bytes.length < 4 + tokenClaim bytes → (bytes.length < 13) → r.token = []) := by
  obtain ⟨b0, b1, b2, b3, t, rfl⟩ := four_bytes bytes h4
  obtain ⟨q, e1, g1, g2, -, g4, g5⟩ := header_all junk b0 b1 b2 b3 t
  have hk := announced_eq b0 b1 b2 b3 t
  rw [claim_eq] at hk
  have hh : r.header = ⟨b0, b1, b2, b3⟩ := by
    simp only [readWith, e1] at e
    split at e
    · cases e
    · split at e
      · cases e
      · cases e; rfl
  refine ⟨by rw [hh]; rfl, fun ⟨hl, h8⟩ => ?_, fun hl h13 => ?_⟩
  · simp only [List.length_cons] at hl
    generalize hkk : tokenClaim (b0 :: b1 :: b2 :: b3 :: t) = k at hk hl h8
    have hlen : (t.take k).length = k := by rw [List.length_take]; omega
    obtain ⟨p, e2, -⟩ := token_all_frame (p := q) (t := t.take k) (r := t.drop k)
      (by rw [g1]
          by_cases hz : k = 0
          · rw [if_neg, if_pos (by simp [hz])]
            rw [gt_iff_lt, UInt8.lt_iff_toNat_lt, hk, hz]; simp
          · rw [if_pos, if_neg (by intro h0; rw [h0] at hlen; simp at hlen; omega)]
            rw [gt_iff_lt, UInt8.lt_iff_toNat_lt, hk]; simp; omega)
      (by rw [g2, hk, hlen]) (by omega) (by rw [g4, hj]) (by rw [List.take_append_drop]; exact g5)
    simp only [readWith, e1, e2] at e
    split at e
    · cases e
    · cases e; simp [tokenOf, hkk]
  · simp only [List.length_cons] at hl h13
    obtain ⟨p, e2, hs, hr⟩ := token_cut (p := q) (r := t)
        (by rw [g1, if_pos]; rw [gt_iff_lt, UInt8.lt_iff_toNat_lt, hk]; simp; omega) (by rw [g2, hk]; omega) (by omega) (by rw [g4, hj]) g5
    simp only [readWith, e1, e2] at e
    split at e
    · cases e
    · cases e; rfl

theorem reply_byte (b : UInt8) : (if ((b &&& 0x30) >>> 4 == 0) = true then (b &&& ~~~(0x30 : UInt8)) ||| ((2 : UInt8) <<< 4) else b) =
    if b.toNat / 16 % 4 = 0 then UInt8.ofNat (b.toNat + 32) else b := by
  have h : ∀ n : Fin 256, (if ((UInt8.ofNat n &&& 0x30) >>> 4 == 0) = true then (UInt8.ofNat n &&& ~~~(0x30 : UInt8)) ||| ((2 : UInt8) <<< 4)
      else UInt8.ofNat n) = if (UInt8.ofNat n).toNat / 16 % 4 = 0 then UInt8.ofNat ((UInt8.ofNat n).toNat + 32) else UInt8.ofNat n := by
    decide +kernel
  have hb := h ⟨b.toNat, b.toNat_lt⟩
  simpa using hb

/-- The response header is the one the specification names. -/
theorem reply_bytes (junkHeader : Header) (bytes : List UInt8) (code : UInt8) :
    (createResponse junkHeader (sentHeader bytes) code).bytes = replyHead bytes code := by
  have h := reply_byte (bytes.getD 0 0)
  simp only [replyHead, ← h, createResponse, processRequest, Header.bytes, Header.type, sentHeader, copyMessageId, setCode, setType,
    confirmable, nonConfirmable, acknowledgement]
  split <;> rename_i h0 <;> simp only [h0, if_true, if_false] <;> simp

/-- The context after a reading, and what the encoder puts in front of the answer. -/
theorem head_any {bytes t junkToken : List UInt8} (hjt : junkToken.length = 8) (h8 : tokenClaim bytes ≤ 8)
    (ht : t = [] ∨ t.length = tokenClaim bytes) (paths : List Uri.Entry) (r : Reading) (hh : r.header = sentHeader bytes)
    (hr : r.token = t) :
    ∃ x, incoming paths junkToken r = .ok x ∧ x.uri = Uri.Matcher.init paths ∧
      x.getToken = .ok (if t = [] then junkToken.take (tokenClaim bytes) else t) ∧
      ∀ (room : Nat) (code : UInt8) (junkHeader : Header), 12 ≤ room →
        (NEnc.init room).headerAndToken junkHeader x code =
          .ok (⟨OptEnc.init, replyHead bytes code ++ (if t = [] then junkToken.take (tokenClaim bytes) else t),
            room - 4 - tokenClaim bytes, false⟩, true) := by
  have hl : t.length ≤ 8 := by
    rcases ht with rfl | ht
    · simp
    · omega
  have htk := sentHeader_tkl bytes
  have hg : (⟨sentHeader bytes, t ++ junkToken.drop t.length, Uri.Matcher.init paths, []⟩ : SCtx).getToken =
      .ok (if t = [] then junkToken.take (tokenClaim bytes) else t) := by
    simp only [SCtx.getToken, htk, List.length_append, List.length_drop, hjt]
    rw [if_pos (by omega)]
    split
    · rename_i h; simp [h]
    · rename_i h
      have := ht.resolve_left h
      rw [List.take_append_of_le_length (by omega), List.take_of_length_le (by omega)]
  refine ⟨_, ?_, ?_, hg, ?_⟩
  · simp only [incoming, SCtx.init, SCtx.setHeader, SCtx.setToken, hr, hjt, hl, if_true, hh]
  · rfl
  · intro room code junkHeader hroom
    have hb := reply_bytes junkHeader bytes code
    have hl4 : (replyHead bytes code).length = 4 := rfl
    have hlt : (if t = [] then junkToken.take (tokenClaim bytes) else t).length = tokenClaim bytes := by
      split
      · rw [List.length_take]; omega
      · rename_i h; exact ht.resolve_left h
    simp only [Header.bytes] at hb
    simp only [NEnc.headerAndToken, hg]
    rw [NEnc.header, hb, if_pos (by simp [NEnc.init]; omega), write_fits _ _ (by simp [NEnc.init]; omega)]
    simp only [NEnc.token]
    rw [write_fits _ _ (by simp only [NEnc.init, hl4, hlt]; omega)]
    simp [NEnc.init, hl4, hlt]

/-- A datagram whose token is cut off is read with an empty token and no options. -/
theorem cut_reading (junk : Dec) (hj : junk.tbuf.length = 8) (bytes : List UInt8) (h4 : 4 ≤ bytes.length)
    (hc : bytes.length < 4 + tokenClaim bytes) (h13 : bytes.length < 13) :
    (∀ fuel, readWith (iterAll (fuel + 1)) (make junk bytes) = .ok ⟨sentHeader bytes, [], false, [], [], .token⟩) ∧
    readWith (fun p => .ok ([], p)) (make junk bytes) = .ok ⟨sentHeader bytes, [], false, [], [], .token⟩ := by
  obtain ⟨b0, b1, b2, b3, t, rfl⟩ := four_bytes bytes h4
  obtain ⟨q, e1, g1, g2, -, g4, g5⟩ := header_all junk b0 b1 b2 b3 t
  have hk := announced_eq b0 b1 b2 b3 t
  rw [claim_eq] at hk
  simp only [List.length_cons] at hc h13
  obtain ⟨p, e2, hs, hr⟩ := token_cut (p := q) (r := t)
    (by rw [g1, if_pos]; rw [gt_iff_lt, UInt8.lt_iff_toNat_lt, hk]; simp; omega) (by rw [g2, hk]; omega) (by omega) (by rw [g4, hj]) g5
  have hp : Starved p := ⟨Or.inr hs, hr.1⟩
  have hpay : p.payload = [] := hr.1
  refine ⟨fun fuel => ?_, ?_⟩
  · simp only [readWith, e1, e2, (hp.walks fuel).1, hs, hpay]; rfl
  · simp only [readWith, e1, e2, hs, hpay]; rfl

/-! ## What is true -/

theorem token_empty {bytes : List UInt8} (h : HasToken bytes) :
    (tokenOf bytes).length = tokenClaim bytes := by
  obtain ⟨h1, h2⟩ := h
  rw [tokenOf, List.length_take, List.length_drop]; omega

theorem token_kept {bytes : List UInt8} (h : HasToken bytes) (junkToken : List UInt8) :
    (if tokenOf bytes = [] then junkToken.take (tokenClaim bytes) else tokenOf bytes) = tokenOf bytes := by
  split
  · rename_i h0
    have := token_empty h
    rw [h0] at this ⊢
    simp at this
    simp [← this]
  · rfl

/-- What all four servers put in front of their answers. -/
theorem echo_any {bytes : List UInt8} (h : HasToken bytes) {junk : Dec} (hj : junk.tbuf.length = 8) {junkToken : List UInt8}
    (hjt : junkToken.length = 8) {F : Pull → Except Fault (List (UInt16 × List UInt8) × Pull)} {r : Reading}
    (e : readWith F (make junk bytes) = .ok r) (paths : List Uri.Entry) :
    ∃ x, incoming paths junkToken r = .ok x ∧ x.uri = Uri.Matcher.init paths ∧ x.getToken = .ok (tokenOf bytes) ∧
      ∀ (room : Nat) (code : UInt8) (junkHeader : Header), 12 ≤ room →
        (NEnc.init room).headerAndToken junkHeader x code =
          .ok (⟨OptEnc.init, replyHead bytes code ++ tokenOf bytes, room - 4 - tokenClaim bytes, false⟩, true) := by
  obtain ⟨e1, e2, -⟩ := reading_head hj (by have := h.1; omega) e
  have := head_any hjt h.2 (Or.inr (token_empty h)) paths r e1 (e2 h)
  rwa [token_kept h] at this

/-- C80 (partial: the datagram has a whole header and a whole token of at most eight bytes): whatever comes behind the
token, the ping responder answers with exactly the header and the token of the datagram, with and without its walk over
the options. -/
theorem ping_any_echo_partial (bytes : List UInt8) (h : HasToken bytes) (junk : Dec) (hj : junk.tbuf.length = 8)
    (junkToken : List UInt8) (hjt : junkToken.length = 8) (junkHeader : Header) (room : Nat) (hroom : 12 ≤ room) :
    pingReply room junk junkToken junkHeader (fun p => .ok ([], p)) bytes = .ok (replyHead bytes 0x45 ++ tokenOf bytes) ∧
    ∀ fuel, 11 * bytes.length + 65600 ≤ fuel →
      pingReply room junk junkToken junkHeader (iterAll fuel) bytes = .ok (replyHead bytes 0x45 ++ tokenOf bytes) := by
  have all : ∀ (F : Pull → Except Fault (List (UInt16 × List UInt8) × Pull)) (r : Reading), readWith F (make junk bytes) = .ok r →
      pingReply room junk junkToken junkHeader F bytes = .ok (replyHead bytes 0x45 ++ tokenOf bytes) := by
    intro F r e
    obtain ⟨x, e1, -, -, e2⟩ := echo_any h hj hjt e []
    simp only [pingReply, e, e1]
    rw [show codeContent = (0x45 : UInt8) from rfl, e2 room _ junkHeader hroom]
  obtain ⟨r, r', e⟩ := pull_any_ends_partial junk hj bytes (Or.inl (by rw [claim_eq]; exact h.2))
  refine ⟨?_, fun fuel hf => all _ r (e fuel hf).1⟩
  have e' := (e _ (Nat.le_refl _)).1
  cases hr : readWith (fun p => .ok ([], p)) (make junk bytes) with
  | ok r => exact all _ r hr
  | error err =>
    exfalso
    simp only [readWith] at e' hr
    split at e'
    · cases e'
    · rename_i e1
      simp only [e1] at hr
      split at e'
      · cases e'
      · rename_i e2
        simp [e2] at hr

/-- The answer begins with the header and the token of the datagram. -/
def Echoes (bytes out : List UInt8) : Prop := ∃ code rest, out = replyHead bytes code ++ tokenOf bytes ++ rest

theorem payload_keeps (s : NEnc) (bs : List UInt8) : ∃ rest, (s.payload bs).1.out = s.out ++ rest := by
  simp only [NEnc.payload]
  have hp : ∃ rest, (s.payloadHeader).1.out = s.out ++ rest := by
    simp only [NEnc.payloadHeader]
    split
    · split
      · exact ⟨[], by simp⟩
      · exact ⟨[0xFF], by simp⟩
    · exact ⟨[], by simp⟩
  obtain ⟨rest, hr⟩ := hp
  split
  · rename_i e; rw [e] at hr; exact ⟨rest, hr⟩
  · rename_i s' e
    rw [e] at hr
    simp only at hr
    exact ⟨rest ++ bs.take s'.room, by simp [NEnc.write, hr]⟩

/-- C80 (partial: as before): the path example comes to an end on every such datagram, and either has no place for the
path or answers with the header and the token of the datagram. -/
theorem uri_any_echo_partial (bytes : List UInt8) (h : HasToken bytes) (junk : Dec) (hj : junk.tbuf.length = 8)
    (junkToken : List UInt8) (hjt : junkToken.length = 8) (junkHeader : Header) (cap room : Nat) (hroom : 12 ≤ room) :
    ∃ res, (∀ fuel, 11 * bytes.length + 65600 ≤ fuel → uriReply cap room fuel junk junkToken junkHeader bytes = res) ∧
      (res = .error .text ∨ ∃ out, res = .ok out ∧ Echoes bytes out) := by
  obtain ⟨r, r', e⟩ := pull_any_ends_partial junk hj bytes (Or.inl (by rw [claim_eq]; exact h.2))
  obtain ⟨x, e1, -, -, e2⟩ := echo_any h hj hjt (e _ (Nat.le_refl _)).1 []
  cases hu : uriLoop cap [] r.options with
  | error er =>
    refine ⟨.error er, fun fuel hf => ?_, Or.inl ?_⟩
    · simp only [uriReply, (e fuel hf).1, e1, hu]
    · have : ∀ (os : List (UInt16 × List UInt8)) (u : List UInt8) (er : XFault), uriLoop cap u os = .error er → er = .text := by
        intro os
        induction os with
        | nil => intro u er h; simp [uriLoop] at h
        | cons o os ih =>
          intro u er h
          obtain ⟨n, v⟩ := o
          simp only [uriLoop] at h
          split at h
          · split at h
            · rename_i ha
              simp only [addSegment] at ha
              split at ha
              · cases ha
              · cases ha; cases h; rfl
            · exact ih _ _ h
          · exact ih _ _ h
      rw [this _ _ _ hu]
  | ok uri =>
    obtain ⟨rest, hrest⟩ := payload_keeps ⟨OptEnc.init, replyHead bytes (if uri == [116, 101, 115, 116, 47] then codeValid else 0x84) ++ tokenOf bytes,
      room - 4 - tokenClaim bytes, false⟩ uri
    refine ⟨.ok _, fun fuel hf => ?_, Or.inr ⟨_, rfl, _, rest, hrest⟩⟩
    simp only [uriReply, (e fuel hf).1, e1, hu, answer, e2 room _ junkHeader hroom]

/-- C80 (partial: as before): the observe example comes to an end on every such datagram; if it answers, it does so with
the header and the token of the datagram. -/
theorem observe_any_echo_partial {A : Type} (bytes : List UInt8) (h : HasToken bytes) (junk : Dec) (hj : junk.tbuf.length = 8)
    (junkToken : List UInt8) (hjt : junkToken.length = 8) (junkHeader : Header) (cap regCap room : Nat) (hroom : 12 ≤ room)
    (reg : Registrar A) (addr : A) :
    ∃ res, (∀ fuel, 11 * bytes.length + 65600 ≤ fuel →
        observeReply cap regCap room fuel junk junkToken junkHeader reg addr bytes = res) ∧
      (res = .error .text ∨ (∃ e, res = .error (.obs e)) ∨ ∃ reg' out, res = .ok (reg', out) ∧ Echoes bytes out) := by
  obtain ⟨r, r', e⟩ := pull_any_ends_partial junk hj bytes (Or.inl (by rw [claim_eq]; exact h.2))
  obtain ⟨x, e1, -, eg, e2⟩ := echo_any h hj hjt (e _ (Nat.le_refl _)).1 []
  cases hu : observeLoop cap regCap addr (tokenOf bytes) reg [] 0x84 r.options with
  | error er =>
    refine ⟨.error er, fun fuel hf => ?_, ?_⟩
    · simp only [observeReply, (e fuel hf).1, e1, eg, hu]
    · have : ∀ (os : List (UInt16 × List UInt8)) (reg : Registrar A) (u : List UInt8) (c : UInt8) (er : XFault),
          observeLoop cap regCap addr (tokenOf bytes) reg u c os = .error er → er = .text ∨ ∃ o, er = .obs o := by
        intro os
        induction os with
        | nil => intro reg u c er h; simp [observeLoop] at h
        | cons o os ih =>
          intro reg u c er h
          obtain ⟨n, v⟩ := o
          simp only [observeLoop] at h
          split at h
          · split at h
            · rename_i ha
              simp only [addSegment] at ha
              split at ha
              · cases ha
              · cases ha; cases h; exact Or.inl rfl
            · exact ih _ _ _ _ h
          · split at h
            · split at h
              · cases h; exact Or.inr ⟨_, rfl⟩
              · exact ih _ _ _ _ h
            · exact ih _ _ _ _ h
      rcases this _ _ _ _ _ hu with rfl | ⟨o, rfl⟩
      · exact Or.inl rfl
      · exact Or.inr (Or.inl ⟨o, rfl⟩)
  | ok y =>
    obtain ⟨reg', uri, code⟩ := y
    obtain ⟨rest, hrest⟩ := payload_keeps ⟨OptEnc.init, replyHead bytes code ++ tokenOf bytes, room - 4 - tokenClaim bytes, false⟩ uri
    refine ⟨.ok (reg', _), fun fuel hf => ?_, Or.inr (Or.inr ⟨reg', _, rfl, code, rest, hrest⟩)⟩
    simp only [observeReply, (e fuel hf).1, e1, eg, hu, answer, e2 room _ junkHeader hroom]

/-- C80 (partial: as before): the listing example comes to an end on every such datagram, and either has no place for
the listing or answers with the header and the token of the datagram. -/
theorem discover_any_echo_partial (bytes : List UInt8) (h : HasToken bytes) (junk : Dec) (hj : junk.tbuf.length = 8)
    (junkToken : List UInt8) (hjt : junkToken.length = 8) (junkHeader : Header) (room : Nat) (hroom : 12 ≤ room)
    (paths : List Uri.Entry) (coredata : List Uri.CoREData) (title : Int → Option (List Char)) (idCore : Int) :
    ∃ res, (∀ fuel, 11 * bytes.length + 65600 ≤ fuel →
        discoverReply room fuel paths coredata title idCore junk junkToken junkHeader bytes = res) ∧
      (res = .error .listing ∨ ∃ out, res = .ok out ∧ Echoes bytes out) := by
  obtain ⟨r, r', e⟩ := pull_any_ends_partial junk hj bytes (Or.inl (by rw [claim_eq]; exact h.2))
  obtain ⟨x, e1, -, -, e2⟩ := echo_any h hj hjt (e _ (Nat.le_refl _)).1 paths
  refine ⟨_, fun fuel hf => by simp only [discoverReply, (e fuel hf).1, e1, e2 room _ junkHeader hroom]; rfl, ?_⟩
  generalize hc : (if (discoverOptions x.uri r.options).lastFound != Uri.none_ then codeContent else 0x84) = code
  have hp : ∃ rest, (NEnc.payloadHeader ⟨OptEnc.init, replyHead bytes code ++ tokenOf bytes, room - 4 - tokenClaim bytes, false⟩).1.out =
      replyHead bytes code ++ tokenOf bytes ++ rest := by
    simp only [NEnc.payloadHeader]
    split
    · split
      · exact ⟨[], by simp⟩
      · exact ⟨[0xFF], by simp⟩
    · exact ⟨[], by simp⟩
  obtain ⟨rest, hrest⟩ := hp
  split
  · split
    · exact Or.inl rfl
    · split
      · exact Or.inr ⟨_, rfl, code, rest ++ _, by rw [hrest, List.append_assoc]⟩
      · exact Or.inl rfl
  · exact Or.inr ⟨_, rfl, code, rest, hrest⟩

/-! ## What is false -/

/-- C80 fails: a datagram that ends inside its token is answered, and what is sent as the token is what memory held. -/
theorem ping_cut_token_leak (bytes : List UInt8) (h4 : 4 ≤ bytes.length) (hc : bytes.length < 4 + tokenClaim bytes)
    (h8 : tokenClaim bytes ≤ 8) (junk : Dec) (hj : junk.tbuf.length = 8) (junkToken : List UInt8) (hjt : junkToken.length = 8)
    (junkHeader : Header) (room : Nat) (hroom : 12 ≤ room) :
    pingReply room junk junkToken junkHeader (fun p => .ok ([], p)) bytes =
        .ok (replyHead bytes 0x45 ++ junkToken.take (tokenClaim bytes)) ∧
    ∀ fuel, pingReply room junk junkToken junkHeader (iterAll (fuel + 1)) bytes =
        .ok (replyHead bytes 0x45 ++ junkToken.take (tokenClaim bytes)) := by
  obtain ⟨ew, en⟩ := cut_reading junk hj bytes h4 hc (by omega)
  obtain ⟨x, e1, -, -, e2⟩ := head_any (t := []) hjt h8 (Or.inl rfl) [] ⟨sentHeader bytes, [], false, [], [], .token⟩ rfl rfl
  have e3 := e2 room 0x45 junkHeader hroom
  simp only [if_true] at e3
  refine ⟨?_, fun fuel => ?_⟩
  · simp only [pingReply, en, e1, show codeContent = (0x45 : UInt8) from rfl, e3]
  · simp only [pingReply, ew fuel, e1, show codeContent = (0x45 : UInt8) from rfl, e3]

/-- C80 fails for the other three examples in the same way: they answer 4.04 with what memory held as the token, and a
payload marker without payload. -/
theorem examples_cut_token_leak {A : Type} (bytes : List UInt8) (h4 : 4 ≤ bytes.length) (hc : bytes.length < 4 + tokenClaim bytes)
    (h8 : tokenClaim bytes ≤ 8) (junk : Dec) (hj : junk.tbuf.length = 8) (junkToken : List UInt8) (hjt : junkToken.length = 8)
    (junkHeader : Header) (room : Nat) (hroom : 13 ≤ room) (cap regCap fuel : Nat) (reg : Registrar A) (addr : A)
    (paths : List Uri.Entry) (coredata : List Uri.CoREData) (title : Int → Option (List Char)) (idCore : Int) (hid : idCore ≠ Uri.none_) :
    uriReply cap room (fuel + 1) junk junkToken junkHeader bytes =
      .ok (replyHead bytes 0x84 ++ junkToken.take (tokenClaim bytes) ++ [0xFF]) ∧
    observeReply cap regCap room (fuel + 1) junk junkToken junkHeader reg addr bytes =
      .ok (reg, replyHead bytes 0x84 ++ junkToken.take (tokenClaim bytes) ++ [0xFF]) ∧
    discoverReply room (fuel + 1) paths coredata title idCore junk junkToken junkHeader bytes =
      .ok (replyHead bytes 0x84 ++ junkToken.take (tokenClaim bytes) ++ [0xFF]) := by
  obtain ⟨ew, -⟩ := cut_reading junk hj bytes h4 hc (by omega)
  have e := ew fuel
  have hm : ∀ ps, ∃ x, incoming ps junkToken ⟨sentHeader bytes, [], false, [], [], .token⟩ = .ok x ∧ x.uri = Uri.Matcher.init ps ∧
      x.getToken = .ok (junkToken.take (tokenClaim bytes)) ∧
      (NEnc.init room).headerAndToken junkHeader x 0x84 =
          .ok (⟨OptEnc.init, replyHead bytes 0x84 ++ junkToken.take (tokenClaim bytes), room - 4 - tokenClaim bytes, false⟩, true) := by
    intro ps
    obtain ⟨x, e1, eu, eg, e2⟩ := head_any (t := []) hjt h8 (Or.inl rfl) ps ⟨sentHeader bytes, [], false, [], [], .token⟩ rfl rfl
    have e3 := e2 room 0x84 junkHeader (by omega)
    simp only [if_true] at e3 eg
    exact ⟨x, e1, eu, eg, e3⟩
  have hr : (room - 4 - tokenClaim bytes == 0) = false := by simp; omega
  refine ⟨?_, ?_, ?_⟩
  · obtain ⟨x, e1, -, -, e2⟩ := hm []
    simp only [uriReply, e, e1, uriLoop, answer]
    rw [if_neg (by simp), e2]
    simp [NEnc.payload, NEnc.payloadHeader, hr, NEnc.write]
  · obtain ⟨x, e1, -, eg, e2⟩ := hm []
    simp only [observeReply, e, e1, eg, observeLoop, answer, e2]
    simp [NEnc.payload, NEnc.payloadHeader, hr, NEnc.write]
  · obtain ⟨x, e1, eu, -, e2⟩ := hm paths
    have hl : (Uri.Matcher.init paths).lastFound = Uri.none_ := rfl
    simp only [discoverReply, e, e1, eu, discoverOptions, hl]
    rw [if_neg (by simp), e2]
    have hb : (Uri.none_ == idCore) = false := by simpa using fun h => hid h.symm
    simp [NEnc.payloadHeader, hr, hb]

/-- C80 fails: a token length of nine to fifteen makes the ping responder read behind the token it keeps when fewer than
nine token bytes came, and write behind the token buffer of the decoder otherwise. -/
theorem ping_long_token_faults (bytes : List UInt8) (h4 : 4 ≤ bytes.length) (h8 : 8 < tokenClaim bytes) (junk : Dec)
    (hj : junk.tbuf.length = 8) (junkToken : List UInt8) (hjt : junkToken.length = 8) (junkHeader : Header) (room fuel : Nat) :
    pingReply room junk junkToken junkHeader (iterAll (fuel + 1)) bytes =
      .error (if bytes.length < 13 then .tokenOverread else .tokenOverflow) := by
  by_cases h13 : bytes.length < 13
  · obtain ⟨ew, -⟩ := cut_reading junk hj bytes h4 (by omega) h13
    have htk := sentHeader_tkl bytes
    simp only [pingReply, ew fuel, incoming, SCtx.init, SCtx.setHeader, SCtx.setToken, List.length_nil, Nat.zero_le, if_true,
      List.nil_append, List.drop_zero, NEnc.headerAndToken, SCtx.getToken, htk, hjt, h13]
    rw [if_neg (by omega)]
  · simp only [pingReply, pull_long_token_overflow junk hj bytes (by rw [claim_eq]; exact h8) (by omega), h13, if_false]

/-- A datagram of fewer than four bytes is read as the header that memory completes, without token and options. -/
theorem short_reading (junk : Dec) (bytes : List UInt8) (h4 : bytes.length < 4) (fuel : Nat) :
    ∃ p : Pull, readWith (iterAll (fuel + 1)) (make junk bytes) =
      .ok ⟨sentHeader (bytes ++ junk.hdr.bytes.drop bytes.length), [], false, [], p.payload, p.d.st⟩ := by
  have hh : ∃ p, (make junk bytes).header = .ok (sentHeader (bytes ++ junk.hdr.bytes.drop bytes.length), p) ∧ Starved p := by
    match bytes, h4 with
    | [], _ => exact ⟨_, rfl, Or.inl rfl, rfl⟩
    | [_], _ => exact ⟨_, rfl, Or.inl rfl, rfl⟩
    | [_, _], _ => exact ⟨_, rfl, Or.inl rfl, rfl⟩
    | [_, _, _], _ => exact ⟨_, rfl, Or.inl rfl, rfl⟩
  obtain ⟨p, e, hp⟩ := hh
  exact ⟨p, by simp only [readWith, e, hp.token, (hp.walks fuel).1]⟩

/-- C80 fails: a datagram of fewer than four bytes is answered too.  The missing bytes of the header are what the decoder's
memory held, and so is the token. -/
theorem ping_short_header_leak (bytes : List UInt8) (h4 : bytes.length < 4) (junk : Dec) (junkToken : List UInt8)
    (hjt : junkToken.length = 8) (junkHeader : Header) (room fuel : Nat) (hroom : 12 ≤ room)
    (h8 : tokenClaim (bytes ++ junk.hdr.bytes.drop bytes.length) ≤ 8) :
    pingReply room junk junkToken junkHeader (iterAll (fuel + 1)) bytes =
      .ok (replyHead (bytes ++ junk.hdr.bytes.drop bytes.length) 0x45 ++
        junkToken.take (tokenClaim (bytes ++ junk.hdr.bytes.drop bytes.length))) := by
  obtain ⟨p, er⟩ := short_reading junk bytes h4 fuel
  obtain ⟨x, e1, -, -, e2⟩ := head_any (t := []) hjt h8 (Or.inl rfl) []
    ⟨sentHeader (bytes ++ junk.hdr.bytes.drop bytes.length), [], false, [], p.payload, p.d.st⟩ rfl rfl
  have e3 := e2 room 0x45 junkHeader hroom
  simp only [if_true] at e3
  simp only [pingReply, er, e1, show codeContent = (0x45 : UInt8) from rfl, e3]

/-- C80 fails for the other three examples in the same way: a token length of nine to fifteen makes them read behind the
token they keep, or write behind the token buffer of the decoder, whatever else the datagram holds. -/
theorem examples_long_token_faults {A : Type} (bytes : List UInt8) (h4 : 4 ≤ bytes.length) (h8 : 8 < tokenClaim bytes) (junk : Dec)
    (hj : junk.tbuf.length = 8) (junkToken : List UInt8) (hjt : junkToken.length = 8) (junkHeader : Header) (room cap regCap fuel : Nat)
    (reg : Registrar A) (addr : A) (paths : List Uri.Entry) (coredata : List Uri.CoREData) (title : Int → Option (List Char)) (idCore : Int) :
    uriReply cap room (fuel + 1) junk junkToken junkHeader bytes =
      .error (.dec (if bytes.length < 13 then .tokenOverread else .tokenOverflow)) ∧
    observeReply cap regCap room (fuel + 1) junk junkToken junkHeader reg addr bytes =
      .error (.dec (if bytes.length < 13 then .tokenOverread else .tokenOverflow)) ∧
    discoverReply room (fuel + 1) paths coredata title idCore junk junkToken junkHeader bytes =
      .error (.dec (if bytes.length < 13 then .tokenOverread else .tokenOverflow)) := by
  by_cases h13 : bytes.length < 13
  · obtain ⟨ew, -⟩ := cut_reading junk hj bytes h4 (by omega) h13
    have htk := sentHeader_tkl bytes
    have hn : ¬ tokenClaim bytes ≤ 8 := by omega
    refine ⟨?_, ?_, ?_⟩
    · simp only [uriReply, ew fuel, incoming, SCtx.init, SCtx.setHeader, SCtx.setToken, List.length_nil, Nat.zero_le, if_true,
        List.nil_append, List.drop_zero, uriLoop, answer, NEnc.headerAndToken, SCtx.getToken, htk, hjt, h13, hn, if_false]
    · simp only [observeReply, ew fuel, incoming, SCtx.init, SCtx.setHeader, SCtx.setToken, List.length_nil, Nat.zero_le, if_true,
        List.nil_append, List.drop_zero, SCtx.getToken, htk, hjt, h13, hn, if_false]
    · simp only [discoverReply, ew fuel, incoming, SCtx.init, SCtx.setHeader, SCtx.setToken, List.length_nil, Nat.zero_le, if_true,
        List.nil_append, List.drop_zero, NEnc.headerAndToken, SCtx.getToken, htk, hjt, h13, hn, if_false]
  · have e := pull_long_token_overflow junk hj bytes (by rw [claim_eq]; exact h8) (by omega)
    simp only [uriReply, observeReply, discoverReply, e, h13, if_false, and_self]

/-- C80 fails for the other three examples in the same way: a datagram of fewer than four bytes is answered with 4.04, what
memory held as the rest of the header and as the token, and a payload marker without payload. -/
theorem examples_short_header_leak {A : Type} (bytes : List UInt8) (h4 : bytes.length < 4) (junk : Dec) (junkToken : List UInt8)
    (hjt : junkToken.length = 8) (junkHeader : Header) (room : Nat) (hroom : 13 ≤ room)
    (h8 : tokenClaim (bytes ++ junk.hdr.bytes.drop bytes.length) ≤ 8) (cap regCap fuel : Nat) (reg : Registrar A) (addr : A)
    (paths : List Uri.Entry) (coredata : List Uri.CoREData) (title : Int → Option (List Char)) (idCore : Int) (hid : idCore ≠ Uri.none_) :
    ∃ out, out = replyHead (bytes ++ junk.hdr.bytes.drop bytes.length) 0x84 ++
        junkToken.take (tokenClaim (bytes ++ junk.hdr.bytes.drop bytes.length)) ++ [0xFF] ∧
    uriReply cap room (fuel + 1) junk junkToken junkHeader bytes = .ok out ∧
    observeReply cap regCap room (fuel + 1) junk junkToken junkHeader reg addr bytes = .ok (reg, out) ∧
    discoverReply room (fuel + 1) paths coredata title idCore junk junkToken junkHeader bytes = .ok out := by
  refine ⟨_, rfl, ?_⟩
  obtain ⟨p, e⟩ := short_reading junk bytes h4 fuel
  generalize bytes ++ junk.hdr.bytes.drop bytes.length = full at h8 e
  have hm : ∀ ps, ∃ x, incoming ps junkToken ⟨sentHeader full, [], false, [], p.payload, p.d.st⟩ = .ok x ∧ x.uri = Uri.Matcher.init ps ∧
      x.getToken = .ok (junkToken.take (tokenClaim full)) ∧
      (NEnc.init room).headerAndToken junkHeader x 0x84 =
          .ok (⟨OptEnc.init, replyHead full 0x84 ++ junkToken.take (tokenClaim full), room - 4 - tokenClaim full, false⟩, true) := by
    intro ps
    obtain ⟨x, e1, eu, eg, e2⟩ := head_any (t := []) hjt h8 (Or.inl rfl) ps ⟨sentHeader full, [], false, [], p.payload, p.d.st⟩ rfl rfl
    have e3 := e2 room 0x84 junkHeader (by omega)
    simp only [if_true] at e3 eg
    exact ⟨x, e1, eu, eg, e3⟩
  have hr : (room - 4 - tokenClaim full == 0) = false := by simp; omega
  refine ⟨?_, ?_, ?_⟩
  · obtain ⟨x, e1, -, -, e2⟩ := hm []
    simp only [uriReply, e, e1, uriLoop, answer]
    rw [if_neg (by simp), e2]
    simp [NEnc.payload, NEnc.payloadHeader, hr, NEnc.write]
  · obtain ⟨x, e1, -, eg, e2⟩ := hm []
    simp only [observeReply, e, e1, eg, observeLoop, answer, e2]
    simp [NEnc.payload, NEnc.payloadHeader, hr, NEnc.write]
  · obtain ⟨x, e1, eu, -, e2⟩ := hm paths
    have hl : (Uri.Matcher.init paths).lastFound = Uri.none_ := rfl
    simp only [discoverReply, e, e1, eu, discoverOptions, hl]
    rw [if_neg (by simp), e2]
    have hb : (Uri.none_ == idCore) = false := by simpa using fun h => hid h.symm
    simp [NEnc.payloadHeader, hr, hb]

/-- A confirmable GET with a token of two bytes and rubbish behind it: an option header that ends in the middle. -/
example : HasToken [0x42, 0x01, 0x12, 0x34, 0xAA, 0xBB, 0xED] := by unfold HasToken; decide

example : replyHead [0x42, 0x01, 0x12, 0x34, 0xAA, 0xBB, 0xED] 0x45 ++ tokenOf [0x42, 0x01, 0x12, 0x34, 0xAA, 0xBB, 0xED] =
    [0x62, 0x45, 0x12, 0x34, 0xAA, 0xBB] := by decide

/-- Four bytes that announce a token of eight: the answer carries eight bytes of memory. -/
example : pingReply 100 Dec.zero [1, 2, 3, 4, 5, 6, 7, 8] ⟨0, 0, 0, 0⟩ (iterAll 5) [0x48, 0x01, 0x12, 0x34] =
    .ok [0x68, 0x45, 0x12, 0x34, 1, 2, 3, 4, 5, 6, 7, 8] :=
  (ping_cut_token_leak [0x48, 0x01, 0x12, 0x34] (by decide) (by decide) (by decide) Dec.zero rfl [1, 2, 3, 4, 5, 6, 7, 8] rfl ⟨0, 0, 0, 0⟩
    100 (by decide)).2 4

/-- The hypotheses of `ping_long_token_faults`, on both sides. -/
example : 4 ≤ [(0x49 : UInt8), 0x01, 0x12, 0x34].length ∧ 8 < tokenClaim [0x49, 0x01, 0x12, 0x34] ∧
    8 < tokenClaim [0x4F, 1, 2, 3, 4, 5, 6, 7, 8, 9, 10, 11, 12] := by decide

/-- Nothing at all arrives, and the last message in memory is answered. -/
example : pingReply 100 { Dec.zero with hdr := ⟨0x42, 0x01, 0x56, 0x78⟩ } [1, 2, 3, 4, 5, 6, 7, 8] ⟨0, 0, 0, 0⟩ (iterAll 5) [] =
    .ok [0x62, 0x45, 0x56, 0x78, 1, 2] :=
  ping_short_header_leak [] (by decide) _ [1, 2, 3, 4, 5, 6, 7, 8] rfl ⟨0, 0, 0, 0⟩ 100 4 (by decide) (by decide)

/-- The path example answers an empty datagram with the message in memory. -/
example : uriReply 30 100 5 { Dec.zero with hdr := ⟨0x42, 0x01, 0x56, 0x78⟩ } [1, 2, 3, 4, 5, 6, 7, 8] ⟨0, 0, 0, 0⟩ [] =
    .ok [0x62, 0x84, 0x56, 0x78, 1, 2, 0xFF] := by
  obtain ⟨out, rfl, h, -⟩ := examples_short_header_leak (A := Nat) [] (by decide) { Dec.zero with hdr := ⟨0x42, 0x01, 0x56, 0x78⟩ }
    [1, 2, 3, 4, 5, 6, 7, 8] rfl ⟨0, 0, 0, 0⟩ 100 (by decide) (by decide) 30 5 4 ⟨[], 0⟩ 0 [] [] (fun _ => none) 7 (by decide)
  exact h

/-- The listing example reads out of bounds on four bytes. -/
example : discoverReply 100 5 [] [] (fun _ => none) 7 Dec.zero [1, 2, 3, 4, 5, 6, 7, 8] ⟨0, 0, 0, 0⟩ [0x49, 0x01, 0x12, 0x34] =
    .error (.dec .tokenOverread) :=
  (examples_long_token_faults (A := Nat) [0x49, 0x01, 0x12, 0x34] (by decide) (by decide) Dec.zero rfl [1, 2, 3, 4, 5, 6, 7, 8] rfl
    ⟨0, 0, 0, 0⟩ 100 30 5 4 ⟨[], 0⟩ 0 [] [] (fun _ => none) 7).2.2

end Verif.Props
