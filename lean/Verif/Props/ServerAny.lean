import Verif.Spec.ServerAny
import Verif.Props.Responder
import Verif.Props.DecoderReport
import Verif.Props.ExamplesAny

/-! # C87: a server with automatic replies and any datagram whatever -/
namespace Verif.Props
open Verif.Model Verif.Spec Verif.Proofs Verif.Model.Header

/-- The events of the options read. -/
def itemEvents (is : List Item) : List Event := is.map fun i => .option (UInt16.ofNat i.number) i.value i.complete

/-- All that the decoder says about a datagram with a whole header and token, up to events of payload. -/
theorem datagram_said (junk : Dec) (hj : junk.tbuf.length = 8) (bytes : List UInt8) (h : HasToken bytes) :
    ∃ pay d' c', (∀ e ∈ pay, ∃ p l, e = Event.payload p l) ∧ ∀ fuel, 11 * bytes.length + 65561 ≤ fuel →
      Dec.processToDone fuel (Dec.fresh junk) ⟨bytes, 0, true⟩ = .ok (d', c',
        ([.header (sentHeader bytes), .token (tokenOf bytes), .optionStart] ++ itemEvents (readRest 0 0 (behindToken bytes)).1) ++
          .optionsCompleted :: (pay ++ [.completed])) := by
  obtain ⟨hl, h8⟩ := h
  obtain ⟨b0, b1, b2, b3, t, rfl⟩ := four_bytes bytes (by omega)
  have hk : (b0 &&& 0x0F).toNat = tokenClaim (b0 :: b1 :: b2 :: b3 :: t) := by rw [tkl_toNat]; rfl
  generalize hkk : tokenClaim (b0 :: b1 :: b2 :: b3 :: t) = k at hk hl h8
  have ht : tokenOf (b0 :: b1 :: b2 :: b3 :: t) = t.take k := by simp [tokenOf, hkk]
  have hb : behindToken (b0 :: b1 :: b2 :: b3 :: t) = t.drop k := by
    simp only [behindToken, hkk, Nat.add_comm 4 k]; simp [List.drop_succ_cons]
  simp only [List.length_cons] at hl
  have hlen : (t.take k).length = k := by rw [List.length_take]; omega
  have hh : sentHeader (b0 :: b1 :: b2 :: b3 :: t) = ⟨b0, b1, b2, b3⟩ := rfl
  rw [ht, hb, hh]
  obtain ⟨N, d', c', evs, hN, -, hall⟩ := final_buffer_terminates junk hj b0 b1 b2 b3 (t.take k) (t.drop k) (by rw [hlen, hk]) (by omega)
  rw [List.take_append_drop] at hall
  have hN' : N ≤ 11 * (b0 :: b1 :: b2 :: b3 :: t).length + 65561 := by
    simp only [List.length_take, List.length_drop] at hN
    simp only [List.length_cons]; omega
  suffices hs : ∃ pay, (∀ e ∈ pay, ∃ p l, e = Event.payload p l) ∧ evs =
      ([.header ⟨b0, b1, b2, b3⟩, .token (t.take k), .optionStart] ++ itemEvents (readRest 0 0 (t.drop k)).1) ++
          .optionsCompleted :: (pay ++ [.completed]) by
    obtain ⟨pay, h1, h2⟩ := hs
    refine ⟨pay, d', c', h1, fun fuel hf => ?_⟩
    rw [hall fuel (by omega), h2]
  by_cases hst : junk.opt.st ≠ .payload ∨ t.take k ≠ [] ∨ t.drop k ≠ []
  · obtain ⟨N2, d2, c2, -, h2⟩ := any_bytes_reported junk hj b0 b1 b2 b3 (t.take k) (t.drop k) (by rw [hlen, hk]) (by omega) hst
    rw [List.take_append_drop] at h2
    have e1 := hall (N + N2) (by omega)
    rw [h2 (N + N2) (by omega)] at e1
    simp only [Except.ok.injEq, Prod.mk.injEq] at e1
    refine ⟨match (readRest 0 0 (t.drop k)).2 with | none => [] | some p => [.payload p true], ?_, ?_⟩
    · intro e he
      cases hp : (readRest 0 0 (t.drop k)).2 <;> rw [hp] at he <;> simp at he
      exact ⟨_, _, he⟩
    · rw [← e1.2.2]
      simp only [reportOf, itemEvents, List.append_assoc, List.cons_append, List.nil_append]
      cases (readRest 0 0 (t.drop k)).2 <;> rfl
  · have hp : junk.opt.st = .payload := Classical.byContradiction fun h => hst (Or.inl h)
    have h1 : t.take k = [] := Classical.byContradiction fun h => hst (Or.inr (Or.inl h))
    have h2 : t.drop k = [] := Classical.byContradiction fun h => hst (Or.inr (Or.inr h))
    have ht0 : t = [] := by rw [← List.take_append_drop k t, h1, h2]; rfl
    have hk0 : k = 0 := by rw [h1] at hlen; simpa using hlen.symm
    subst ht0
    have hb0 : b0.toNat % 16 = 0 := by rw [tkl_toNat] at hk; omega
    have l0 := b0.toNat_lt
    have l1 := b1.toNat_lt
    have l2 := b2.toNat_lt
    have l3 := b3.toNat_lt
    obtain ⟨d2, -, e2⟩ := stale_option_state_phantom_payload
      ⟨b0.toNat / 64, b0.toNat / 16 % 4, b1.toNat, b2.toNat * 256 + b3.toNat, [], [], none⟩
      ⟨by simp only; omega, by simp only; omega, l1, by simp only; omega, by simp, by simp [OptsOk], by simp⟩ rfl rfl rfl junk hp
    have a0 : UInt8.ofNat (64 * (b0.toNat / 64) + 16 * (b0.toNat / 16 % 4)) = b0 := by
      apply UInt8.toNat_inj.1; simp; omega
    have a2 : UInt8.ofNat ((b2.toNat * 256 + b3.toNat) / 256) = b2 := by
      apply UInt8.toNat_inj.1; simp; omega
    have a3 : UInt8.ofNat ((b2.toNat * 256 + b3.toNat) % 256) = b3 := by
      apply UInt8.toNat_inj.1; simp
    have ae : encMsg ⟨b0.toNat / 64, b0.toNat / 16 % 4, b1.toNat, b2.toNat * 256 + b3.toNat, [], [], none⟩ = [b0, b1, b2, b3] := by
      simp only [encMsg, encHeader, encOpts, encPayload, List.length_nil, Nat.add_zero, a0, a2, a3]; simp
    simp only [ae, a0, a2, a3] at e2
    have e1 := hall (N + 9) (by omega)
    rw [processToDone_mono e2 (by omega : 9 ≤ N + 9)] at e1
    simp only [Except.ok.injEq, Prod.mk.injEq] at e1
    refine ⟨[.payload [] true], by simp, ?_⟩
    rw [← e1.2.2]
    simp [readRest_nil, itemEvents]

theorem pathNumber (n : Nat) : (UInt16.ofNat n == 11) = decide (n % 65536 = 11) := by
  by_cases h : n % 65536 = 11
  · have : UInt16.ofNat n = 11 := by apply UInt16.toNat_inj.1; simpa using h
    simp [h, this]
  · have : UInt16.ofNat n ≠ 11 := by
      intro hc
      have := congrArg UInt16.toNat hc
      simp at this
      omega
    simp [h, this]

/-- The options read move the matcher along the path and do nothing else. -/
theorem onEvents_items (cap : Nat) : ∀ (is : List Item) (x : SCtx), x.onEvents cap (itemEvents is) =
    .ok { x with uri := x.uri.feed ((is.filter fun i => i.number % 65536 = 11).map fun i => i.value.map fun b => Char.ofNat b.toNat) }
  | [], x => rfl
  | i :: is, x => by
    rw [itemEvents, List.map_cons, SCtx.onEvents, SCtx.onEvent, pathNumber]
    by_cases h : i.number % 65536 = 11
    · simp only [h, decide_true, if_true, List.filter_cons, List.map_cons, Uri.Matcher.feed]
      exact onEvents_items cap is _
    · simp only [h, decide_false, List.filter_cons, Bool.false_eq_true, if_false]
      exact onEvents_items cap is x

/-- The context at the end of the options. -/
theorem onEvents_upTo (cap : Nat) (paths : List Uri.Entry) (jt : List UInt8) (hjt : jt.length = 8) (bytes : List UInt8) (h : HasToken bytes) :
    (SCtx.init paths jt).onEvents cap ([.header (sentHeader bytes), .token (tokenOf bytes), .optionStart] ++
      itemEvents (readRest 0 0 (behindToken bytes)).1) =
    .ok ⟨sentHeader bytes, tokenOf bytes ++ jt.drop (tokenClaim bytes), (Uri.Matcher.init paths).feed (pathIn bytes), []⟩ := by
  have hl := token_empty h
  have h8 := h.2
  rw [onEvents_append]
  simp only [SCtx.onEvents, SCtx.onEvent, SCtx.setToken, SCtx.setHeader, SCtx.init, hjt, hl, h8, if_true]
  rw [onEvents_items]
  rfl

theorem ack_byte (b : UInt8) : ((b &&& ~~~(0x30 : UInt8)) ||| (UInt8.ofNat 2 <<< 4)) = UInt8.ofNat (64 * (b.toNat / 64) + 32 + b.toNat % 16) := by
  have h : ∀ n : Fin 256, ((UInt8.ofNat n &&& ~~~(0x30 : UInt8)) ||| (UInt8.ofNat 2 <<< 4)) =
      UInt8.ofNat (64 * ((UInt8.ofNat n).toNat / 64) + 32 + (UInt8.ofNat n).toNat % 16) := by decide +kernel
  have hb := h ⟨b.toNat, b.toNat_lt⟩
  simpa using hb

theorem ack_bytes (bytes : List UInt8) (code : UInt8) :
    (((sentHeader bytes).setCode code).setType acknowledgement).bytes = ackHead bytes code := by
  simp only [ackHead, ← ack_byte]; rfl

theorem any_getToken {bytes jt : List UInt8} (h : HasToken bytes) (u : Uri.Matcher) (s : List (List UInt8)) :
    (⟨sentHeader bytes, tokenOf bytes ++ jt, u, s⟩ : SCtx).getToken = .ok (tokenOf bytes) := by
  have hl := token_empty h
  simp only [SCtx.getToken, sentHeader_tkl, List.length_append]
  rw [if_pos (by omega), List.take_append_of_le_length (by omega), List.take_of_length_le (by omega)]

theorem any_reply {bytes jt : List UInt8} (h : HasToken bytes) (u : Uri.Matcher) (s : List (List UInt8)) (cap : Nat) (code : UInt8) :
    (⟨sentHeader bytes, tokenOf bytes ++ jt, u, s⟩ : SCtx).buildReply cap code = .ok ((ackHead bytes code ++ tokenOf bytes).take cap) := by
  rw [SCtx.buildReply, any_getToken h]
  simp only [header_token_out, ← ack_bytes]
  rfl

/-- The text reply of the version observer to any datagram, as far as there is room. -/
theorem any_versionReply {bytes jt : List UInt8} (h : HasToken bytes) (u : Uri.Matcher) (s0 : List (List UInt8)) (cap : Nat)
    (text jv : List UInt8) :
    (⟨sentHeader bytes, tokenOf bytes ++ jt, u, s0⟩ : SCtx).versionReply cap text jv =
      .ok ((ackHead bytes 0x45 ++ tokenOf bytes ++ 0xC0 :: 0xFF :: text).take cap) := by
  have hr := any_reply (jt := jt) h u s0 cap 0x45
  simp only [SCtx.buildReply, any_getToken h, Except.ok.injEq] at hr
  simp only [SCtx.versionReply, any_getToken h]
  generalize hs : ((SEnc.init cap).header (((sentHeader bytes).setCode 0x45).setType acknowledgement)).token (tokenOf bytes) = s at hr
  have hsc : s.cap = cap := by rw [← hs]; rfl
  have hse : s.oe = OptEnc.init := by rw [← hs]; rfl
  obtain ⟨s', ok, e1, e2, e3⟩ := format_out s hse jv
  rw [e1]
  simp only [Except.ok.injEq]
  generalize ackHead bytes 0x45 ++ tokenOf bytes = R at hr
  rw [hr, hsc] at e3
  rw [hsc] at e2
  obtain ⟨oe, out, c⟩ := s'
  simp only at e2 e3
  subst e2 e3
  simp only [SEnc.payloadMarker, SEnc.putc, SEnc.putn, SEnc.room]
  by_cases h1 : c ≤ R.length
  · have hl : (List.take c R).length = c := by simp; omega
    simp only [hl, Nat.sub_self, List.take_zero, List.append_nil, Nat.lt_irrefl, if_false]
    rw [List.take_append_of_le_length h1]
  · have hl : List.take c R = R := List.take_of_length_le (by omega)
    obtain ⟨k, rfl⟩ : ∃ k, c = R.length + (k + 1) := ⟨c - R.length - 1, by omega⟩
    have hk : R.length + (k + 1) - R.length = k + 1 := by omega
    simp only [hl, hk, List.take_succ_cons, List.take_nil, List.length_append, List.length_cons, List.length_nil]
    rw [List.take_length_add_append]
    cases k with
    | zero => simp
    | succ k =>
      simp
      omega

/-- What the server with the version observer does with what the decoder says about a datagram. -/
theorem said_answered (cap : Nat) (paths : List Uri.Entry) (id : Int) (hid : id ≠ -1) (text jt jv : List UInt8) (hjt : jt.length = 8)
    (bytes : List UInt8) (h : HasToken bytes) (pay : List Event) (hpay : ∀ e ∈ pay, ∃ p l, e = Event.payload p l) :
    ∃ x, (SCtx.init paths jt).versionEvents cap id text jv
      (([.header (sentHeader bytes), .token (tokenOf bytes), .optionStart] ++ itemEvents (readRest 0 0 (behindToken bytes)).1) ++
        .optionsCompleted :: (pay ++ [.completed])) = .ok x ∧
      x.sent = if ((Uri.Matcher.init paths).feed (pathIn bytes)).lastFound = -1 then [(ackHead bytes 0x84 ++ tokenOf bytes).take cap]
        else if ((Uri.Matcher.init paths).feed (pathIn bytes)).lastFound = id then
          [(ackHead bytes 0x45 ++ tokenOf bytes ++ 0xC0 :: 0xFF :: text).take cap] else [] := by
  have hp : ∀ (l : List Event) (x : SCtx), (∀ e ∈ l, ∃ p q, e = .payload p q) →
      x.versionEvents cap id text jv (l ++ [.completed]) = x.versionEvents cap id text jv [.completed] := by
    intro l
    induction l with
    | nil => intro x _; rfl
    | cons e l ih =>
      intro x h
      obtain ⟨p, q, rfl⟩ := h e List.mem_cons_self
      exact ih x fun e' h' => h e' (List.mem_cons_of_mem _ h')
  rw [versionEvents_before _ _ _ _ _ _ (by simp [itemEvents]), onEvents_upTo cap paths jt hjt bytes h]
  simp only
  rw [SCtx.versionEvents]
  generalize (Uri.Matcher.init paths).feed (pathIn bytes) = u
  by_cases hf : u.lastFound = -1
  · simp only [SCtx.versionEvent, SCtx.onEvent, SCtx.foundNode, Uri.none_, hf, ne_eq, not_true_eq_false, if_false, if_true, any_reply h]
    rw [hp pay _ hpay]
    simp only [SCtx.versionEvents, SCtx.versionEvent, SCtx.foundNode, hf, Ne.symm hid, if_false]
    exact ⟨_, rfl, rfl⟩
  · simp only [SCtx.versionEvent, SCtx.onEvent, SCtx.foundNode, Uri.none_, hf, ne_eq, not_false_eq_true, if_true, if_false]
    rw [hp pay _ hpay]
    by_cases hi : u.lastFound = id
    · simp only [SCtx.versionEvents, SCtx.versionEvent, SCtx.foundNode, hi, if_true, any_versionReply h]
      exact ⟨_, rfl, rfl⟩
    · simp only [SCtx.versionEvents, SCtx.versionEvent, SCtx.foundNode, hi, if_false]
      exact ⟨_, rfl, rfl⟩

/-- What the server without a version observer does with it. -/
theorem said_served (cap : Nat) (paths : List Uri.Entry) (jt : List UInt8) (hjt : jt.length = 8)
    (bytes : List UInt8) (h : HasToken bytes) (pay : List Event) (hpay : ∀ e ∈ pay, ∃ p l, e = Event.payload p l) :
    ∃ x, (SCtx.init paths jt).onEvents cap
      (([.header (sentHeader bytes), .token (tokenOf bytes), .optionStart] ++ itemEvents (readRest 0 0 (behindToken bytes)).1) ++
        .optionsCompleted :: (pay ++ [.completed])) = .ok x ∧
      x.sent = if ((Uri.Matcher.init paths).feed (pathIn bytes)).lastFound = -1 then [(ackHead bytes 0x84 ++ tokenOf bytes).take cap]
        else [] := by
  have hp : ∀ (l : List Event) (x : SCtx), (∀ e ∈ l, ∃ p q, e = .payload p q) → x.onEvents cap (l ++ [.completed]) = .ok x := by
    intro l
    induction l with
    | nil => intro x _; rfl
    | cons e l ih =>
      intro x h
      obtain ⟨p, q, rfl⟩ := h e List.mem_cons_self
      exact ih x fun e' h' => h e' (List.mem_cons_of_mem _ h')
  rw [onEvents_append, onEvents_upTo cap paths jt hjt bytes h]
  simp only
  rw [SCtx.onEvents]
  generalize (Uri.Matcher.init paths).feed (pathIn bytes) = u
  by_cases hf : u.lastFound = -1
  · simp only [SCtx.onEvent, SCtx.foundNode, Uri.none_, hf, ne_eq, not_true_eq_false, if_false, if_true, any_reply h]
    rw [hp pay _ hpay]
    exact ⟨_, rfl, rfl⟩
  · simp only [SCtx.onEvent, SCtx.foundNode, Uri.none_, hf, ne_eq, not_false_eq_true, if_true, if_false]
    rw [hp pay _ hpay]
    exact ⟨_, rfl, rfl⟩

/-- C87 (partial: the datagram has a whole header and a whole token of at most eight bytes): within a number of steps that
depends only on its length, and whatever stands behind the token, the server sends nothing if the path in the datagram
denotes a node of its table, and otherwise one message: header and token of the datagram as an acknowledgement with
4.04. -/
theorem any_datagram_served_partial (bytes : List UInt8) (h : HasToken bytes) {cap : Nat} (hcap : 4 + tokenClaim bytes ≤ cap)
    {paths : List Uri.Entry} (hpf : ParentsFirst paths) (junk : Dec) (hb : junk.tbuf.length = 8) (jt : List UInt8) (hjt : jt.length = 8)
    (fuel : Nat) (hf : 11 * bytes.length + 65561 ≤ fuel) :
    ((∃ q, q ≠ -1 ∧ Denotes paths (-1) (pathIn bytes) q) → serve cap paths junk jt fuel bytes = .ok []) ∧
    ((∀ q, q ≠ -1 → ¬Denotes paths (-1) (pathIn bytes) q) →
      serve cap paths junk jt fuel bytes = .ok [ackHead bytes 0x84 ++ tokenOf bytes]) := by
  obtain ⟨pay, d', c', hpay, hall⟩ := datagram_said junk hb bytes h
  obtain ⟨x, hx, hs⟩ := said_served cap paths jt hjt bytes h pay hpay
  simp only [serve, hall fuel hf, hx, hs]
  refine ⟨fun ⟨q, hq, hd⟩ => ?_, fun hd => ?_⟩
  · rw [uri_path_found hpf hd, if_neg hq]
  · have : ((Uri.Matcher.init paths).feed (pathIn bytes)).lastFound = -1 :=
      Classical.byContradiction fun h => hd _ h ((uri_path_iff hpf _ h).mp rfl)
    rw [if_pos this, List.take_of_length_le]
    simp [ackHead, token_empty h]; omega

/-- C87 with the version responder for node `id` (partial: as in `any_datagram_served_partial`). -/
theorem any_datagram_version_partial (bytes : List UInt8) (h : HasToken bytes) {text : List UInt8} {cap : Nat}
    (hcap : 6 + tokenClaim bytes + text.length ≤ cap) {paths : List Uri.Entry} (hpf : ParentsFirst paths) {id : Int} (hid : id ≠ -1)
    (junk : Dec) (hb : junk.tbuf.length = 8) (jt : List UInt8) (hjt : jt.length = 8) (jv : List UInt8)
    (fuel : Nat) (hf : 11 * bytes.length + 65561 ≤ fuel) :
    (Denotes paths (-1) (pathIn bytes) id → serveVersion cap paths id text junk jt jv fuel bytes =
      .ok [ackHead bytes 0x45 ++ tokenOf bytes ++ 0xC0 :: 0xFF :: text]) ∧
    ((∃ q, q ≠ -1 ∧ q ≠ id ∧ Denotes paths (-1) (pathIn bytes) q) → serveVersion cap paths id text junk jt jv fuel bytes = .ok []) ∧
    ((∀ q, q ≠ -1 → ¬Denotes paths (-1) (pathIn bytes) q) →
      serveVersion cap paths id text junk jt jv fuel bytes = .ok [ackHead bytes 0x84 ++ tokenOf bytes]) := by
  obtain ⟨pay, d', c', hpay, hall⟩ := datagram_said junk hb bytes h
  obtain ⟨x, hx, hs⟩ := said_answered cap paths id hid text jt jv hjt bytes h pay hpay
  have hl := token_empty h
  simp only [serveVersion, hall fuel hf, hx, hs]
  refine ⟨fun hd => ?_, fun ⟨q, hq, hqi, hd⟩ => ?_, fun hd => ?_⟩
  · rw [uri_path_found hpf hd, if_neg hid, if_pos rfl, List.take_of_length_le]
    simp [ackHead, hl]; omega
  · rw [uri_path_found hpf hd, if_neg hq, if_neg hqi]
  · have : ((Uri.Matcher.init paths).feed (pathIn bytes)).lastFound = -1 :=
      Classical.byContradiction fun h => hd _ h ((uri_path_iff hpf _ h).mp rfl)
    rw [if_pos this, List.take_of_length_le]
    simp [ackHead, hl]; omega

/-! ## What the path in a datagram is -/

/-- The path among some options that were read. -/
def pathOfItems (is : List Item) : List (List Char) :=
  (is.filter fun i => i.number % 65536 = 11).map fun i => i.value.map fun b => Char.ofNat b.toNat

/-- The path among the options of a message. -/
def pathOfOpts (os : List Opt) : List (List Char) :=
  (os.filter fun o => o.number = 11).map fun o => o.value.map fun b => Char.ofNat b.toNat

theorem pathOfItems_cons (i : Item) (is : List Item) : pathOfItems (i :: is) =
    (if i.number % 65536 = 11 then [i.value.map fun b => Char.ofNat b.toNat] else []) ++ pathOfItems is := by
  by_cases h : i.number % 65536 = 11 <;> simp [pathOfItems, h]

theorem pathOfOpts_cons (o : Opt) (os : List Opt) : pathOfOpts (o :: os) =
    (if o.number = 11 then [o.value.map fun b => Char.ofNat b.toNat] else []) ++ pathOfOpts os := by
  by_cases h : o.number = 11 <;> simp [pathOfOpts, h]

/-- Reading whole options, then whatever follows. -/
theorem path_through {prev : Nat} {os : List Opt} {ob : List UInt8} (h : IsOpts prev os ob) : ∀ (prev' plen : Nat) (tail : List UInt8),
    prev' % 65536 = prev % 65536 → ∃ p' l', p' % 65536 = lastNum prev os % 65536 ∧
      pathOfItems (readRest prev' plen (ob ++ tail)).1 = pathOfOpts os ++ pathOfItems (readRest p' l' tail).1 := by
  induction h with
  | nil => intro prev' plen tail hp; exact ⟨prev', plen, hp, rfl⟩
  | @cons prev o os hdr bs h1 h2 h3 h4 _ ih =>
    intro prev' plen tail hp
    obtain ⟨w, e1, e2, rfl, hw, hr1, hr2⟩ := h4
    obtain ⟨x, hx, hxm⟩ := hr1 (e2 ++ (o.value ++ (bs ++ tail)))
    obtain ⟨y, hy, hym⟩ := hr2 (o.value ++ (bs ++ tail))
    have hlist : w :: (e1 ++ e2) ++ o.value ++ bs ++ tail = w :: (e1 ++ (e2 ++ (o.value ++ (bs ++ tail)))) := by simp
    obtain ⟨p', l', g1, g2⟩ := ih (prev' + x) o.value.length tail (by omega)
    refine ⟨p', l', g1, ?_⟩
    rw [hlist, readRest_option hw hx hy, hym, List.drop_left' rfl, List.take_left' rfl, pathOfItems_cons, g2, pathOfOpts_cons]
    have : (prev' + x) % 65536 = 11 ↔ o.number = 11 := by omega
    simp only [this, List.append_assoc]

/-- In a well-formed message the path is the one of the message, however its options are encoded. -/
theorem path_of_message (m : Msg) (hm : m.Ok) (ob : List UInt8) (hob : IsOpts 0 m.opts ob) :
    HasToken (wire m ob) ∧ pathIn (wire m ob) = uriPath m := by
  have hk : tokenClaim (wire m ob) = m.token.length := by
    obtain ⟨h1, h2, h3, h4, h5, -⟩ := hm
    simp [tokenClaim, wire, encHeader]; omega
  have h5 := hm.2.2.2.2.1
  refine ⟨⟨by rw [hk]; simp [wire, encHeader]; omega, by rw [hk]; exact h5⟩, ?_⟩
  have hb : behindToken (wire m ob) = ob ++ encPayload m.payload := by
    rw [behindToken, hk, wire, List.append_assoc (encHeader m ++ m.token)]
    exact List.drop_left' (by simp [encHeader]; omega)
  obtain ⟨p', l', -, h⟩ := path_through hob 0 0 (encPayload m.payload) rfl
  have he : pathIn (wire m ob) = pathOfItems (readRest 0 0 (behindToken (wire m ob))).1 := rfl
  rw [he, hb, h]
  have : (readRest p' l' (encPayload m.payload)).1 = [] := by
    cases m.payload with
    | none => simp [encPayload, readRest_nil]
    | some p => rw [encPayload, readRest_marker]
  rw [this]
  exact List.append_nil _

/-- In a message cut off inside its last option, one of the path, the path is that of the message with the shorter last
segment. -/
theorem path_of_cut (m : Msg) (hm : m.Ok) (os : List Opt) (v w : List UInt8) (ho : m.opts = os ++ [⟨11, v ++ w⟩])
    (hp : m.payload = none) (hw : w ≠ []) (bytes : List UInt8) (hb : encMsg m = bytes ++ w) :
    HasToken bytes ∧ pathIn bytes = uriPath { m with opts := os ++ [⟨11, v⟩] } := by
  have hk : tokenClaim (encMsg m) = m.token.length := by
    obtain ⟨h1, h2, h3, h4, h5, -⟩ := hm
    simp [tokenClaim, encMsg, encHeader]; omega
  have h5 := hm.2.2.2.2.1
  have h6 := hm.2.2.2.2.2.1
  rw [ho] at h6
  obtain ⟨g1, g2, g3, g4⟩ := optsOk_snoc h6
  simp only at g2 g3 g4
  have hby : bytes = encHeader m ++ m.token ++ (encOpts 0 os ++ (optHeader (11 - lastNum 0 os) (v ++ w).length ++ v)) := by
    have : bytes ++ w = encHeader m ++ m.token ++ (encOpts 0 os ++ (optHeader (11 - lastNum 0 os) (v ++ w).length ++ v)) ++ w := by
      rw [← hb]
      simp [encMsg, ho, encOpts_snoc, hp, encPayload]
    exact List.append_cancel_right this
  have hk' : tokenClaim bytes = m.token.length := by
    rw [← hk, hb, hby]; simp [tokenClaim, encHeader]
  refine ⟨⟨by rw [hk', hby]; simp [encHeader]; omega, by rw [hk']; exact h5⟩, ?_⟩
  have hbt : behindToken bytes = encOpts 0 os ++ (optHeader (11 - lastNum 0 os) (v ++ w).length ++ v) := by
    rw [behindToken, hk', hby]
    exact List.drop_left' (by simp [encHeader]; omega)
  have he : pathIn bytes = pathOfItems (readRest 0 0 (behindToken bytes)).1 := rfl
  obtain ⟨p', l', q1, q2⟩ := path_through (isOpts_encOpts 0 os g1) 0 0 (optHeader (11 - lastNum 0 os) (v ++ w).length ++ v) rfl
  rw [he, hbt, q2]
  obtain ⟨x0, e1, e2, hh, hw0, hr1, hr2⟩ := hdrOf_optHeader (11 - lastNum 0 os) (v ++ w).length (by omega) g4
  obtain ⟨x, hx, hxm⟩ := hr1 (e2 ++ v)
  obtain ⟨y, hy, hym⟩ := hr2 v
  have hlist : optHeader (11 - lastNum 0 os) (v ++ w).length ++ v = x0 :: (e1 ++ (e2 ++ v)) := by rw [hh]; simp
  have hlen : v.length < (v ++ w).length := by
    have := List.length_pos_iff.mpr hw
    simp; omega
  rw [hlist, readRest_option hw0 hx hy, hym, List.take_of_length_le (by omega), List.drop_of_length_le (by omega), readRest_nil,
    pathOfItems_cons]
  have hlast : lastNum 0 os % 65536 = lastNum 0 os := by omega
  have : (p' + x) % 65536 = 11 := by omega
  simp only [this, if_true]
  have hu : uriPath { m with opts := os ++ [⟨11, v⟩] } = pathOfOpts os ++ [v.map fun b => Char.ofNat b.toNat] := by
    simp [uriPath, pathOfOpts, List.filter_append]
  rw [hu]
  rfl

/-! ## What is false -/

/-- C87 fails: a datagram cut off inside its path, which no sender ever meant, is answered like a request for another
resource: the one whose name is the piece that arrived. -/
theorem cut_path_answered (m : Msg) (hm : m.Ok) (os : List Opt) (v w : List UInt8) (ho : m.opts = os ++ [⟨11, v ++ w⟩])
    (hp : m.payload = none) (hw : w ≠ []) (bytes : List UInt8) (hb : encMsg m = bytes ++ w) {text : List UInt8} {cap : Nat}
    (hcap : 6 + m.token.length + text.length ≤ cap) {paths : List Uri.Entry} (hpf : ParentsFirst paths) {id : Int} (hid : id ≠ -1)
    (hd : Denotes paths (-1) (uriPath { m with opts := os ++ [⟨11, v⟩] }) id)
    (junk : Dec) (hj : junk.tbuf.length = 8) (jt : List UInt8) (hjt : jt.length = 8) (jv : List UInt8)
    (fuel : Nat) (hf : 11 * bytes.length + 65561 ≤ fuel) :
    serveVersion cap paths id text junk jt jv fuel bytes = .ok [encMsg (textReply m text)] := by
  obtain ⟨h1, h2⟩ := path_of_cut m hm os v w ho hp hw bytes hb
  obtain ⟨k1, k2, k3, k4, k5, -⟩ := hm
  have h4 : encHeader m = bytes.take 4 ∧ tokenClaim bytes = m.token.length ∧ m.token = tokenOf bytes := by
    have hlen := h1.1
    have ht : (encMsg m).take 4 = bytes.take 4 := by rw [hb, List.take_append_of_le_length (by omega)]
    have h0 : (encMsg m).take 4 = encHeader m := by simp [encMsg, encHeader]
    have hk : tokenClaim bytes = m.token.length := by
      have : bytes.getD 0 0 = (encMsg m).getD 0 0 := by
        rw [hb]
        cases bytes with
        | nil => simp at hlen
        | cons b bs => rfl
      rw [tokenClaim, this]
      simp [encMsg, encHeader]; omega
    refine ⟨by rw [← ht, h0], hk, ?_⟩
    have : m.token = ((encMsg m).drop 4).take m.token.length := by
      rw [show encMsg m = encHeader m ++ (m.token ++ (encOpts 0 m.opts ++ encPayload m.payload)) by simp [encMsg],
        List.drop_left' (by rfl : (encHeader m).length = 4), List.take_left' rfl]
    rw [tokenOf, hk, this, hb, List.drop_append_of_le_length (by omega), List.take_append_of_le_length (by simp; omega)]
    simp
  obtain ⟨a1, a2, a3⟩ := h4
  rw [(any_datagram_version_partial bytes h1 (by omega) hpf hid junk hj jt hjt jv fuel hf).1 (by rw [h2]; exact hd)]
  have hlen := h1.1
  obtain ⟨b0, b1, b2, b3, t, rfl⟩ := four_bytes bytes (by omega)
  simp only [encHeader, List.take_succ_cons, List.take_zero, List.cons.injEq] at a1
  obtain ⟨c0, c1, c2, c3, -⟩ := a1
  rw [← a3]
  have e0 : UInt8.ofNat (64 * (b0.toNat / 64) + 32 + b0.toNat % 16) = UInt8.ofNat (64 * m.version + 16 * 2 + m.token.length) := by
    rw [← c0]; apply UInt8.toNat_inj.1; simp; omega
  simp [ackHead, encMsg, textReply, encHeader, encOpts, encPayload, optHeader, nibble, extBytes, e0, c2, c3]

/-- A table with two resources, the name of one beginning like the other. -/
def twoNames : List Uri.Entry := [⟨"temp".toList, 1, -1⟩, ⟨"te".toList, 2, -1⟩]

-- `/temp` cut to `/te`
example : serve 64 [⟨"temp".toList, 1, -1⟩] Dec.zero (List.replicate 8 0) 300 [0x41, 1, 2, 3, 9, 0xB4, 0x74, 0x65] =
    .ok [[0x61, 0x84, 2, 3, 9]] ∧
  serveVersion 64 twoNames 2 [0x76] Dec.zero (List.replicate 8 0) [] 300 [0x41, 1, 2, 3, 9, 0xB4, 0x74, 0x65] =
    .ok [[0x61, 0x45, 2, 3, 9, 0xC0, 0xFF, 0x76]] := by decide +kernel

/-- Steps of the decoder that lead somewhere else than to the end. -/
theorem toDone_step {d d' : Dec} {c c' : Ctx} {evs : List Event} (h : d.stepNotify c = .ok (d', c', evs)) (hd : d'.st ≠ .done)
    {e : Fault} : ∀ {fuel}, d'.processToDone fuel c' = .error e → d.processToDone (fuel + 1) c = .error e := by
  intro fuel h1
  simp only [Dec.processToDone, h, beq_iff_eq, hd, if_false, h1]

/-- A decoder whose step changes nothing goes on for ever. -/
theorem toDone_stuck {d : Dec} {c : Ctx} (h : d.stepNotify c = .ok (d, c, [])) (hd : d.st ≠ .done) :
    ∀ fuel, d.processToDone fuel c = .error .outOfFuel
  | 0 => rfl
  | fuel + 1 => toDone_step h hd (toDone_stuck h hd fuel)

/-- The decoder before the first byte of the token. -/
def atToken (junk : Dec) (h : Header) : Dec :=
  ⟨.token, h, 4, 0, junk.tbuf, { junk.opt with st := .garbage }, junk.holder⟩

/-- The decoder from the header on. -/
theorem toDone_header (junk : Dec) (b0 b1 b2 b3 : UInt8) (t : List UInt8) (hk : 0 < (b0 &&& 0x0F).toNat) {e : Fault}
    (fuel : Nat)
    (h : (atToken junk ⟨b0, b1, b2, b3⟩).processToDone fuel ⟨b0 :: b1 :: b2 :: b3 :: t, 4, true⟩ = .error e) :
    (Dec.fresh junk).processToDone (fuel + 4) ⟨b0 :: b1 :: b2 :: b3 :: t, 0, true⟩ = .error e := by
  have hgt : (⟨b0, b1, b2, b3⟩ : Header).tokenLength > 0 := by
    rw [gt_iff_lt, UInt8.lt_iff_toNat_lt]; exact hk
  refine toDone_step (d' := { Dec.fresh junk with st := .header, hpos := 0 }) (evs := []) (c' := ⟨b0 :: b1 :: b2 :: b3 :: t, 0, true⟩)
    (by simp [Dec.stepNotify, Dec.step, Dec.fresh, Dec.notify]) (by simp) ?_
  refine toDone_step (d' := { Dec.fresh junk with st := .headerDone, hdr := ⟨b0, b1, b2, b3⟩, hpos := 4 })
    (evs := [.header ⟨b0, b1, b2, b3⟩]) (c' := ⟨b0 :: b1 :: b2 :: b3 :: t, 4, true⟩)
    (by simp [Dec.stepNotify, Dec.step, Dec.fresh, Dec.notify, Ctx.remainder, Dec.headerLoop, Dec.writeHeader]) (by simp) ?_
  refine toDone_step (d' := { Dec.fresh junk with st := .tokenStart, hdr := ⟨b0, b1, b2, b3⟩, hpos := 4 })
    (evs := []) (c' := ⟨b0 :: b1 :: b2 :: b3 :: t, 4, true⟩)
    (by simp only [Dec.stepNotify, Dec.step, hgt, if_true, Dec.notify]) (by simp) ?_
  refine toDone_step (d' := atToken junk ⟨b0, b1, b2, b3⟩) (evs := []) (c' := ⟨b0 :: b1 :: b2 :: b3 :: t, 4, true⟩)
    (by simp only [Dec.stepNotify, Dec.step, Dec.notify]; rfl) (by simp [atToken]) ?_
  exact h

/-- The decoder on a datagram that ends before its token does: no end. -/
theorem toDone_cut (junk : Dec) (hj : junk.tbuf.length = 8) (bytes : List UInt8) (h : bytes.length < 4 + tokenClaim bytes)
    (h13 : bytes.length < 13) (fuel : Nat) (hf : 6 ≤ fuel) :
    (Dec.fresh junk).processToDone fuel ⟨bytes, 0, true⟩ = .error .outOfFuel := by
  obtain ⟨fuel, rfl⟩ : ∃ g, fuel = g + 6 := ⟨fuel - 6, by omega⟩
  by_cases h4 : 4 ≤ bytes.length
  · obtain ⟨b0, b1, b2, b3, t, rfl⟩ := four_bytes bytes h4
    have hk : (b0 &&& 0x0F).toNat = tokenClaim (b0 :: b1 :: b2 :: b3 :: t) := by rw [tkl_toNat]; rfl
    simp only [List.length_cons] at h h13
    refine toDone_header junk b0 b1 b2 b3 t (by omega) _ ?_
    obtain ⟨d', e1, e2, e3⟩ := tokenLoop_cut t (atToken junk ⟨b0, b1, b2, b3⟩) 0
      (by simp only [atToken, tokenLength, hk]; simp; omega) (by simp [atToken]; omega) hj
    refine toDone_step (d' := { d' with st := .token }) (evs := []) (c' := ⟨b0 :: b1 :: b2 :: b3 :: t, 4 + t.length, true⟩) ?_ (by simp) ?_
    · have hs : (atToken junk ⟨b0, b1, b2, b3⟩).st = .token := rfl
      simp only [Dec.stepNotify, Dec.step, hs, Ctx.remainder, List.drop_succ_cons, List.drop_zero, e1, Dec.notify]
      simp
    · apply toDone_stuck _ (by simp)
      simp [Dec.stepNotify, Dec.step, Ctx.remainder, Dec.tokenLoop, Dec.notify, Nat.add_comm 4 t.length, List.drop_succ_cons]
  · refine toDone_step (d' := { Dec.fresh junk with st := .header, hpos := 0 }) (evs := []) (c' := ⟨bytes, 0, true⟩)
      (by simp [Dec.stepNotify, Dec.step, Dec.fresh, Dec.notify]) (by simp) ?_
    have all : ∃ d', ({ Dec.fresh junk with st := .header, hpos := 0 } : Dec).stepNotify ⟨bytes, 0, true⟩ =
        .ok (d', ⟨bytes, bytes.length, true⟩, []) ∧ d'.st = .header := by
      match bytes, h4 with
      | [], _ => exact ⟨_, by simp [Dec.stepNotify, Dec.step, Ctx.remainder, Dec.headerLoop, Dec.notify]; rfl, rfl⟩
      | [a], _ => exact ⟨_, by simp [Dec.stepNotify, Dec.step, Ctx.remainder, Dec.headerLoop, Dec.writeHeader, Dec.notify]; rfl, rfl⟩
      | [a, b], _ => exact ⟨_, by simp [Dec.stepNotify, Dec.step, Ctx.remainder, Dec.headerLoop, Dec.writeHeader, Dec.notify]; rfl, rfl⟩
      | [a, b, c], _ => exact ⟨_, by simp [Dec.stepNotify, Dec.step, Ctx.remainder, Dec.headerLoop, Dec.writeHeader, Dec.notify]; rfl, rfl⟩
      | _ :: _ :: _ :: _ :: _, h => simp at h
    obtain ⟨d', e1, e2⟩ := all
    refine toDone_step e1 (by simp [e2]) (toDone_stuck ?_ (by simp [e2]) _)
    obtain ⟨hst, hdr, hpos, tb, tp, o, ho⟩ := d'
    simp only at e2
    subst e2
    simp [Dec.stepNotify, Dec.step, Ctx.remainder, Dec.headerLoop, Dec.notify]

/-- C87 fails: a datagram that ends before its token does, be it only one byte, keeps the server for ever, whatever its
table is: it is not heard of again. -/
theorem cut_datagram_hangs (bytes : List UInt8) (h : bytes.length < 4 + tokenClaim bytes) (h13 : bytes.length < 13)
    (cap : Nat) (paths : List Uri.Entry) (id : Int) (text jt jv : List UInt8) (junk : Dec) (hj : junk.tbuf.length = 8) (fuel : Nat)
    (hf : 6 ≤ fuel) :
    serve cap paths junk jt fuel bytes = .error .outOfFuel ∧
    serveVersion cap paths id text junk jt jv fuel bytes = .error .outOfFuel := by
  simp only [serve, serveVersion, toDone_cut junk hj bytes h h13 fuel hf, and_self]

/-- C87 fails: a datagram that announces a token of more than eight bytes and carries at least nine makes the server write
behind its token buffer. -/
theorem long_token_datagram_overflows (bytes : List UInt8) (h8 : 8 < tokenClaim bytes) (h13 : 13 ≤ bytes.length)
    (cap : Nat) (paths : List Uri.Entry) (id : Int) (text jt jv : List UInt8) (junk : Dec) (hj : junk.tbuf.length = 8) (fuel : Nat)
    (hf : 5 ≤ fuel) :
    serve cap paths junk jt fuel bytes = .error .tokenOverflow ∧
    serveVersion cap paths id text junk jt jv fuel bytes = .error .tokenOverflow := by
  have : (Dec.fresh junk).processToDone fuel ⟨bytes, 0, true⟩ = .error .tokenOverflow := by
    obtain ⟨fuel, rfl⟩ : ∃ g, fuel = g + 1 + 4 := ⟨fuel - 5, by omega⟩
    obtain ⟨b0, b1, b2, b3, t, rfl⟩ := four_bytes bytes (by omega)
    have hk : (b0 &&& 0x0F).toNat = tokenClaim (b0 :: b1 :: b2 :: b3 :: t) := by rw [tkl_toNat]; rfl
    simp only [List.length_cons] at h13
    refine toDone_header junk b0 b1 b2 b3 t (by omega) _ ?_
    have e1 := tokenLoop_overflow t (atToken junk ⟨b0, b1, b2, b3⟩) 0 (by simp only [atToken, tokenLength, hk]; omega) hj
      (by simp [atToken]) (by simp [atToken]; omega)
    have hs : (atToken junk ⟨b0, b1, b2, b3⟩).st = .token := rfl
    simp only [Dec.processToDone, Dec.stepNotify, Dec.step, hs, Ctx.remainder, List.drop_succ_cons, List.drop_zero, e1]
  simp only [serve, serveVersion, this, and_self]

example : (serve 64 [] Dec.zero (List.replicate 8 0) 300 [0x40] = .error .outOfFuel) ∧
    (serve 64 [] Dec.zero (List.replicate 8 0) 300 (0x49 :: List.replicate 12 1) = .error .tokenOverflow) := by
  decide +kernel

/-- C87: exactly which datagrams the server survives. -/
theorem datagram_survived_iff (bytes : List UInt8) (cap : Nat) (paths : List Uri.Entry) (junk : Dec) (hj : junk.tbuf.length = 8)
    (jt : List UInt8) (hjt : jt.length = 8) :
    (∃ fuel rs, serve cap paths junk jt fuel bytes = .ok rs) ↔ HasToken bytes := by
  refine ⟨fun ⟨fuel, rs, h⟩ => ?_, fun h => ?_⟩
  · have mono : serve cap paths junk jt (fuel + 6) bytes = .ok rs := by
      rw [serve] at h ⊢
      cases hp : Dec.processToDone fuel (Dec.fresh junk) ⟨bytes, 0, true⟩ with
      | error e => rw [hp] at h; cases h
      | ok r => rw [processToDone_mono hp (by omega : fuel ≤ fuel + 6)]; rw [hp] at h; exact h
    refine Classical.byContradiction fun hn => ?_
    by_cases hc : bytes.length < 4 + tokenClaim bytes ∧ bytes.length < 13
    · rw [(cut_datagram_hangs bytes hc.1 hc.2 cap paths 0 [] jt [] junk hj (fuel + 6) (by omega)).1] at mono
      cases mono
    · have h15 : tokenClaim bytes < 16 := Nat.mod_lt _ (by omega)
      have : 8 < tokenClaim bytes ∧ 13 ≤ bytes.length := by
        simp only [HasToken, not_and] at hn hc
        by_cases h1 : 4 + tokenClaim bytes ≤ bytes.length
        · have := hn h1
          exact ⟨by omega, by omega⟩
        · have := hc (by omega)
          exact ⟨by omega, by omega⟩
      rw [(long_token_datagram_overflows bytes this.1 this.2 cap paths 0 [] jt [] junk hj (fuel + 6) (by omega)).1] at mono
      cases mono
  · obtain ⟨pay, d', c', hpay, hall⟩ := datagram_said junk hj bytes h
    obtain ⟨x, hx, -⟩ := said_served cap paths jt hjt bytes h pay hpay
    exact ⟨11 * bytes.length + 65561, x.sent, by simp only [serve, hall _ (Nat.le_refl _), hx]⟩

/-! ## The stream decoder -/

/-- With the stream decoder the server does the same (partial: `in_avail()` is 0 at the end; with a signed character type
no byte of header and token is 0xFF, with an unsigned one header and token are whole). -/
theorem stream_server_same_partial (k : SbKind) (hk : k.endNeg = false) (bytes : List UInt8)
    (hc : if k.charSigned then ∀ b ∈ bytes.take (4 + tokenClaim bytes), b ≠ 0xFF else 4 + tokenClaim bytes ≤ bytes.length)
    (cap : Nat) (paths : List Uri.Entry) (id : Int) (text jt jv : List UInt8) (junk : Dec) (hj : junk.tbuf.length = 8) (fuel : Nat) :
    serveStream k cap paths junk jt fuel bytes = serve cap paths junk jt fuel bytes ∧
    serveVersionStream k cap paths id text junk jt jv fuel bytes = serveVersion cap paths id text junk jt jv fuel bytes := by
  have hh : (bytes.headD 0 &&& 0x0F).toNat = tokenClaim bytes := by
    rw [tkl_toNat, tokenClaim]
    cases bytes <;> rfl
  have h := stream_agrees_partial k hk bytes junk hj (by rw [hh]; exact hc) fuel
  rw [serveStream, serve, serveVersionStream, serveVersion, h]
  cases Dec.processToDone fuel (Dec.fresh junk) ⟨bytes, 0, true⟩ with
  | error e => exact ⟨rfl, rfl⟩
  | ok r => exact ⟨rfl, rfl⟩

example : (if (⟨true, false⟩ : SbKind).charSigned then ∀ b ∈ ([0x41] : List UInt8).take (4 + tokenClaim [0x41]), b ≠ 0xFF
    else 4 + tokenClaim [0x41] ≤ ([0x41] : List UInt8).length) := by decide

/-- C87 fails with a stream whose `in_avail()` is -1 at the end: every well-formed message that ends with an option without
value makes the server read past the end of the datagram. -/
theorem stream_empty_option_overreads (k : SbKind) (hk : k.endNeg = true) {m : Msg} (hm : m.Ok)
    (hc : k.charSigned = true → ∀ b ∈ encHeader m ++ m.token, b ≠ 0xFF) (hp : m.payload = none)
    (ho : ∃ o ∈ m.opts.getLast?, o.value = []) (cap : Nat) (paths : List Uri.Entry) (id : Int) (text jt jv : List UInt8)
    (junk : Dec) (hj : junk.tbuf.length = 8) :
    ∃ N, ∀ fuel, N ≤ fuel → serveStream k cap paths junk jt fuel (encMsg m) = .error .chunkOverread ∧
      serveVersionStream k cap paths id text junk jt jv fuel (encMsg m) = .error .chunkOverread := by
  obtain ⟨N, hN⟩ := stream_end_overread k hk m hm (encOpts 0 m.opts) (isOpts_encOpts 0 m.opts hm.2.2.2.2.2.1) junk hj hc
    (encMsg m) [] (by simp; rfl) hp ho
  refine ⟨N, fun fuel hf => ?_⟩
  simp only [serveStream, serveVersionStream, hN fuel hf, and_self]

example : serveStream ⟨true, true⟩ 64 [] Dec.zero (List.replicate 8 0) 300 [0x40, 1, 0, 1, 0xC0] = .error .chunkOverread := by decide +kernel

theorem bumpc_pad {k : SbKind} (hk : k.charSigned = false) (r : List UInt8) (p : Nat) (h : 0 < r.length + p) :
    ∃ b r' p', Sb.bumpc k ⟨r, []⟩ = (some b, ⟨r', []⟩) ∧
      Sb.bumpc k ⟨r ++ List.replicate p 0xFF, []⟩ = (some b, ⟨r' ++ List.replicate p' 0xFF, []⟩) ∧
      r'.length + p' + 1 = r.length + p ∧ (r = [] → b = 0xFF) ∧ (r' = r.tail) := by
  cases r with
  | nil =>
    obtain ⟨q, rfl⟩ : ∃ q, p = q + 1 := ⟨p - 1, by simp at h; omega⟩
    exact ⟨0xFF, [], q, by simp [Sb.bumpc, Sb.pull, Sb.pullFrom, hk], by simp [Sb.bumpc, Sb.pull, Sb.pullFrom, hk, List.replicate_succ],
      by simp, by simp, rfl⟩
  | cons b r =>
    exact ⟨b, r, p, by simp [Sb.bumpc, Sb.pull, Sb.pullFrom, hk], by simp [Sb.bumpc, Sb.pull, Sb.pullFrom, hk], by simp; omega, by simp, rfl⟩

/-- The token loop does not tell missing bytes from bytes 0xFF. -/
theorem tokenLoop_pad {k : SbKind} (hk : k.charSigned = false) : ∀ (fuel : Nat) (d : Dec) (r : List UInt8) (p : Nat),
    0 < r.length + p → d.tpos.toNat + r.length + p = d.hdr.tokenLength.toNat →
    SDec.tokenLoop k fuel d ⟨r, []⟩ = SDec.tokenLoop k fuel d ⟨r ++ List.replicate p 0xFF, []⟩
  | 0, d, r, p, _, _ => rfl
  | fuel + 1, d, r, p, h, ht => by
    obtain ⟨b, r', p', e1, e2, e3, -, -⟩ := bumpc_pad hk r p h
    rw [SDec.tokenLoop, SDec.tokenLoop, e1, e2]
    simp only
    cases hw : writeAt d.tbuf d.tpos.toNat b with
    | none => rfl
    | some tb =>
      simp only
      have h15 : d.hdr.tokenLength.toNat ≤ 15 := by rw [tokenLength, show (15 : UInt8) = 0x0F from rfl, tkl_toNat]; omega
      have hadd : (d.tpos + 1).toNat = d.tpos.toNat + 1 := by rw [UInt8.toNat_add]; simp; omega
      by_cases hd : d.tpos + 1 ≥ d.hdr.tokenLength
      · rw [ge_iff_le, UInt8.le_iff_toNat_le, hadd] at hd
        have hr : r' = [] := List.length_eq_zero_iff.mp (by omega)
        have hp : p' = 0 := by omega
        subst hr hp
        rfl
      · simp only [hd, if_false]
        have hd' := hd
        rw [ge_iff_le, UInt8.le_iff_toNat_le, hadd] at hd'
        exact tokenLoop_pad hk fuel _ r' p' (by omega) (by simp only [hadd]; omega)

/-- The token step, on missing bytes and on bytes 0xFF. -/
theorem toDone_pad_token {k : SbKind} (hk : k.charSigned = false) (fuel : Nat) (d : Dec) (hs : d.st = .token) (h0 : d.tpos = 0)
    (r : List UInt8) (p : Nat) (hp : 0 < r.length + p) (ht : r.length + p = d.hdr.tokenLength.toNat) :
    SDec.processToDone k fuel d ⟨r, []⟩ = SDec.processToDone k fuel d ⟨r ++ List.replicate p 0xFF, []⟩ := by
  cases fuel with
  | zero => rfl
  | succ fuel =>
    have e := tokenLoop_pad hk 17 d r p hp (by rw [h0]; simp; omega)
    have pl : ∀ l : List UInt8, (⟨l, []⟩ : Sb).pull = ⟨l, []⟩ := by intro l; cases l <;> rfl
    rw [SDec.processToDone, SDec.processToDone, SDec.stepNotify, SDec.stepNotify]
    simp only [SDec.step, hs, pl, e]
    cases SDec.tokenLoop k 17 d ⟨r ++ List.replicate p 0xFF, []⟩ with
    | error e => rfl
    | ok v =>
      obtain ⟨d', s', pd⟩ := v
      simp only
      cases SDec.notify { d' with st := if pd = true then .tokenDone else .token } s' with
      | error e => rfl
      | ok w => rfl

/-- From the header on. -/
theorem toDone_pad_rest {k : SbKind} (hk : k.charSigned = false) : ∀ (fuel : Nat) (d : Dec), d.st = .headerDone ∨ d.st = .tokenStart →
    ∀ (r : List UInt8) (p : Nat), (0 < p → r.length + p = d.hdr.tokenLength.toNat) →
    SDec.processToDone k fuel d ⟨r, []⟩ = SDec.processToDone k fuel d ⟨r ++ List.replicate p 0xFF, []⟩
  | 0, d, _, r, p, _ => rfl
  | fuel + 1, d, hs, r, p, ht => by
    by_cases hp : p = 0
    · subst hp; simp
    have ht := ht (by omega)
    have pl : ∀ l : List UInt8, (⟨l, []⟩ : Sb).pull = ⟨l, []⟩ := by intro l; cases l <;> rfl
    have hgt : d.hdr.tokenLength > 0 := by rw [gt_iff_lt, UInt8.lt_iff_toNat_lt, ← ht]; simp; omega
    rcases hs with hs | hs
    · have := toDone_pad_rest hk fuel { d with st := .tokenStart } (Or.inr rfl) r p (fun _ => ht)
      rw [SDec.processToDone, SDec.processToDone, SDec.stepNotify, SDec.stepNotify]
      simp only [SDec.step, hs, pl, hgt, if_true, SDec.notify]
      simp [this]
    · have := toDone_pad_token hk fuel { d with st := .token, tpos := 0, opt := { d.opt with st := .garbage } } rfl rfl r p (by omega) ht
      rw [SDec.processToDone, SDec.processToDone, SDec.stepNotify, SDec.stepNotify]
      simp only [SDec.step, hs, pl, SDec.notify]
      simp [this]

/-- A stream decoder for unsigned characters does not tell a datagram that ends before its token does from the one that
goes on with bytes 0xFF up to there. -/
theorem toDone_pad {k : SbKind} (hk : k.charSigned = false) (bytes : List UInt8) (hne : bytes ≠ []) (junk : Dec) (fuel : Nat) :
    SDec.processToDone k fuel (Dec.fresh junk) ⟨bytes, []⟩ =
      SDec.processToDone k fuel (Dec.fresh junk) ⟨bytes ++ List.replicate (4 + tokenClaim bytes - bytes.length) 0xFF, []⟩ := by
  have pl : ∀ l : List UInt8, (⟨l, []⟩ : Sb).pull = ⟨l, []⟩ := by intro l; cases l <;> rfl
  have step1 : ∀ (l : List UInt8) (f : Nat), SDec.processToDone k (f + 1) (Dec.fresh junk) ⟨l, []⟩ =
      SDec.processToDone k f { Dec.fresh junk with st := .header, hpos := 0 } ⟨l, []⟩ := by
    intro l f
    rw [SDec.processToDone, SDec.stepNotify]
    simp only [SDec.step, pl, Dec.fresh, SDec.notify]
    cases SDec.processToDone k f { junk with st := .header, hpos := 0 } ⟨l, []⟩ with
    | error e => simp
    | ok v => simp
  have loop : ∀ (b0 : UInt8) (l : List UInt8), tokenClaim (b0 :: l) = tokenClaim bytes → bytes = b0 :: l →
      ∃ h r p, h.b0 = b0 ∧ (0 < p → r.length + p = tokenClaim bytes) ∧
        (∀ d : Dec, d.hpos = 0 → SDec.headerLoop k 5 d ⟨bytes, []⟩ = .ok ({ d with hdr := h, hpos := 4 }, ⟨r, []⟩, true)) ∧
        (∀ d : Dec, d.hpos = 0 → SDec.headerLoop k 5 d ⟨bytes ++ List.replicate (4 + tokenClaim bytes - bytes.length) 0xFF, []⟩ =
          .ok ({ d with hdr := h, hpos := 4 }, ⟨r ++ List.replicate p 0xFF, []⟩, true)) := by
    intro b0 l _ hb
    generalize hT : tokenClaim bytes = T
    match l with
    | [] =>
      refine ⟨⟨b0, 0xFF, 0xFF, 0xFF⟩, [], T, rfl, by simp, ?_, ?_⟩
      · intro d hd
        simp [hb, SDec.headerLoop, Sb.bumpc, Sb.pull, Sb.pullFrom, hk, hd, Dec.writeHeader]
      · intro d hd
        rw [hb, show 4 + T - [b0].length = T + 1 + 1 + 1 by simp; omega]
        simp [SDec.headerLoop, Sb.bumpc, Sb.pull, Sb.pullFrom, hk, hd, Dec.writeHeader, List.replicate_succ]
    | [b1] =>
      refine ⟨⟨b0, b1, 0xFF, 0xFF⟩, [], T, rfl, by simp, ?_, ?_⟩
      · intro d hd
        simp [hb, SDec.headerLoop, Sb.bumpc, Sb.pull, Sb.pullFrom, hk, hd, Dec.writeHeader]
      · intro d hd
        rw [hb, show 4 + T - [b0, b1].length = T + 1 + 1 by simp; omega]
        simp [SDec.headerLoop, Sb.bumpc, Sb.pull, Sb.pullFrom, hk, hd, Dec.writeHeader, List.replicate_succ]
    | [b1, b2] =>
      refine ⟨⟨b0, b1, b2, 0xFF⟩, [], T, rfl, by simp, ?_, ?_⟩
      · intro d hd
        simp [hb, SDec.headerLoop, Sb.bumpc, Sb.pull, Sb.pullFrom, hk, hd, Dec.writeHeader]
      · intro d hd
        rw [hb, show 4 + T - [b0, b1, b2].length = T + 1 by simp; omega]
        simp [SDec.headerLoop, Sb.bumpc, Sb.pull, Sb.pullFrom, hk, hd, Dec.writeHeader, List.replicate_succ]
    | b1 :: b2 :: b3 :: t =>
      refine ⟨⟨b0, b1, b2, b3⟩, t, T - t.length, rfl, by omega, ?_, ?_⟩
      · intro d hd
        simp [hb, SDec.headerLoop, Sb.bumpc, Sb.pull, Sb.pullFrom, hk, hd, Dec.writeHeader]
      · intro d hd
        rw [hb, show 4 + T - (b0 :: b1 :: b2 :: b3 :: t).length = T - t.length by simp; omega]
        simp [SDec.headerLoop, Sb.bumpc, Sb.pull, Sb.pullFrom, hk, hd, Dec.writeHeader]
  obtain ⟨b0, l, hb⟩ : ∃ b0 l, bytes = b0 :: l := by
    cases bytes with
    | nil => exact absurd rfl hne
    | cons b0 l => exact ⟨b0, l, rfl⟩
  obtain ⟨h, r, p, h0, hp, e1, e2⟩ := loop b0 l (by rw [hb]) hb
  match fuel with
  | 0 => rfl
  | 1 => rw [step1, step1]; rfl
  | fuel + 2 =>
    rw [step1, step1, SDec.processToDone, SDec.processToDone, SDec.stepNotify, SDec.stepNotify]
    simp only [SDec.step, pl]
    rw [e1 _ rfl, e2 _ rfl]
    simp only [SDec.notify]
    have htk : tokenClaim bytes = h.tokenLength.toNat := by
      rw [tokenLength, show (15 : UInt8) = 0x0F from rfl, tkl_toNat, h0, hb]; rfl
    have := toDone_pad_rest hk fuel { Dec.fresh junk with st := .headerDone, hdr := h, hpos := 4 } (Or.inl rfl) r p
      (fun h => by rw [hp h, htk])
    simp only [if_true]
    rw [this]

/-- As it does not tell no byte from the byte 0xFF. -/
theorem toDone_pad_empty {k : SbKind} (hk : k.charSigned = false) (junk : Dec) (fuel : Nat) :
    SDec.processToDone k fuel (Dec.fresh junk) ⟨[], []⟩ = SDec.processToDone k fuel (Dec.fresh junk) ⟨[0xFF], []⟩ := by
  have pl : ∀ l : List UInt8, (⟨l, []⟩ : Sb).pull = ⟨l, []⟩ := by intro l; cases l <;> rfl
  have step1 : ∀ (l : List UInt8) (f : Nat), SDec.processToDone k (f + 1) (Dec.fresh junk) ⟨l, []⟩ =
      SDec.processToDone k f { Dec.fresh junk with st := .header, hpos := 0 } ⟨l, []⟩ := by
    intro l f
    rw [SDec.processToDone, SDec.stepNotify]
    simp only [SDec.step, pl, Dec.fresh, SDec.notify]
    cases SDec.processToDone k f { junk with st := .header, hpos := 0 } ⟨l, []⟩ with
    | error e => simp
    | ok v => simp
  have e : ∀ d : Dec, d.hpos = 0 → SDec.headerLoop k 5 d ⟨[], []⟩ = SDec.headerLoop k 5 d ⟨[0xFF], []⟩ := by
    intro d hd
    simp [SDec.headerLoop, Sb.bumpc, Sb.pull, Sb.pullFrom, hk, hd, Dec.writeHeader]
  match fuel with
  | 0 => rfl
  | 1 => rw [step1, step1]; rfl
  | fuel + 2 =>
    rw [step1, step1, SDec.processToDone, SDec.processToDone, SDec.stepNotify, SDec.stepNotify]
    simp only [SDec.step, pl]
    rw [e _ rfl]
    generalize SDec.headerLoop k 5 _ ⟨[0xFF], []⟩ = res
    cases res with
    | error e => rfl
    | ok v =>
      obtain ⟨d', s', pd⟩ := v
      simp only
      cases SDec.notify { d' with st := if pd = true then .headerDone else .header } s' with
      | error e => rfl
      | ok w => rfl

/-- The datagram as a stream decoder for unsigned characters takes it: filled up with bytes 0xFF to the end of the
token. -/
def filledUp (bytes : List UInt8) : List UInt8 := bytes ++ List.replicate (4 + tokenClaim bytes - bytes.length) 0xFF

theorem filledUp_claim {bytes : List UInt8} (h : bytes ≠ []) :
    tokenClaim (filledUp bytes) = tokenClaim bytes ∧ 4 + tokenClaim bytes ≤ (filledUp bytes).length := by
  cases bytes with
  | nil => exact absurd rfl h
  | cons b bs => exact ⟨rfl, by simp only [filledUp, List.length_append, List.length_replicate]; omega⟩

theorem stream_filled {k : SbKind} (hk : k.charSigned = false) (he : k.endNeg = false) (bytes : List UInt8) (hne : bytes ≠ [])
    (cap : Nat) (paths : List Uri.Entry) (id : Int) (text jt jv : List UInt8) (junk : Dec) (hj : junk.tbuf.length = 8) (fuel : Nat) :
    serveStream k cap paths junk jt fuel bytes = serve cap paths junk jt fuel (filledUp bytes) ∧
    serveVersionStream k cap paths id text junk jt jv fuel bytes = serveVersion cap paths id text junk jt jv fuel (filledUp bytes) := by
  obtain ⟨h1, h2⟩ := filledUp_claim hne
  have h := stream_server_same_partial k he (filledUp bytes) (by rw [hk, h1]; exact h2) cap paths id text jt jv junk hj fuel
  rw [← h.1, ← h.2]
  refine ⟨?_, ?_⟩
  · rw [serveStream, serveStream, toDone_pad hk bytes hne junk fuel]; rfl
  · rw [serveVersionStream, serveVersionStream, toDone_pad hk bytes hne junk fuel]; rfl

/-- C87 fails with a stream decoder for unsigned characters: a datagram that ends before its token does is answered like
one that goes on with bytes 0xFF: with a message id, a token or both that nobody sent. -/
theorem stream_cut_answered {k : SbKind} (hk : k.charSigned = false) (he : k.endNeg = false) (bytes : List UInt8) (hne : bytes ≠ [])
    (hc : bytes.length < 4 + tokenClaim bytes) (h8 : tokenClaim bytes ≤ 8) {cap : Nat} (hcap : 4 + tokenClaim bytes ≤ cap)
    {paths : List Uri.Entry} (hpf : ParentsFirst paths) (jt : List UInt8) (hjt : jt.length = 8) (junk : Dec) (hj : junk.tbuf.length = 8)
    (fuel : Nat) (hf : 65693 ≤ fuel) :
    serveStream k cap paths junk jt fuel bytes = .ok [ackHead (filledUp bytes) 0x84 ++ tokenOf (filledUp bytes)] := by
  obtain ⟨h1, h2⟩ := filledUp_claim hne
  have hl : (filledUp bytes).length = 4 + tokenClaim bytes := by
    simp only [filledUp, List.length_append, List.length_replicate]; omega
  rw [(stream_filled hk he bytes hne cap paths 0 [] jt [] junk hj fuel).1]
  refine (any_datagram_served_partial (filledUp bytes) ⟨by rw [h1]; exact h2, by rw [h1]; exact h8⟩ (by rw [h1]; exact hcap) hpf junk hj jt hjt
    fuel (by omega)).2 fun q hq hd => hq ?_
  have hp : pathIn (filledUp bytes) = [] := by
    have : behindToken (filledUp bytes) = [] := by rw [behindToken, h1]; exact List.drop_of_length_le (by omega)
    simp only [pathIn, this, readRest_nil]
    rfl
  rw [hp] at hd
  cases hd
  rfl

/-- C87 fails with a stream decoder for unsigned characters: an empty datagram, and one that announces a token of more
than eight bytes, however short it is, make the server write behind its token buffer. -/
theorem stream_long_token_datagram {k : SbKind} (hk : k.charSigned = false) (he : k.endNeg = false) (bytes : List UInt8)
    (h : bytes = [] ∨ 8 < tokenClaim bytes) (cap : Nat) (paths : List Uri.Entry) (jt : List UInt8) (junk : Dec)
    (hj : junk.tbuf.length = 8) (fuel : Nat) (hf : 5 ≤ fuel) :
    serveStream k cap paths junk jt fuel bytes = .error .tokenOverflow := by
  have main : ∀ bs : List UInt8, bs ≠ [] → 8 < tokenClaim bs → serveStream k cap paths junk jt fuel bs = .error .tokenOverflow := by
    intro bs hne h8
    obtain ⟨h1, h2⟩ := filledUp_claim hne
    rw [(stream_filled hk he bs hne cap paths 0 [] jt [] junk hj fuel).1]
    exact (long_token_datagram_overflows (filledUp bs) (by rw [h1]; exact h8) (by omega) cap paths 0 [] jt [] junk hj fuel hf).1
  by_cases hne : bytes = []
  · subst hne
    rw [← main [0xFF] (by simp) (by decide), serveStream, serveStream, toDone_pad_empty hk]
  · exact main bytes hne (h.resolve_left hne)

/-- C87 fails: with a stream decoder for unsigned characters the server survives exactly the datagrams that are not empty
and announce a token of at most eight bytes. -/
theorem stream_survived_iff {k : SbKind} (hk : k.charSigned = false) (he : k.endNeg = false) (bytes : List UInt8) (cap : Nat)
    (paths : List Uri.Entry) (junk : Dec) (hj : junk.tbuf.length = 8) (jt : List UInt8) (hjt : jt.length = 8) :
    (∃ fuel rs, serveStream k cap paths junk jt fuel bytes = .ok rs) ↔ bytes ≠ [] ∧ tokenClaim bytes ≤ 8 := by
  have main : ∀ bs : List UInt8, bs ≠ [] → ((∃ fuel rs, serveStream k cap paths junk jt fuel bs = .ok rs) ↔ tokenClaim bs ≤ 8) := by
    intro bs hne
    obtain ⟨h1, h2⟩ := filledUp_claim hne
    have hi := datagram_survived_iff (filledUp bs) cap paths junk hj jt hjt
    simp only [(stream_filled hk he bs hne cap paths 0 [] jt [] junk hj _).1]
    rw [hi]
    exact ⟨fun h => by have := h.2; rw [h1] at this; exact this, fun h => ⟨by rw [h1]; exact h2, by rw [h1]; exact h⟩⟩
  by_cases hne : bytes = []
  · subst hne
    refine ⟨fun ⟨fuel, rs, h⟩ => ?_, fun h => absurd rfl h.1⟩
    rw [serveStream, toDone_pad_empty hk] at h
    have := (main [0xFF] (by simp)).1 ⟨fuel, rs, by rw [serveStream]; exact h⟩
    exact absurd this (by decide)
  · exact (main bytes hne).trans ⟨fun h => ⟨hne, h⟩, fun h => h.2⟩

example : serveStream ⟨false, false⟩ 64 [] Dec.zero (List.replicate 8 0) 300 [0x41, 1, 0x12] = .ok [[0x61, 0x84, 0x12, 0xFF, 0xFF]] ∧
    serveStream ⟨false, false⟩ 64 [] Dec.zero (List.replicate 8 0) 300 [] = .error .tokenOverflow ∧
    serveStream ⟨true, false⟩ 64 [] Dec.zero (List.replicate 8 0) 300 [] = .error .outOfFuel := by decide +kernel

end Verif.Props
