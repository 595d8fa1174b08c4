import Verif.Proofs.StreamEnd
import Verif.Props.DecoderMessage
import Verif.Props.DecoderCuts

/-! # The stream decoder (C27) -/
namespace Verif.Props
open Verif.Model Verif.Proofs Verif.Spec Header Dec

theorem toDone_same (k : SbKind) (hk : k.endNeg = false) (fuel : Nat) (d : Dec) (c : Ctx) (s : Sb) (hi : DInv d c) (hs : Same d c s)
    (hc : StreamClean k d c.remainder) :
    SDec.processToDone k fuel d s =
      match Dec.processToDone fuel d c with
      | .error e => .error e
      | .ok (d', _, evs) => .ok (d', evs) := by
  induction fuel generalizing d c s with
  | zero => rfl
  | succ n ih =>
    have h := stepNotify_same k hk d c s hi hs hc
    rw [SDec.processToDone, Dec.processToDone]
    cases hd : d.stepNotify c with
    | error e => simp only [hd] at h ⊢; rw [h]
    | ok x =>
      obtain ⟨d', c', evs⟩ := x
      simp only [hd] at h ⊢
      obtain ⟨s', eof, e, hr⟩ := h
      rw [e]
      simp only
      by_cases hdn : d'.st = .done
      · simp [hdn]
      · obtain ⟨hs', hc'⟩ := hr hdn
        have hi' : DInv d' c' := by
          rcases stepNotify_inv d c hi with ⟨e', _⟩ | ⟨d2, c2, evs2, e', hi2, _⟩
          · rw [e'] at hd; cases hd
          · rw [e'] at hd; cases hd; exact hi2
        simp only [beq_eq_false_iff_ne.2 hdn, Bool.false_eq_true, if_false]
        rw [ih d' c' s' hi' hs' hc']
        cases Dec.processToDone n d' c' with
        | error e => rfl
        | ok x => rfl

/-- C27 for arbitrary bytes (partial: with a signed character type no byte of header and token is 0xFF; with
an unsigned one header and token are complete; `in_avail()` is 0 at the end): decoding from a stream and
decoding from a buffer report the same events in the same order, end in the same state and take equally many
steps; or both never complete; or both overflow the token buffer. -/
theorem stream_agrees_partial (k : SbKind) (hk : k.endNeg = false) (bytes : List UInt8) (junk : Dec) (hj : junk.tbuf.length = 8)
    (hc : if k.charSigned then ∀ b ∈ bytes.take (4 + (bytes.headD 0 &&& 0x0F).toNat), b ≠ 0xFF
      else 4 + (bytes.headD 0 &&& 0x0F).toNat ≤ bytes.length) (fuel : Nat) :
    SDec.processToDone k fuel (fresh junk) ⟨bytes, []⟩ =
      match Dec.processToDone fuel (fresh junk) ⟨bytes, 0, true⟩ with
      | .error e => .error e
      | .ok (d', _, evs) => .ok (d', evs) :=
  toDone_same k hk fuel (fresh junk) ⟨bytes, 0, true⟩ ⟨bytes, []⟩ (reach_inv (Reach.init junk _ true hj))
    ⟨rfl, rfl, by simp [fresh, Ctx.remainder]⟩ hc

/-- After a well-formed message without payload the decoder still waits for more options exactly if the last option has
an empty value. -/
theorem wire_end_options (m : Msg) (hm : m.Ok) (ob : List UInt8) (hob : IsOpts 0 m.opts ob) (junk : Dec)
    (hj : junk.tbuf.length = 8) (hp : m.payload = none) :
    ((fin true [] (feed true (fresh junk) (wire m ob)).2.1).st = .options ↔ ∃ o ∈ m.opts.getLast?, o.value = []) := by
  obtain ⟨h1, h2, h3, h4, h5, h6, h7⟩ := hm
  generalize hb0 : UInt8.ofNat (64 * m.version + 16 * m.type + m.token.length) = b0
  have htk : (b0 &&& 0x0F).toNat = m.token.length := by
    have : (b0 &&& 0x0F).toNat = b0.toNat % 16 := by
      rw [UInt8.toNat_and]; exact Nat.and_two_pow_sub_one_eq_mod b0.toNat 4
    rw [this, ← hb0, UInt8.toNat_ofNat']; omega
  have henc : wire m ob = b0 :: UInt8.ofNat m.code :: UInt8.ofNat (m.mid / 256) :: UInt8.ofNat (m.mid % 256) ::
      (m.token ++ ob) := by simp [wire, encHeader, hb0, hp, encPayload]
  rw [henc, header_feed true (fresh junk) _ _ _ _ _ rfl]
  generalize hH : (⟨b0, UInt8.ofNat m.code, UInt8.ofNat (m.mid / 256), UInt8.ofNat (m.mid % 256)⟩ : Header) = H
  have hHt : H.tokenLength.toNat = m.token.length := by rw [← hH]; exact htk
  generalize hd1 : ({ fresh junk with st := .headerDone, hdr := H, hpos := 4 } : Dec) = d1
  have hd1s : d1.st = .headerDone := by rw [← hd1]
  have hd1h : d1.hdr = H := by rw [← hd1]
  have hd1b : d1.tbuf.length = 8 := by rw [← hd1]; exact hj
  have after : ∀ d2 : Dec, d2.st = .tokenDone → m.opts ≠ [] →
      ((fin true [] (feed true d2 ob).2.1).st = .options ↔ ∃ o ∈ m.opts.getLast?, o.value = []) := by
    intro d2 hs2 hos
    have hemp : ob ≠ [] := fun h => hos (hob.nil_iff.1 h)
    rw [start_feed true d2 _ hs2 hemp]
    obtain ⟨o', h', es, hfe, hcase⟩ := wire_options_feed_end true m.opts 0
      { d2 with st := .options, opt := { d2.opt with st := .firstByte }, holder := ⟨0, 0⟩ } rfl (Or.inl rfl) rfl ob hob hos
    rw [hfe]
    rcases hcase with ⟨he, hov, hlst⟩ | ⟨n, he, hhe, hh'⟩
    · simp only [fin, hov, and_self, if_true]
      constructor
      · intro h; cases h
      · rintro ⟨o, ho, hv⟩; exact absurd hv (hlst o ho).1
    · have := hhe.2.2.1
      simp only [fin, this, and_false, if_false]
      exact ⟨fun _ => optEvents_last he, fun _ => trivial⟩
  have none_ : ∀ d2 : Dec, d2.st ≠ .options → m.opts = [] →
      ((fin true [] d2).st = .options ↔ ∃ o ∈ m.opts.getLast?, o.value = []) := by
    intro d2 hs2 hos
    rw [fin_of_ne hs2, hos]
    simp [hs2]
  by_cases htn : m.token = []
  · rw [htn, List.nil_append]
    rw [htn, List.length_nil] at hHt
    by_cases hos : m.opts = []
    · have hob' : ob = [] := hob.nil_iff.2 hos
      subst hob'
      rw [feed_nil]
      exact none_ d1 (by simp [hd1s]) hos
    · have hemp : ob ≠ [] := fun h => hos (hob.nil_iff.1 h)
      rw [token_feed_empty true d1 _ hd1s (by rw [hd1h]; exact hHt) hemp]
      exact after { d1 with st := .tokenDone } rfl hos
  · obtain ⟨d2, e1, e2, e3, e4, e5⟩ := token_feed true m.token d1 ob hd1s htn (by rw [hd1h]; exact hHt) h5 hd1b
    rw [e5]
    by_cases hos : m.opts = []
    · have hob' : ob = [] := hob.nil_iff.2 hos
      subst hob'
      rw [feed_nil]
      exact none_ d2 (by simp [e1]) hos
    · exact after d2 e1 hos

/-- Payload events that follow one another, put together. -/
def glue : List Event → List Event
  | .payload a _ :: .payload b l :: es => glue (.payload (a ++ b) l :: es)
  | e :: es => e :: glue es
  | [] => []
termination_by es => es.length

theorem glue_noPay (a b : List Event) (h : NoPay a) : glue (a ++ b) = a ++ glue b := by
  induction a with
  | nil => rfl
  | cons e a ih =>
    have := ih (fun x hx => h x (by simp [hx]))
    have he : ∀ c l, e ≠ .payload c l := h e (by simp)
    cases e <;> simp_all [glue]

theorem glue_pays (c : List UInt8) (more : List (List UInt8)) :
    glue (.payload c (more.all (·.isEmpty)) :: (pays more ++ [.completed])) = [.payload (c ++ more.flatten) true, .completed] := by
  induction more generalizing c with
  | nil => simp [pays, glue]
  | cons x m ih =>
    cases x with
    | nil => simpa [pays] using ih c
    | cons b x =>
      have : pays ((b :: x) :: m) = .payload (b :: x) (m.all (·.isEmpty)) :: pays m := by simp [pays]
      rw [this, List.cons_append, glue, ih]
      simp

theorem Parts.noPay {a b : List Event} (h : Parts a b) (hn : NoPay a) : NoPay b := by
  induction h with
  | nil => exact hn
  | @cons e f es fs p _ ih =>
    have h2 := ih (fun x hx => hn x (by simp [hx]))
    intro x hx
    rcases List.mem_cons.1 hx with rfl | hx
    · have he := hn e (by simp)
      cases e <;> simp only [Part] at p
      case option n v l => obtain ⟨v', l', rfl, -⟩ := p; simp
      all_goals (subst p; exact he)
    · exact h2 x hx

theorem glue_delivery (m : Msg) : glue (delivery m) = delivery m := by
  unfold delivery
  rw [List.append_assoc, glue_noPay]
  · cases m.payload <;> simp [glue]
  · intro e he c l
    simp only [List.mem_append, List.mem_cons, List.mem_map, List.not_mem_nil, or_false] at he
    rcases he with ((rfl | rfl | rfl) | ⟨o, -, rfl⟩) | rfl <;> simp

/-- A decoder that stands at the end of all segments finishes as it does on one buffer. -/
theorem finish_stream {k : SbKind} {n : Nat} {d : Dec} {e : List Event} (hk : k.endNeg = false ∨ d.st ≠ .options) (hi : SegInv k d [])
    (hs : d.st ≠ .payload) (hf : Finish n d ⟨[], 0, true⟩ e) (s : Sb) (ht : total s = []) :
    ∃ d', d'.st = .done ∧ ∀ f, SDec.processToDone k (n + f) d s = .ok (d', e) := by
  obtain ⟨d', hd', hall⟩ := hf
  refine ⟨d', hd', fun f => ?_⟩
  have hp : SDec.processToDone k (n + f) d s = SDec.processToDone k (n + f) d ⟨[], []⟩ := by
    have : s.pull = (⟨[], []⟩ : Sb).pull := by
      rw [pull_nil ((pull_nil_iff s).2 ht), pull_one]
    cases n + f with
    | zero => rfl
    | succ g => simp only [SDec.processToDone, SDec.stepNotify, SDec.step, this]
  have hz : SDec.processToDone k (n + f) d ⟨[], []⟩ = SDec.processToDone (zeroEnd k) (n + f) d ⟨[], []⟩ := by
    rcases hk with hk | hk
    · rw [show zeroEnd k = k by rw [zeroEnd, ← hk]]
    · exact (toDone_zeroEnd_end k (n + f) d ⟨[], []⟩ hk rfl).symm
  rw [hp, hz, toDone_same (zeroEnd k) rfl (n + f) d ⟨[], 0, true⟩ ⟨[], []⟩ hi.inv ⟨rfl, rfl, by rw [if_neg hs]; rfl⟩ hi.clean, hall f]

/-- Where a message may end for a stream whose `in_avail()` is -1 at the end: behind a payload, an option with a value, the
token or the header, but not behind an option without value. -/
def EndOk (k : SbKind) (m : Msg) : Prop :=
  k.endNeg = false ∨ m.payload ≠ none ∨ ∀ o ∈ m.opts.getLast?, o.value ≠ []

instance (k : SbKind) (m : Msg) : Decidable (EndOk k m) := by unfold EndOk; infer_instance

/-- C27 for a stream in several segments (partial: exclusions as in `stream_message_delivered_partial`): a
well-formed message that arrives in any number of segments, empty ones included and cut anywhere, is decoded to
completion.  Header, token, option numbers and the bytes of the payload come out exactly; the payload is reported
segment by segment.  Only the value of an option that is cut is reported up to the cut, flagged as not complete. -/
theorem stream_segments_delivered_partial (k : SbKind) (m : Msg) (hk : EndOk k m) (hm : m.Ok) (junk : Dec)
    (hj : junk.tbuf.length = 8) (hst : junk.opt.st ≠ .payload ∨ m.token ≠ [] ∨ m.opts ≠ [] ∨ m.payload ≠ none)
    (hc : k.charSigned = true → ∀ b ∈ encHeader m ++ m.token, b ≠ 0xFF)
    (cur : List UInt8) (more : List (List UInt8)) (hcut : cur ++ more.flatten = encMsg m) :
    ∃ N d' evs, d'.st = .done ∧ Parts (glue evs) (delivery m) ∧
      ∀ fuel, N ≤ fuel → SDec.processToDone k fuel (fresh junk) ⟨cur, more⟩ = .ok (d', evs) := by
  obtain ⟨hi, hh, hne, hg, n, e, -, hnd, hf, he, hlast, hrest⟩ := message_chunkEnd m hm junk hj hst
  have htl : (UInt8.ofNat (64 * m.version + 16 * m.type + m.token.length) &&& 0x0F).toNat = m.token.length := by
    obtain ⟨h1, h2, h3, h4, h5, -⟩ := hm
    rw [tkl_toNat]; simp; omega
  have hem : encMsg m = encHeader m ++ m.token ++ (encOpts 0 m.opts ++ encPayload m.payload) := by simp [encMsg]
  have hl : (encHeader m).length = 4 := rfl
  have hhd : (encMsg m).headD 0 = UInt8.ofNat (64 * m.version + 16 * m.type + m.token.length) := rfl
  have htot : total ⟨cur, more⟩ = encMsg m := hcut
  have hcl : StreamClean k (fresh junk) (encMsg m) := by
    show Clean k (4 + ((encMsg m).headD 0 &&& 0x0F).toNat) (encMsg m)
    rw [hhd, htl, Clean]
    cases hs : k.charSigned with
    | false => simp [hem, hl]
    | true =>
      rw [if_pos rfl, hem, List.take_left' (by simp [hl])]
      exact hc hs
  have hrun := seg_run k (fresh junk) ⟨cur, more⟩ (by rw [htot]; exact ⟨hi, hh, hcl⟩) hg (by rw [htot]; exact hne)
  rw [htot] at hrun
  rcases hrun with ⟨h1, n1, evs, s', a1, a2, -, a3, a4, a5⟩ | ⟨h1, n1, fr, ffr, s', a1, a2, -, a3, -, a4, a5, a6⟩
  · have hce : chunkEnd true (feed true (fresh junk) (encMsg m)) =
        ((feed true (fresh junk) (encMsg m)).1 ++ finEv true [] (feed true (fresh junk) (encMsg m)).2.1,
          fin true [] (feed true (fresh junk) (encMsg m)).2.1) := by simp [chunkEnd, h1]
    rw [hce] at hnd hf he
    have hnp : (fin true [] (feed true (fresh junk) (encMsg m)).2.1).st ≠ .payload := by
      unfold fin; split
      · simp
      · exact h1
    have hpn : m.payload = none := by
      refine Classical.byContradiction fun hp => h1 ?_
      obtain ⟨p, hp'⟩ := Option.ne_none_iff_exists'.1 hp
      have hpne : p ≠ [] := by intro h; rw [h] at hp'; exact hm.2.2.2.2.2.2 hp'
      obtain ⟨X, X', -, -, -, i4, -⟩ := feed_append_pay true true (fresh junk) (encMsg m) [] hg
        (by rw [hrest, hp']; exact hpne)
      exact i4
    have hend : k.endNeg = false ∨ (fin true [] (feed true (fresh junk) (encMsg m)).2.1).st ≠ .options := by
      rcases hk with hk | hk | hk
      · exact Or.inl hk
      · exact absurd hpn hk
      · refine Or.inr fun h => ?_
        obtain ⟨o, ho, hv⟩ := (wire_end_options m hm (encOpts 0 m.opts) (isOpts_encOpts 0 m.opts hm.2.2.2.2.2.1) junk hj hpn).1 h
        exact hk o ho hv
    obtain ⟨d', hd', hall⟩ := finish_stream hend a4 hnp (hf _ ⟨rfl, rfl⟩) s' a1
    refine ⟨n1 + n, d', evs ++ e, hd', ?_, fun fuel hfu => ?_⟩
    · have hx : NoPay ((feed true (fresh junk) (encMsg m)).1 ++ finEv true [] (feed true (fresh junk) (encMsg m)).2.1) := by
        exact Parts.noPay a3 a2
      have hge : glue e = e := by
        have h2 : glue (delivery m) = delivery m := glue_delivery m
        rw [← he, glue_noPay _ _ hx] at h2
        exact List.append_cancel_left h2
      rw [glue_noPay _ _ a2, hge, ← he]
      exact a3.append (Parts.refl e)
    · obtain ⟨g, rfl⟩ := Nat.exists_eq_add_of_le hfu
      rw [Nat.add_assoc, a5, hall]; rfl
  · have hre : (feed true (fresh junk) (encMsg m)).2.2 ≠ [] := by
      rw [← a4]; intro h; exact a5 (List.append_eq_nil_iff.1 h).1
    have hpn : m.payload ≠ none := by
      intro h; rw [hrest, h] at hre; exact hre rfl
    obtain ⟨he', -⟩ := hlast hpn
    subst he'
    have hce : (chunkEnd true (feed true (fresh junk) (encMsg m))).1 = (feed true (fresh junk) (encMsg m)).1 := by
      simp [chunkEnd, h1]
    rw [hce, a1] at he
    obtain ⟨n2, d', hd', hall⟩ := payload_phase k _ h1 s'.more
    refine ⟨n1 + n2, d', fr ++ .payload s'.cur (s'.more.all (·.isEmpty)) :: (pays s'.more ++ [.completed]), hd', ?_, fun fuel hfu => ?_⟩
    · rw [glue_noPay _ _ a2, glue_pays, ← he, ← a4, List.append_assoc]
      exact a3.append (Parts.refl _)
    · obtain ⟨g, rfl⟩ := Nat.exists_eq_add_of_le hfu
      rw [Nat.add_assoc, a6, hall]
      simp [preS]

/-- The payload events for the pieces of a payload: only the last one is flagged as the last. -/
def pieceEvents : List (List UInt8) → List Event
  | [] => []
  | x :: xs => .payload x xs.isEmpty :: pieceEvents xs

/-- What is reported for a message that comes as a stream in segments.  `ob` is the encoding of the options. -/
def streamReport (m : Msg) (ob : List UInt8) (segs : List (List UInt8)) : List Event :=
  [.header ⟨UInt8.ofNat (64 * m.version + 16 * m.type + m.token.length), UInt8.ofNat m.code,
      UInt8.ofNat (m.mid / 256), UInt8.ofNat (m.mid % 256)⟩,
   .token m.token, .optionStart] ++
  cutOptions segs (4 + m.token.length) m.opts (ob ++ encPayload m.payload) ++
  [.optionsCompleted] ++
  (match m.payload with
   | none => []
   | some _ => pieceEvents (piecesFrom (4 + m.token.length + ob.length + 1) segs)) ++
  [.completed]

theorem piecesFrom_zero (bufs : List (List UInt8)) : piecesFrom 0 bufs = bufs.filter (fun c => !c.isEmpty) := by
  induction bufs with
  | nil => rfl
  | cons c cs ih =>
    rw [piecesFrom]
    cases c with
    | nil => simpa using ih
    | cons b c => simp [ih]

theorem pays_pieces (more : List (List UInt8)) : pays more = pieceEvents (piecesFrom 0 more) := by
  induction more with
  | nil => rfl
  | cons x m ih =>
    rw [piecesFrom]
    cases x with
    | nil => simpa [pays] using ih
    | cons b x =>
      have : m.all (·.isEmpty) = (piecesFrom 0 m).isEmpty := by
        rw [piecesFrom_zero, Bool.eq_iff_iff]
        simp
      rw [pays, if_neg (by simp), this]
      simp only [List.length_cons, Nat.zero_lt_succ, if_true, List.drop_zero]
      rw [pieceEvents, ih]

theorem pieces_tail {s s' : Sb} (h : Tail s s') (hne : s'.cur ≠ []) (k : Nat) (hk : (total s).length = k + (total s').length) :
    piecesFrom k (s.cur :: s.more) = s'.cur :: piecesFrom 0 s'.more := by
  obtain ⟨pre, x, h⟩ := h
  have hc := List.length_pos_iff.2 hne
  have ht : (total s).length = pre.flatten.length + x.length + (total s').length := by
    have := congrArg (fun l => l.flatten.length) h
    simp only [List.flatten_cons, List.flatten_append, List.length_append] at this
    unfold total
    rw [List.length_append, List.length_append]
    omega
  have hk' : k = pre.flatten.length + x.length := by omega
  rw [h, hk']
  clear h ht hk hk'
  induction pre with
  | nil =>
    simp only [List.flatten_nil, List.length_nil, Nat.zero_add, List.nil_append]
    rw [piecesFrom, if_pos (by rw [List.length_append]; omega), List.drop_left]
  | cons c pre ih =>
    rw [List.cons_append, List.flatten_cons, List.length_append, piecesFrom, if_neg (by omega)]
    rw [show c.length + pre.flatten.length + x.length - c.length = pre.flatten.length + x.length by omega, ih]

theorem streamReport_frame_none (m : Msg) (ob : List UInt8) (segs : List (List UInt8)) (hp : m.payload = none) :
    (streamReport m ob segs).map frame = (delivery m).map frame := by
  unfold streamReport delivery
  simp only [List.map_append, cutOptions_frame, hp]

/-- C27 for a stream in several segments, exactly (partial: exclusions as in `stream_message_delivered_partial`): a
well-formed message, with any legal encoding of its options, that arrives in any number of segments, empty ones included
and cut anywhere, is decoded to completion, and `streamReport` is what is reported: of every option value the part in the
segment in which the value starts, flagged as complete if that is all of it, and the whole payload, segment by segment. -/
theorem stream_segments_exact_partial (k : SbKind) (m : Msg) (hk : EndOk k m) (hm : m.Ok) (ob : List UInt8)
    (hob : IsOpts 0 m.opts ob) (junk : Dec)
    (hj : junk.tbuf.length = 8) (hst : junk.opt.st ≠ .payload ∨ m.token ≠ [] ∨ m.opts ≠ [] ∨ m.payload ≠ none)
    (hc : k.charSigned = true → ∀ b ∈ encHeader m ++ m.token, b ≠ 0xFF)
    (cur : List UInt8) (more : List (List UInt8)) (hcut : cur ++ more.flatten = wire m ob) :
    ∃ N d', d'.st = .done ∧
      ∀ fuel, N ≤ fuel → SDec.processToDone k fuel (fresh junk) ⟨cur, more⟩ = .ok (d', streamReport m ob (cur :: more)) := by
  obtain ⟨hi, hh, hne, hg, n, e, -, hnd, hf, he, hlast, hrest⟩ := wire_chunkEnd m hm ob hob junk hj hst
  obtain ⟨B, hB, hB0⟩ := spots_wire m hm ob hob junk hj
  have htl : (UInt8.ofNat (64 * m.version + 16 * m.type + m.token.length) &&& 0x0F).toNat = m.token.length := by
    obtain ⟨h1, h2, h3, h4, h5, -⟩ := hm
    rw [tkl_toNat]; simp; omega
  have hem : wire m ob = encHeader m ++ m.token ++ (ob ++ encPayload m.payload) := by simp [wire]
  have hl : (encHeader m).length = 4 := rfl
  have hhd : (wire m ob).headD 0 = UInt8.ofNat (64 * m.version + 16 * m.type + m.token.length) := rfl
  have htot : total ⟨cur, more⟩ = wire m ob := hcut
  have hcl : StreamClean k (fresh junk) (wire m ob) := by
    show Clean k (4 + ((wire m ob).headD 0 &&& 0x0F).toNat) (wire m ob)
    rw [hhd, htl, Clean]
    cases hs : k.charSigned with
    | false => simp [hem, hl]
    | true =>
      rw [if_pos rfl, hem, List.take_left' (by simp [hl])]
      exact hc hs
  have hcutopts := wireSpots_cut hob (encPayload m.payload) (cur :: more) (encHeader m ++ m.token) (by rw [← hem, ← hcut]; rfl)
  have hlen : (encHeader m ++ m.token).length = 4 + m.token.length := by rw [List.length_append, hl]
  rw [hlen, hB, List.map_append] at hcutopts
  have hBcut : B.map (fun s => (s.cut (cur :: more)).shown) = B.map Spot.shown := by
    refine List.map_congr_left fun s hs => ?_
    simp [Spot.cut, Spot.shown, hB0 s hs]
  rw [hBcut] at hcutopts
  have hshow := wireSpots_shown hob (encPayload m.payload)
  rw [hB, List.map_append] at hshow
  have hpc : ∀ l, optsOf (pieceEvents l) = [] := by
    intro l
    induction l with
    | nil => rfl
    | cons x xs ih => rw [pieceEvents, ← List.singleton_append, optsOf_append, ih]; rfl
  have rd : optsOf (delivery m) = optsOf (optEvents m.opts) := by
    unfold delivery
    simp only [optsOf_append, optEvents]
    cases m.payload <;> simp [optsOf]
  have rs : optsOf (streamReport m ob (cur :: more)) =
      optsOf (cutOptions (cur :: more) (4 + m.token.length) m.opts (ob ++ encPayload m.payload)) := by
    unfold streamReport
    simp only [optsOf_append]
    cases m.payload with
    | none => simp [optsOf]
    | some p => simp only [hpc]; simp [optsOf]
  have hrun := seg_run k (fresh junk) ⟨cur, more⟩ (by rw [htot]; exact ⟨hi, hh, hcl⟩) hg (by rw [htot]; exact hne)
  rw [htot] at hrun
  rcases hrun with ⟨h1, n1, evs, s', a1, a2, ao, a3, a4, a5⟩ | ⟨h1, n1, fr, ffr, s', a1, a2, ao, a3, atl, a4, a5, a6⟩
  · have hce : chunkEnd true (feed true (fresh junk) (wire m ob)) =
        ((feed true (fresh junk) (wire m ob)).1 ++ finEv true [] (feed true (fresh junk) (wire m ob)).2.1,
          fin true [] (feed true (fresh junk) (wire m ob)).2.1) := by simp [chunkEnd, h1]
    have hpn : m.payload = none := by
      refine Classical.byContradiction fun hp => h1 ?_
      obtain ⟨p, hp'⟩ := Option.ne_none_iff_exists'.1 hp
      have hpne : p ≠ [] := by intro h; rw [h] at hp'; exact hm.2.2.2.2.2.2 hp'
      obtain ⟨X, X', -, -, -, i4, -⟩ := feed_append_pay true true (fresh junk) (wire m ob) [] hg
        (by rw [hrest, hp']; exact hpne)
      exact i4
    have ho := congrArg optsOf he
    rw [optsOf_append, optsOf_chunkEnd, rd, ← hshow, List.append_cancel_left_eq] at ho
    rw [hce] at hnd hf he
    have hnp : (fin true [] (feed true (fresh junk) (wire m ob)).2.1).st ≠ .payload := by
      unfold fin; split
      · simp
      · exact h1
    have hend : k.endNeg = false ∨ (fin true [] (feed true (fresh junk) (wire m ob)).2.1).st ≠ .options := by
      rcases hk with hk | hk | hk
      · exact Or.inl hk
      · exact absurd hpn hk
      · refine Or.inr fun h => ?_
        obtain ⟨o, ho, hv⟩ := (wire_end_options m hm ob hob junk hj hpn).1 h
        exact hk o ho hv
    obtain ⟨d', hd', hall⟩ := finish_stream hend a4 hnp (hf _ ⟨rfl, rfl⟩) s' a1
    have heq : evs ++ e = streamReport m ob (cur :: more) := by
      refine eq_of_frame ?_ ?_
      · rw [streamReport_frame_none m ob _ hpn, ← he]
        exact Parts.frame_eq (a3.append (Parts.refl e))
      · rw [optsOf_append, ao, ho, rs, hcutopts]
    refine ⟨n1 + n, d', hd', fun fuel hfu => ?_⟩
    obtain ⟨g, rfl⟩ := Nat.exists_eq_add_of_le hfu
    rw [Nat.add_assoc, a5, hall, ← heq]; rfl
  · have hre : (feed true (fresh junk) (wire m ob)).2.2 ≠ [] := by
      rw [← a4]; intro h; exact a5 (List.append_eq_nil_iff.1 h).1
    have hpn : m.payload ≠ none := by
      intro h; rw [hrest, h] at hre; exact hre rfl
    obtain ⟨p, hp⟩ := Option.ne_none_iff_exists'.1 hpn
    have hre' : (feed true (fresh junk) (wire m ob)).2.2 = p := by rw [hrest, hp]; rfl
    obtain ⟨he', -⟩ := hlast hpn
    subst he'
    have hce : (chunkEnd true (feed true (fresh junk) (wire m ob))).1 = (feed true (fresh junk) (wire m ob)).1 := by
      simp [chunkEnd, h1]
    have ho := congrArg optsOf he
    rw [optsOf_append, optsOf_chunkEnd, rd, ← hshow, List.append_cancel_left_eq] at ho
    have hBn : B.map Spot.shown = [] := ho.symm
    rw [hBn, List.append_nil] at hcutopts
    rw [hce, a1, hre'] at he
    have hffr : ffr = [.header ⟨UInt8.ofNat (64 * m.version + 16 * m.type + m.token.length), UInt8.ofNat m.code,
        UInt8.ofNat (m.mid / 256), UInt8.ofNat (m.mid % 256)⟩, .token m.token, .optionStart] ++
          m.opts.map (fun o => .option (UInt16.ofNat o.number) o.value true) ++ [.optionsCompleted] := by
      have h2 : delivery m = ([.header ⟨UInt8.ofNat (64 * m.version + 16 * m.type + m.token.length), UInt8.ofNat m.code,
        UInt8.ofNat (m.mid / 256), UInt8.ofNat (m.mid % 256)⟩, .token m.token, .optionStart] ++
        m.opts.map (fun o => .option (UInt16.ofNat o.number) o.value true) ++ [.optionsCompleted]) ++ [.payload p true] ++ [.completed] := by
        simp [delivery, hp]
      rw [h2] at he
      exact List.append_inj_left' (List.append_inj_left' he rfl) rfl
    have hpieces := pieces_tail atl a5 (4 + m.token.length + ob.length + 1) (by
      rw [htot, a4, hre', hem, hp]; simp [hl, encPayload]; omega)
    obtain ⟨n2, d', hd', hall⟩ := payload_phase k _ h1 s'.more
    have hfirst : Event.payload s'.cur (s'.more.all (·.isEmpty)) :: pays s'.more =
        pieceEvents (piecesFrom (4 + m.token.length + ob.length + 1) (cur :: more)) := by
      have : s'.more.all (·.isEmpty) = (piecesFrom 0 s'.more).isEmpty := by
        rw [piecesFrom_zero, Bool.eq_iff_iff]; simp
      rw [hpieces, pieceEvents, pays_pieces, this]
    have heq : fr ++ (Event.payload s'.cur (s'.more.all (·.isEmpty)) :: pays s'.more) ++ [.completed] =
        streamReport m ob (cur :: more) := by
      rw [hfirst]
      refine eq_of_frame ?_ ?_
      · unfold streamReport
        simp only [List.map_append, Parts.frame_eq a3, hffr, cutOptions_frame, hp]
      · rw [rs, hcutopts, optsOf_append, optsOf_append, ao, hpc]
        simp [optsOf]
    refine ⟨n1 + n2, d', hd', fun fuel hfu => ?_⟩
    obtain ⟨g, rfl⟩ := Nat.exists_eq_add_of_le hfu
    rw [Nat.add_assoc, a6, hall, ← heq]
    simp [preS]

/-- C27 (partial: with a signed character type no byte of header and token is 0xFF; if `in_avail()` is
-1 at the end, the message does not end with an option without value; the exclusion of `message_delivered_partial`): a well-formed message is delivered exactly. -/
theorem stream_message_delivered_partial (k : SbKind) (m : Msg) (hk : EndOk k m) (hm : m.Ok) (junk : Dec)
    (hj : junk.tbuf.length = 8) (hst : junk.opt.st ≠ .payload ∨ m.token ≠ [] ∨ m.opts ≠ [] ∨ m.payload ≠ none)
    (hc : k.charSigned = true → ∀ b ∈ encHeader m ++ m.token, b ≠ 0xFF) :
    ∃ N d', N ≤ 11 * (encMsg m).length + 6 ∧ d'.st = .done ∧
      ∀ fuel, N ≤ fuel → SDec.processToDone k fuel (fresh junk) ⟨encMsg m, []⟩ = .ok (d', delivery m) := by
  obtain ⟨N, d', hN, hd, h⟩ := message_delivered_partial m hm junk hj hst
  refine ⟨N, d', hN, hd, fun fuel hf => ?_⟩
  have htl : (UInt8.ofNat (64 * m.version + 16 * m.type + m.token.length) &&& 0x0F).toNat = m.token.length := by
    obtain ⟨h1, h2, h3, h4, h5, -⟩ := hm
    rw [tkl_toNat]; simp; omega
  have he : encMsg m = encHeader m ++ m.token ++ (encOpts 0 m.opts ++ encPayload m.payload) := by simp [encMsg]
  have hl : (encHeader m).length = 4 := rfl
  have hh : (encMsg m).headD 0 = UInt8.ofNat (64 * m.version + 16 * m.type + m.token.length) := rfl
  obtain ⟨M, d2, evs, -, -, hM⟩ := stream_segments_delivered_partial k m hk hm junk hj hst hc (encMsg m) [] (by simp)
  rw [toDone_zeroEnd_ok (hM M (Nat.le_refl _)) fuel, stream_agrees_partial (zeroEnd k) rfl _ junk hj _ fuel, h fuel hf]
  rw [hh, htl, show (zeroEnd k).charSigned = k.charSigned from rfl]
  cases hs : k.charSigned with
  | false => simp [he, hl]
  | true =>
    rw [if_pos rfl, he, List.take_left' (by simp [hl])]
    exact hc hs

/-- The sample of the cut messages as a stream of seven segments, one of them empty: option value and payload are cut. -/
example : ∃ d', SDec.processToDone ⟨true, false⟩ 60 Dec.zero
    ⟨[0x42, 1], [[0x12, 0x34, 7], [8, 0xB3, 1], [], [2, 3, 0xE1, 0], [20, 4, 0xFF, 9], [10]]⟩ =
    .ok (d', [.header ⟨0x42, 1, 0x12, 0x34⟩, .token [7, 8], .optionStart, .option 11 [1] false, .option 300 [4] true,
      .optionsCompleted, .payload [9] false, .payload [10] true, .completed]) := ⟨_, rfl⟩

example : streamReport splitSample [0xB3, 1, 2, 3, 0xE1, 0, 20, 4]
    [[0x42, 1], [0x12, 0x34, 7], [8, 0xB3, 1], [], [2, 3, 0xE1, 0], [20, 4, 0xFF, 9], [10]] =
    [.header ⟨0x42, 1, 0x12, 0x34⟩, .token [7, 8], .optionStart, .option 11 [1] false, .option 300 [4] true,
      .optionsCompleted, .payload [9] false, .payload [10] true, .completed] := by decide +kernel

example : (⟨1, 0, 1, 0x1234, [7, 8], [⟨11, [1, 2, 3]⟩, ⟨300, [4]⟩], some [9, 10]⟩ : Msg).Ok ∧
    [0x42, 1] ++ [[0x12, 0x34, 7], [8, 0xB3, 1], [], [2, 3, 0xE1, 0], [20, 4, 0xFF, 9], [10]].flatten =
      encMsg ⟨1, 0, 1, 0x1234, [7, 8], [⟨11, [1, 2, 3]⟩, ⟨300, [4]⟩], some [9, 10]⟩ := by decide

example : ∃ d', SDec.processToDone ⟨true, false⟩ 40 Dec.zero ⟨[0x41, 1, 0x12, 0x34, 0xAA, 0xB1, 0x61, 0xFF, 0xFF, 9], []⟩ =
    .ok (d', [.header ⟨0x41, 1, 0x12, 0x34⟩, .token [0xAA], .optionStart, .option 11 [0x61] true, .optionsCompleted,
      .payload [0xFF, 9] true, .completed]) := by
  exact ⟨_, rfl⟩

/-- The events of the first `n` steps. -/
def streamSteps (k : SbKind) : Nat → Dec → Sb → Except Fault (List Event)
  | 0, _, _ => .ok []
  | n + 1, d, s =>
    match SDec.stepNotify k d s with
    | .error e => .error e
    | .ok (d, s, evs, _) => (streamSteps k n d s).map (evs ++ ·)

/-- C27 fails with a signed character type: when the last byte of the message id is 0xFF, the byte is dropped
and the byte after the header becomes part of the header. -/
theorem stream_drops_ff (b0 b1 b2 b4 : UInt8) (rest : List UInt8) (h0 : b0 ≠ 0xFF) (h1 : b1 ≠ 0xFF) (h2 : b2 ≠ 0xFF)
    (h4 : b4 ≠ 0xFF) (neg : Bool) (junk : Dec) :
    streamSteps ⟨true, neg⟩ 3 (fresh junk) ⟨b0 :: b1 :: b2 :: 0xFF :: b4 :: rest, []⟩ = .ok [.header ⟨b0, b1, b2, b4⟩] := by
  simp [streamSteps, SDec.stepNotify, SDec.step, SDec.headerLoop, Sb.bumpc, Sb.pull, Sb.pullFrom, Dec.writeHeader, SDec.notify, fresh,
    h0, h1, h2, h4, Except.map]

/-- With a signed character type and the last byte of the message id 0xFF, a message that is only a header is
never completed, nor is anything about it reported, however many steps are made. -/
theorem stream_header_lost (b0 b1 b2 : UInt8) (h0 : b0 ≠ 0xFF) (h1 : b1 ≠ 0xFF) (h2 : b2 ≠ 0xFF) (neg : Bool) (junk : Dec) (n : Nat) :
    streamSteps ⟨true, neg⟩ n (fresh junk) ⟨[b0, b1, b2, 0xFF], []⟩ = .ok [] := by
  have hend : ∀ n (d : Dec), d.st = .header → streamSteps ⟨true, neg⟩ n d ⟨[], []⟩ = .ok [] := by
    intro n
    induction n with
    | zero => intro d _; rfl
    | succ n ih =>
      intro d hd
      simp only [streamSteps, SDec.stepNotify, SDec.step, SDec.headerLoop, Sb.bumpc, Sb.pull, Sb.pullFrom, SDec.notify, hd, if_true,
        Bool.false_eq_true, if_false]
      rw [ih _ rfl]; rfl
  match n with
  | 0 => rfl
  | 1 => rfl
  | n + 2 =>
    simp [streamSteps, SDec.stepNotify, SDec.step, SDec.headerLoop, Sb.bumpc, Sb.pull, Sb.pullFrom, Dec.writeHeader, SDec.notify, fresh,
      h0, h1, h2]
    rw [hend n _ rfl]; rfl

/-- With an unsigned character type a truncated header is completed with bytes 0xFF and reported. -/
theorem stream_pads_truncated (b0 : UInt8) (neg : Bool) (junk : Dec) :
    streamSteps ⟨false, neg⟩ 2 (fresh junk) ⟨[b0], []⟩ = .ok [.header ⟨b0, 0xFF, 0xFF, 0xFF⟩] := by
  simp [streamSteps, SDec.stepNotify, SDec.step, SDec.headerLoop, Sb.bumpc, Sb.pull, Sb.pullFrom, Dec.writeHeader, SDec.notify, fresh,
    Except.map]

/-- C27 fails when `in_avail()` is -1 at the end of the data: on every well-formed message that ends with an option without
value, whatever the encoding of its options and however it is cut into segments, the decoder reads past the end of the
data. -/
theorem stream_end_overread (k : SbKind) (hk : k.endNeg = true) (m : Msg) (hm : m.Ok) (ob : List UInt8)
    (hob : IsOpts 0 m.opts ob) (junk : Dec) (hj : junk.tbuf.length = 8)
    (hc : k.charSigned = true → ∀ b ∈ encHeader m ++ m.token, b ≠ 0xFF)
    (cur : List UInt8) (more : List (List UInt8)) (hcut : cur ++ more.flatten = wire m ob)
    (hp : m.payload = none) (ho : ∃ o ∈ m.opts.getLast?, o.value = []) :
    ∃ N, ∀ fuel, N ≤ fuel → SDec.processToDone k fuel (fresh junk) ⟨cur, more⟩ = .error .chunkOverread := by
  have hos : m.opts ≠ [] := by
    intro h; rw [h] at ho; simp at ho
  obtain ⟨hi, hh, hne, hg, -⟩ := wire_chunkEnd m hm ob hob junk hj (Or.inr (Or.inr (Or.inl hos)))
  have htl : (UInt8.ofNat (64 * m.version + 16 * m.type + m.token.length) &&& 0x0F).toNat = m.token.length := by
    obtain ⟨h1, h2, h3, h4, h5, -⟩ := hm
    rw [tkl_toNat]; simp; omega
  have hem : wire m ob = encHeader m ++ m.token ++ (ob ++ encPayload m.payload) := by simp [wire]
  have hl : (encHeader m).length = 4 := rfl
  have hhd : (wire m ob).headD 0 = UInt8.ofNat (64 * m.version + 16 * m.type + m.token.length) := rfl
  have htot : total ⟨cur, more⟩ = wire m ob := hcut
  have hcl : StreamClean k (fresh junk) (wire m ob) := by
    show Clean k (4 + ((wire m ob).headD 0 &&& 0x0F).toNat) (wire m ob)
    rw [hhd, htl, Clean]
    cases hs : k.charSigned with
    | false => simp [hem, hl]
    | true =>
      rw [if_pos rfl, hem, List.take_left' (by simp [hl])]
      exact hc hs
  have hend := (wire_end_options m hm ob hob junk hj hp).2 ho
  have hrun := seg_run k (fresh junk) ⟨cur, more⟩ (by rw [htot]; exact ⟨hi, hh, hcl⟩) hg (by rw [htot]; exact hne)
  rw [htot] at hrun
  rcases hrun with ⟨h1, n1, evs, s', a1, -, -, -, -, a5⟩ | ⟨h1, -⟩
  · refine ⟨n1 + 1, fun fuel hf => ?_⟩
    obtain ⟨g, rfl⟩ := Nat.exists_eq_add_of_le hf
    rw [show n1 + 1 + g = n1 + (g + 1) by omega, a5]
    simp only [SDec.processToDone, SDec.stepNotify, step_starved k hk _ s' hend ((pull_nil_iff s').2 a1), preS]
  · rw [fin_of_ne (by simp [h1])] at hend
    rw [h1] at hend; cases hend

/-- C27: over a stream in any number of segments the decoder completes a well-formed message exactly if `in_avail()` is 0 at
the end of the data or the message does not end with an option without value. -/
theorem stream_completes_iff (k : SbKind) (m : Msg) (hm : m.Ok) (ob : List UInt8)
    (hob : IsOpts 0 m.opts ob) (junk : Dec)
    (hj : junk.tbuf.length = 8) (hst : junk.opt.st ≠ .payload ∨ m.token ≠ [] ∨ m.opts ≠ [] ∨ m.payload ≠ none)
    (hc : k.charSigned = true → ∀ b ∈ encHeader m ++ m.token, b ≠ 0xFF)
    (cur : List UInt8) (more : List (List UInt8)) (hcut : cur ++ more.flatten = wire m ob) :
    (∃ fuel r, SDec.processToDone k fuel (fresh junk) ⟨cur, more⟩ = .ok r) ↔
      (k.endNeg = true → m.payload = none → ∀ o ∈ m.opts.getLast?, o.value ≠ []) := by
  constructor
  · rintro ⟨fuel, r, h⟩ hk hp o ho hv
    obtain ⟨N, hN⟩ := stream_end_overread k hk m hm ob hob junk hj hc cur more hcut hp ⟨o, ho, hv⟩
    have h1 := hN (N + fuel) (by omega)
    rw [Nat.add_comm, toDone_more k fuel N _ _ (by rw [h]; simp), h] at h1
    cases h1
  · intro h
    have hk : EndOk k m := by
      by_cases h1 : k.endNeg = true
      · by_cases h2 : m.payload = none
        · exact Or.inr (Or.inr (h h1 h2))
        · exact Or.inr (Or.inl h2)
      · exact Or.inl (by simpa using h1)
    obtain ⟨N, d', -, hN⟩ := stream_segments_exact_partial k m hk hm ob hob junk hj hst hc cur more hcut
    exact ⟨N, _, hN N (Nat.le_refl _)⟩

/-- C27 for arbitrary bytes and either value of `in_avail()` at the end (other exclusions as in `stream_agrees_partial`):
decoding from the stream agrees with decoding from a buffer, unless it reads past the end. -/
theorem stream_agrees_or_overreads_partial (k : SbKind) (bytes : List UInt8) (junk : Dec) (hj : junk.tbuf.length = 8)
    (hc : if k.charSigned then ∀ b ∈ bytes.take (4 + (bytes.headD 0 &&& 0x0F).toNat), b ≠ 0xFF
      else 4 + (bytes.headD 0 &&& 0x0F).toNat ≤ bytes.length) (fuel : Nat) :
    SDec.processToDone k fuel (fresh junk) ⟨bytes, []⟩ =
      (match Dec.processToDone fuel (fresh junk) ⟨bytes, 0, true⟩ with
      | .error e => .error e
      | .ok (d', _, evs) => .ok (d', evs)) ∨
    (k.endNeg = true ∧ SDec.processToDone k fuel (fresh junk) ⟨bytes, []⟩ = .error .chunkOverread) := by
  by_cases hk : k.endNeg = false
  · exact Or.inl (stream_agrees_partial k hk bytes junk hj hc fuel)
  · rcases toDone_zeroEnd_or k fuel (fresh junk) ⟨bytes, []⟩ with h | h
    · left; rw [h]; exact stream_agrees_partial (zeroEnd k) rfl bytes junk hj hc fuel
    · exact Or.inr ⟨by simpa using hk, h⟩

/-- The message `40 01 00 01 C0` (one option, number 12, no value) in two segments. -/
example : (⟨1, 0, 1, 1, [], [⟨12, []⟩], none⟩ : Msg).Ok ∧ [0x40, 1, 0] ++ [[1, 0xC0]].flatten = encMsg ⟨1, 0, 1, 1, [], [⟨12, []⟩], none⟩ ∧
    SDec.processToDone ⟨true, true⟩ 9 Dec.zero ⟨[0x40, 1, 0], [[1, 0xC0]]⟩ = .error .chunkOverread ∧
    EndOk ⟨true, true⟩ ⟨1, 0, 1, 1, [], [⟨12, []⟩, ⟨13, [5]⟩], none⟩ := by decide +kernel

end Verif.Props
