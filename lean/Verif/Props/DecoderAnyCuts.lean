import Verif.Proofs.AnyCuts
import Verif.Props.DecoderCuts
import Verif.Props.DecoderReport

/-! # What is reported for arbitrary bytes in any buffers (C16, C17) -/
namespace Verif.Props
open Verif.Model Verif.Proofs Verif.Spec Header Dec

/-- What is reported for header, token and arbitrary bytes behind them, that arrive in the buffers `bufs`: of every option value
the part in the buffer in which the value starts; of the payload the part in the buffer in which the payload starts. -/
def anyCutReport (b0 b1 b2 b3 : UInt8) (tok rest : List UInt8) (bufs : List (List UInt8)) : List Event :=
  [.header ⟨b0, b1, b2, b3⟩, .token tok, .optionStart] ++
  (cutRest bufs (4 + tok.length) 0 0 rest).map (fun i => .option (UInt16.ofNat i.number) i.value i.complete) ++
  [.optionsCompleted] ++
  (match (readRest 0 0 rest).2 with
   | none => []
   | some p => payloadEvents (payloadPart (4 + tok.length + rest.length - p.length) bufs).1
      (payloadPart (4 + tok.length + rest.length - p.length) bufs).2) ++
  [.completed]

theorem spots_any_wire (junk : Dec) (hj : junk.tbuf.length = 8) (b0 b1 b2 b3 : UInt8) (tok rest : List UInt8)
    (ht : tok.length = (b0 &&& 0x0F).toNat) (h8 : tok.length ≤ 8) :
    (∃ X : List Item, (readRest 0 0 rest).1.map Item.shown =
        (spots (fresh junk) (b0 :: b1 :: b2 :: b3 :: (tok ++ rest))).map Spot.shown ++ X.map Item.shown ∧
      ∀ bufs : List (List UInt8), bufs.flatten = b0 :: b1 :: b2 :: b3 :: (tok ++ rest) →
        (cutRest bufs (4 + tok.length) 0 0 rest).map Item.shown =
          (spots (fresh junk) (b0 :: b1 :: b2 :: b3 :: (tok ++ rest))).map (fun s => (s.cut bufs).shown) ++ X.map Item.shown) := by
  have hhd := header_feed false (fresh junk) b0 b1 b2 b3 [] rfl
  generalize hd1 : ({ fresh junk with st := .headerDone, hdr := ⟨b0, b1, b2, b3⟩, hpos := 4 } : Dec) = d1 at hhd
  have hd1s : d1.st = .headerDone := by rw [← hd1]
  have hd1h : d1.hdr.tokenLength.toNat = tok.length := by rw [← hd1, ht]; rfl
  have hd1b : d1.tbuf.length = 8 := by rw [← hd1]; exact hj
  rw [feed_nil] at hhd
  have hsp : b0 :: b1 :: b2 :: b3 :: (tok ++ rest) = [b0, b1, b2, b3] ++ (tok ++ rest) := rfl
  have tail : ∀ d2 : Dec, d2.st = .tokenDone → ∃ X : List Item, (readRest 0 0 rest).1.map Item.shown =
        (spots d2 rest).map Spot.shown ++ X.map Item.shown ∧
      ∀ bufs : List (List UInt8), bufs.flatten = b0 :: b1 :: b2 :: b3 :: (tok ++ rest) →
        (cutRest bufs (4 + tok.length) 0 0 rest).map Item.shown =
          (spots d2 rest).map (fun s => (s.cut bufs).shown) ++ X.map Item.shown := by
    intro d2 hs2
    rw [← spots_idle d2, ← spots_idle (idle d2)]
    obtain ⟨X, i1, i2⟩ := spots_any rest 0 0 (idle (idle d2)) (by simp [idle, hs2]) (Or.inl (by simp [idle, hs2])) (by simp [idle, hs2])
    refine ⟨X, i1, fun bufs hb => ?_⟩
    have := i2 bufs ([b0, b1, b2, b3] ++ tok) (by rw [hb]; simp)
    rw [show ([b0, b1, b2, b3] ++ tok).length = 4 + tok.length by simp; omega] at this
    exact this
  have hgo : ∀ d2 : Dec, spots (fresh junk) (b0 :: b1 :: b2 :: b3 :: (tok ++ rest)) = spots d2 rest → d2.st = .tokenDone → _ :=
    fun d2 h h2 => h ▸ tail d2 h2
  have h1 : spots (fresh junk) (b0 :: b1 :: b2 :: b3 :: (tok ++ rest)) = spots d1 (tok ++ rest) := by
    rw [hsp, spots_append, hhd, spots_of_no_option (l := false) (by rw [hhd]; rfl), List.map_nil, List.nil_append]
  by_cases htn : tok = []
  · have hs : (idle d1).st = .tokenDone := by
      have : ¬ d1.hdr.tokenLength > 0 := by rw [gt_iff_lt, UInt8.lt_iff_toNat_lt, hd1h, htn]; simp
      simp [idle, hd1s, this]
    exact hgo (idle d1) (by rw [h1, htn, List.nil_append, spots_idle]) hs
  · obtain ⟨d2, e1, -, -, -, e5⟩ := token_feed false tok d1 [] hd1s htn hd1h h8 hd1b
    rw [List.append_nil, feed_nil] at e5
    refine hgo d2 ?_ e1
    rw [h1, spots_append, e5, spots_of_no_option (l := false) (by rw [e5]; rfl), List.map_nil, List.nil_append]

/-- Where the payload starts. -/
theorem any_payload_wire (junk : Dec) (hj : junk.tbuf.length = 8) (b0 b1 b2 b3 : UInt8) (tok rest : List UInt8)
    (ht : tok.length = (b0 &&& 0x0F).toNat) (h8 : tok.length ≤ 8) :
    match (readRest 0 0 rest).2 with
    | none => (feed true (fresh junk) (b0 :: b1 :: b2 :: b3 :: (tok ++ rest))).2.1.st ≠ .payload
    | some p => (∃ q, rest = q ++ p) ∧
        (p = [] → (feed true (fresh junk) (b0 :: b1 :: b2 :: b3 :: (tok ++ rest))).2.1.st ≠ .payload) ∧
        (p ≠ [] → (feed true (fresh junk) (b0 :: b1 :: b2 :: b3 :: (tok ++ rest))).2.2 = p ∧
          (feed true (fresh junk) (b0 :: b1 :: b2 :: b3 :: (tok ++ rest))).2.1.st = .payload) := by
  rw [header_feed true (fresh junk) b0 b1 b2 b3 (tok ++ rest) rfl]
  generalize hd1 : ({ fresh junk with st := .headerDone, hdr := ⟨b0, b1, b2, b3⟩, hpos := 4 } : Dec) = d1
  have hd1s : d1.st = .headerDone := by rw [← hd1]
  have hd1h : d1.hdr.tokenLength.toNat = tok.length := by rw [← hd1, ht]; rfl
  have hd1b : d1.tbuf.length = 8 := by rw [← hd1]; exact hj
  simp only
  have tail : ∀ d2 : Dec, d2.st = .tokenDone →
      match (readRest 0 0 rest).2 with
      | none => (feed true d2 rest).2.1.st ≠ .payload
      | some p => (∃ q, rest = q ++ p) ∧ (p = [] → (feed true d2 rest).2.1.st ≠ .payload) ∧
          (p ≠ [] → (feed true d2 rest).2.2 = p ∧ (feed true d2 rest).2.1.st = .payload) := by
    intro d2 hs2
    by_cases hr : rest = []
    · subst hr; simp [readRest_nil, feed_nil, hs2]
    · rw [start_feed true d2 rest hs2 hr]
      exact any_payload rest 0 0 _ rfl (Or.inl rfl)
  by_cases htn : tok = []
  · subst htn
    rw [List.nil_append]
    by_cases hr : rest = []
    · subst hr; simp [readRest_nil, feed_nil, hd1s]
    · rw [token_feed_empty true d1 rest hd1s (by simpa using hd1h) hr]
      exact tail _ rfl
  · obtain ⟨d2, e1, -, -, -, e5⟩ := token_feed true tok d1 rest hd1s htn hd1h h8 hd1b
    rw [e5]
    exact tail d2 e1

theorem optsOf_items (is : List Item) :
    optsOf (is.map fun i => Event.option (UInt16.ofNat i.number) i.value i.complete) = is.map Item.shown := by
  induction is with
  | nil => rfl
  | cons i is ih =>
    rw [List.map_cons, List.map_cons, ← ih]
    rfl

theorem frame_items (is : List Item) :
    (is.map fun i => Event.option (UInt16.ofNat i.number) i.value i.complete).map frame = List.replicate is.length (.option 0 [] true) := by
  induction is with
  | nil => rfl
  | cons i is ih => simp only [List.map_cons, ih, frame, List.length_cons, List.replicate_succ]

theorem finish_same {k k' : Nat} {d : Dec} {c : Ctx} {e e' : List Event} (h : Finish k d c e) (h' : Finish k' d c e') : e = e' := by
  obtain ⟨d1, -, a⟩ := h
  obtain ⟨d2, -, b⟩ := h'
  have a := a k'
  rw [Nat.add_comm, b k] at a
  simp only [Except.ok.injEq, Prod.mk.injEq] at a
  exact a.2.2.symm

/-- C16, C17: whatever bytes follow header and token, and whatever the buffers in which all this arrives, the decoder runs to
completion and reports exactly `anyCutReport`.  An empty final buffer for bytes without payload is
treated in `any_buffers_exact`.  The condition on the decoder is the one of C13. -/
theorem any_cut_exact (junk : Dec) (hj : junk.tbuf.length = 8) (b0 b1 b2 b3 : UInt8) (tok rest : List UInt8)
    (ht : tok.length = (b0 &&& 0x0F).toNat) (h8 : tok.length ≤ 8)
    (hst : junk.opt.st ≠ .payload ∨ tok ≠ [] ∨ rest ≠ [])
    (cs : List (List UInt8)) (l : List UInt8) (hcut : cs.flatten ++ l = b0 :: b1 :: b2 :: b3 :: (tok ++ rest))
    (hl : l ≠ [] ∨ ∃ b p, (readRest 0 0 rest).2 = some (b :: p)) :
    ∃ N d', d'.st = .done ∧
      ∀ fuel, N ≤ fuel → deliverChunks fuel (fresh junk) cs l = .ok (d', anyCutReport b0 b1 b2 b3 tok rest (cs ++ [l])) := by
  obtain ⟨hnd, k, e, hf, hsay⟩ := any_says junk hj b0 b1 b2 b3 tok rest ht h8 hst
  obtain ⟨X, hX1, hX2⟩ := spots_any_wire junk hj b0 b1 b2 b3 tok rest ht h8
  have hpay := any_payload_wire junk hj b0 b1 b2 b3 tok rest ht h8
  have hb : BetweenBufs (fresh junk) (cs.flatten ++ l) := by
    refine ⟨reach_inv (Reach.init junk [] false hj), ?_, by simp [Going, fresh], by simp [NV, fresh]⟩
    rw [hcut]
    simp only [HOK, fresh, List.head?_cons, Option.mem_def, Option.some.injEq]
    rintro b rfl; omega
  have hfl : (cs ++ [l]).flatten = b0 :: b1 :: b2 :: b3 :: (tok ++ rest) := by rw [← hcut]; simp
  have hX2 := hX2 (cs ++ [l]) hfl
  have hlen : (cutRest (cs ++ [l]) (4 + tok.length) 0 0 rest).length = (readRest 0 0 rest).1.length := by
    have h1 := congrArg List.length hX1
    have h2 := congrArg List.length hX2
    simp only [List.length_map, List.length_append] at h1 h2
    omega
  have hwl : (cs.flatten ++ l).length = 4 + tok.length + rest.length := by rw [hcut]; simp; omega
  -- no payload bytes
  have plain : ∀ PE : List Event, l ≠ [] → (feed true (fresh junk) (cs.flatten ++ l)).2.1.st ≠ .payload →
      reportOf b0 b1 b2 b3 tok rest = [.header ⟨b0, b1, b2, b3⟩, .token tok, .optionStart] ++
        (readRest 0 0 rest).1.map (fun i => .option (UInt16.ofNat i.number) i.value i.complete) ++ [.optionsCompleted] ++ PE ++ [.completed] →
      anyCutReport b0 b1 b2 b3 tok rest (cs ++ [l]) = [.header ⟨b0, b1, b2, b3⟩, .token tok, .optionStart] ++
        (cutRest (cs ++ [l]) (4 + tok.length) 0 0 rest).map (fun i => .option (UInt16.ofNat i.number) i.value i.complete) ++
        [.optionsCompleted] ++ PE ++ [.completed] →
      optsOf PE = [] →
      ∃ N d', d'.st = .done ∧
        ∀ fuel, N ≤ fuel → deliverChunks fuel (fresh junk) cs l = .ok (d', anyCutReport b0 b1 b2 b3 tok rest (cs ++ [l])) := by
    intro PE hl hnp hre hac hPE
    rw [← hcut] at hnd hf hsay hX1 hX2
    obtain ⟨N, d', evs, g1, g2, g3, g4⟩ := cuts_plain cs l (fresh junk) hb hl hnp hnd hf
    suffices h : evs = anyCutReport b0 b1 b2 b3 tok rest (cs ++ [l]) by exact ⟨N, d', g1, h ▸ g4⟩
    refine eq_of_frame ?_ ?_
    · rw [Parts.frame_eq g2, hsay, hac, hre]
      simp only [List.map_append, frame_items, hlen]
    · have r1 : optsOf (reportOf b0 b1 b2 b3 tok rest) = (readRest 0 0 rest).1.map Item.shown := by
        rw [hre]
        simp only [optsOf_append, hPE, optsOf_items]
        simp [optsOf]
      have r2 : optsOf (anyCutReport b0 b1 b2 b3 tok rest (cs ++ [l])) = (cutRest (cs ++ [l]) (4 + tok.length) 0 0 rest).map Item.shown := by
        rw [hac]
        simp only [optsOf_append, hPE, optsOf_items]
        simp [optsOf]
      rw [← hsay, optsOf_append, optsOf_chunkEnd, hX1, List.append_cancel_left_eq] at r1
      rw [g3, bufOpts_eq, r2, hX2, r1]
      simp
  cases hp : (readRest 0 0 rest).2 with
  | none =>
    rw [hp] at hpay
    refine plain [] ?_ (hcut ▸ hpay) (by rw [reportOf, hp]) (by rw [anyCutReport, hp]) rfl
    rcases hl with h | ⟨b, p, h⟩
    · exact h
    · rw [hp] at h; cases h
  | some p =>
    rw [hp] at hpay
    obtain ⟨⟨q, hq⟩, p1, p2⟩ := hpay
    have hql := congrArg List.length hq
    rw [List.length_append] at hql
    by_cases hpn : p = []
    · subst hpn
      have hl : l ≠ [] := by
        rcases hl with h | ⟨b, p, h⟩
        · exact h
        · rw [hp] at h; cases h
      refine plain [.payload [] true] hl (hcut ▸ p1 rfl) (by rw [reportOf, hp]) ?_ rfl
      rw [anyCutReport, hp]
      have hend : ∀ (cs : List (List UInt8)) (l : List UInt8), l ≠ [] → payloadPart (cs.flatten ++ l).length (cs ++ [l]) = ([], 0) := by
        intro cs l hl
        have hlp := List.length_pos_iff.2 hl
        induction cs with
        | nil =>
          simp only [List.flatten_nil, List.nil_append, payloadPart]
          rw [if_neg (by omega)]
        | cons c cs ih =>
          rw [List.cons_append, payloadPart, if_neg (by simp only [List.flatten_cons, List.length_append]; omega), ← ih]
          congr 1
          simp only [List.flatten_cons, List.length_append]; omega
      have := hend cs l hl
      rw [hwl] at this
      simp only [List.length_nil, Nat.sub_zero, this]
      rfl
    · obtain ⟨pr, ps⟩ := p2 hpn
      have hpl := List.length_pos_iff.2 hpn
      generalize hk : 4 + tok.length + rest.length - p.length = kk
      have hdrop : (cs.flatten ++ l).drop kk = p := by
        rw [hcut, show b0 :: b1 :: b2 :: b3 :: (tok ++ rest) = ([b0, b1, b2, b3] ++ tok ++ q) ++ p by rw [hq]; simp]
        apply List.drop_left'
        simp; omega
      rw [← hcut] at pr ps hnd hf hsay hX1 hX2
      have hce : chunkEnd true (feed true (fresh junk) (cs.flatten ++ l)) =
          ((feed true (fresh junk) (cs.flatten ++ l)).1, { (feed true (fresh junk) (cs.flatten ++ l)).2.1 with st := .payloadDone }) := by
        simp [chunkEnd, ps]
      rw [hce] at hf hsay
      have hec : e = [.completed] := finish_same (hf ⟨[], 0, true⟩ ⟨rfl, rfl⟩) (finish_payloadDone rfl)
      subst hec
      generalize hE : [Event.header ⟨b0, b1, b2, b3⟩, .token tok, .optionStart] ++
        (readRest 0 0 rest).1.map (fun i => Event.option (UInt16.ofNat i.number) i.value i.complete) ++ [.optionsCompleted] = E at *
      have hfeed : (feed true (fresh junk) (cs.flatten ++ l)).1 = E ++ [.payload ((cs.flatten ++ l).drop kk) true] := by
        unfold reportOf at hsay
        rw [hE, hp] at hsay
        rw [hdrop]
        exact List.append_cancel_right hsay
      obtain ⟨N, d', evs, g1, g2, g3, g4⟩ := cuts_payload cs l kk (fresh junk) hb (by omega) E hfeed (by rw [pr, hdrop]) ps
      suffices h : evs = [.header ⟨b0, b1, b2, b3⟩, .token tok, .optionStart] ++
          (cutRest (cs ++ [l]) (4 + tok.length) 0 0 rest).map (fun i => .option (UInt16.ofNat i.number) i.value i.complete) ++
          [.optionsCompleted] by
        refine ⟨N, d', g1, fun fuel hfu => ?_⟩
        rw [g4 fuel hfu, h, anyCutReport, hp]
        simp only [hk]
      refine eq_of_frame ?_ ?_
      · rw [Parts.frame_eq g2, ← hE]
        simp only [List.map_append, frame_items, hlen]
      · have r1 : optsOf E = (readRest 0 0 rest).1.map Item.shown := by
          rw [← hE]
          simp only [optsOf_append, optsOf_items]
          simp [optsOf]
        have r3 := optsOf_feed true (fresh junk) (cs.flatten ++ l)
        rw [hfeed, optsOf_append, r1, hX1] at r3
        have hX0 : X.map Item.shown = [] := by
          have := congrArg List.length r3
          simp [optsOf] at this
          rw [this]; rfl
        rw [g3, bufOpts_eq]
        simp only [optsOf_append, optsOf_items, hX2, hX0]
        simp [optsOf, hcut]

theorem cutRest_numbers (bufs : List (List UInt8)) (r : List UInt8) : ∀ k prev plen,
    (cutRest bufs k prev plen r).map (·.number) = (readRest prev plen r).1.map (·.number) := by
  generalize hm : r.length = m
  induction m using Nat.strongRecOn generalizing r with
  | ind m ih =>
    intro k prev plen
    cases r with
    | nil => simp [cutRest_nil, readRest_nil]
    | cons w bs =>
      by_cases hw : w = 0xFF
      · subst hw; simp [cutRest_marker, readRest_marker]
      · cases h1 : readExt (w.toNat / 16) bs with
        | none => simp [cutRest_cut_delta hw h1, readRest_cut_delta hw h1]
        | some p =>
          obtain ⟨delta, bs1⟩ := p
          cases h2 : readExt (w.toNat % 16) bs1 with
          | none => simp [cutRest_cut_length hw h1 h2, readRest_cut_length hw h1 h2]
          | some p =>
            obtain ⟨len, bs2⟩ := p
            have hlt1 := readExt_length h1
            have hlt2 := readExt_length h2
            rw [cutRest_option hw h1 h2, readRest_option hw h1 h2]
            simp only [List.map_cons]
            rw [ih (bs2.drop (len % 65536)).length (by simp at hm ⊢; omega) _ rfl]

/-- The numbers of the options reported. -/
def numbersOf (evs : List Event) : List UInt16 := (optsOf evs).map (·.1)

/-- C16, C17: whatever bytes follow header and token, the numbers of the options reported do not depend on the buffers in which the
bytes arrive, even if they are no CoAP message. -/
theorem any_cut_numbers (junk : Dec) (hj : junk.tbuf.length = 8) (b0 b1 b2 b3 : UInt8) (tok rest : List UInt8)
    (ht : tok.length = (b0 &&& 0x0F).toNat) (h8 : tok.length ≤ 8)
    (hst : junk.opt.st ≠ .payload ∨ tok ≠ [] ∨ rest ≠ [])
    (cs : List (List UInt8)) (l : List UInt8) (hcut : cs.flatten ++ l = b0 :: b1 :: b2 :: b3 :: (tok ++ rest))
    (hl : l ≠ []) :
    ∃ N d' evs, d'.st = .done ∧ numbersOf evs = (readRest 0 0 rest).1.map (fun i => UInt16.ofNat i.number) ∧
      ∀ fuel, N ≤ fuel → deliverChunks fuel (fresh junk) cs l = .ok (d', evs) := by
  obtain ⟨N, d', h1, h2⟩ := any_cut_exact junk hj b0 b1 b2 b3 tok rest ht h8 hst cs l hcut (.inl hl)
  refine ⟨N, d', _, h1, ?_, h2⟩
  have hpay : ∀ q : Option (List UInt8), optsOf (match q with
     | none => []
     | some p => payloadEvents (payloadPart (4 + tok.length + rest.length - p.length) (cs ++ [l])).1
        (payloadPart (4 + tok.length + rest.length - p.length) (cs ++ [l])).2) = [] := by
    intro q
    cases q with
    | none => rfl
    | some p => exact optsOf_payloadEvents _ _
  have r2 : optsOf (anyCutReport b0 b1 b2 b3 tok rest (cs ++ [l])) =
      (cutRest (cs ++ [l]) (4 + tok.length) 0 0 rest).map Item.shown := by
    unfold anyCutReport
    simp only [optsOf_append, hpay, optsOf_items]
    simp [optsOf]
  have := congrArg (List.map UInt16.ofNat) (cutRest_numbers (cs ++ [l]) rest (4 + tok.length) 0 0)
  rw [numbersOf, r2]
  simpa [Item.shown, Function.comp_def] using this

-- an option of two bytes cut behind the first, one said to have twelve bytes of which two are there
example : ∃ d', deliverChunks 90 Dec.zero [[0x40, 1, 0], [1, 0xB2, 0x61], []] [0x62, 0x1C, 5, 6] =
    .ok (d', [.header ⟨0x40, 1, 0, 1⟩, .token [], .optionStart, .option 11 [0x61] false, .option 12 [5, 6] false, .optionsCompleted,
      .completed]) := ⟨_, rfl⟩
example : anyCutReport 0x40 1 0 1 [] [0xB2, 0x61, 0x62, 0x1C, 5, 6] [[0x40, 1, 0], [1, 0xB2, 0x61], [], [0x62, 0x1C, 5, 6]] =
    [.header ⟨0x40, 1, 0, 1⟩, .token [], .optionStart, .option 11 [0x61] false, .option 12 [5, 6] false, .optionsCompleted,
      .completed] := by
  simp [anyCutReport, cutRest, readRest, readExt, restOfBuffer]

end Verif.Props
