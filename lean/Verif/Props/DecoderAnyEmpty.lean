import Verif.Props.DecoderAnyCuts

/-! # What is reported for arbitrary bytes in any buffers, the last of which may be empty (C16, C17) -/
namespace Verif.Props
open Verif.Model Verif.Proofs Verif.Spec Header Dec

/-- The options reported that are not among the bytes, by their numbers, when the bytes behind the token are `rest` and arrive in
the buffers `cs` and the final buffer `l`.  They appear only without payload and with an empty final buffer: the last option is
repeated with an empty value if it is complete and has a value; without options, enough empty buffers in a row make up an
option 0. -/
def madeUpAny (tok rest : List UInt8) (cs : List (List UInt8)) (l : List UInt8) : List Nat :=
  if (readRest 0 0 rest).2 = none ∧ l = [] then
    match (readRest 0 0 rest).1.getLast? with
    | none => if (if tok = [] then 3 else 2) ≤ trailing cs then [0] else []
    | some i => if i.complete = true ∧ i.value ≠ [] then [i.number] else []
  else []

/-- The whole report: `anyCutReport` with the made-up options behind those read. -/
def anyBufReport (b0 b1 b2 b3 : UInt8) (tok rest : List UInt8) (cs : List (List UInt8)) (l : List UInt8) : List Event :=
  [.header ⟨b0, b1, b2, b3⟩, .token tok, .optionStart] ++
  (cutRest (cs ++ [l]) (4 + tok.length) 0 0 rest).map (fun i => .option (UInt16.ofNat i.number) i.value i.complete) ++
  (madeUpAny tok rest cs l).map (fun n => .option (UInt16.ofNat n) [] true) ++
  [.optionsCompleted] ++
  (match (readRest 0 0 rest).2 with
   | none => []
   | some p => payloadEvents (payloadPart (4 + tok.length + rest.length - p.length) (cs ++ [l])).1
      (payloadPart (4 + tok.length + rest.length - p.length) (cs ++ [l])).2) ++
  [.completed]

theorem anyBufReport_plain {b0 b1 b2 b3 : UInt8} {tok rest : List UInt8} {cs : List (List UInt8)} {l : List UInt8}
    (h : madeUpAny tok rest cs l = []) : anyBufReport b0 b1 b2 b3 tok rest cs l = anyCutReport b0 b1 b2 b3 tok rest (cs ++ [l]) := by
  unfold anyBufReport anyCutReport
  rw [h]
  cases (readRest 0 0 rest).2 <;> simp

/-- The last byte of all is the payload marker, and the final buffer is empty. -/
theorem cuts_marker_empty (cs : List (List UInt8)) (d : Dec) (hb : BetweenBufs d cs.flatten)
    (hr : (feed false d cs.flatten).2.2 = []) (ho : (feed false d cs.flatten).2.1.st = .optionsDone)
    (hp : (feed false d cs.flatten).2.1.opt.st = .payload) :
    ∃ N d' evs, d'.st = .done ∧ Parts evs (feed false d cs.flatten).1 ∧ optsOf evs = bufOpts d (cs ++ [[]]) ∧
      ∀ fuel, N ≤ fuel → deliverChunks fuel d cs [] = .ok (d', evs ++ payloadEvents (payloadPart cs.flatten.length (cs ++ [[]])).1
        (payloadPart cs.flatten.length (cs ++ [[]])).2 ++ [.completed]) := by
  induction cs generalizing d with
  | nil =>
    simp only [List.flatten_nil, feed_nil] at *
    obtain ⟨d', hd', hall⟩ := finish_marker (c := ⟨[], 0, true⟩) ⟨rfl, rfl⟩ ho hp
    refine ⟨3, d', [], hd', .nil, by simp [bufOpts, spots_nil, optsOf], fun fuel hfu => ?_⟩
    obtain ⟨f, rfl⟩ := Nat.exists_eq_add_of_le hfu
    simp only [deliverChunks, hall f]
    simp [payloadPart, payloadEvents]
  | cons c cs ih =>
    by_cases hod : d.st = .optionsDone
    · -- the marker has been read: only empty buffers are left
      have hT : (c :: cs).flatten = [] := by
        apply Classical.byContradiction
        intro hT
        rw [payload_feed false d _ hod hT] at hr; exact hT hr
      rw [hT, feed_nil] at hp ⊢
      have hop : d.opt.st = .payload := hp
      have hc : c = [] := (List.append_eq_nil_iff.1 (List.flatten_cons ▸ hT)).1
      subst hc
      obtain ⟨N, d', h1, h2⟩ := rest_lost cs [] { d with st := .payload } rfl
      refine ⟨N + 1, d', [], h1, .nil, (bufOpts_quiet _ d (.inl hod)).symm, fun fuel hf => ?_⟩
      obtain ⟨f, rfl⟩ : ∃ g, fuel = g + 1 := ⟨fuel - 1, by omega⟩
      have hpr : Dec.process (f + 1) d ⟨[], 0, false⟩ = .ok ({ d with st := .payload }, ⟨[], 0, false⟩, [.payload [] false]) := by
        simp [Dec.process, stepNotify, Dec.step, hod, hop, notify, atEnd, Ctx.remainder]
      rw [deliverChunks, hpr]
      simp only [h2 (f + 1) (by omega)]
      simp [payloadPart, payloadEvents]
    · by_cases hc : c = []
      · subst hc
        simp only [List.flatten_cons, List.nil_append] at *
        have hT : cs.flatten ≠ [] := by intro h; rw [h, feed_nil] at ho; exact hod ho
        have hTl := List.length_pos_iff.2 hT
        rw [idle_feed false d _ hb.going hod hT] at hr ho hp ⊢
        obtain ⟨N, d', evs, hd', hpa, hop, hall⟩ := ih (idle d) (hb.idle hod) hr ho hp
        refine ⟨N + 1, d', idleEv d ++ evs, hd', (Parts.refl (idleEv d)).append hpa, ?_, fun fuel hfu => ?_⟩
        · rw [optsOf_append, optsOf_idleEv, hop, List.cons_append, bufOpts, spots_nil]; simp
        · rw [deliverChunks, idle_run d hb.going hod hb.nv fuel (by omega)]
          simp only [hall fuel (by omega)]
          have h1 : ¬ (cs.flatten.length = 0 ∨ cs.flatten.length < ([] : List UInt8).length) := by simp only [List.length_nil]; omega
          rw [List.cons_append, payloadPart, if_neg h1]
          simp
      · simp only [List.flatten_cons] at *
        have hr0 : (feed false d c).2.2 = [] := by
          apply Classical.byContradiction
          intro h
          rw [feed_rest_append false d c _ h] at hr
          exact h (List.append_eq_nil_iff.1 hr).1
        obtain ⟨hb1, n, hrun⟩ := hb.chunk hc hr0
        obtain ⟨fa1, fa2⟩ := feed_append false d c cs.flatten hr0
        rw [fa1] at hr ho hp
        obtain ⟨N, d', evs, hd', hpa, hop, hall⟩ := ih (feed false d c).2.1 hb1 hr ho hp
        refine ⟨max n N, d', (feed false d c).1 ++ evs, hd', ((Parts.refl (feed false d c).1).append hpa).trans fa2, ?_, fun fuel hfu => ?_⟩
        · rw [optsOf_append, optsOf_feed, hop, List.cons_append, bufOpts, if_neg hc]
        · rw [deliverChunks, hrun fuel (by omega)]
          simp only [hall fuel (by omega)]
          have hcl := List.length_pos_iff.2 hc
          have h1 : ¬ ((c ++ cs.flatten).length = 0 ∨ (c ++ cs.flatten).length < c.length) := by
            simp only [List.length_append]; omega
          rw [List.cons_append, payloadPart, if_neg h1]
          simp

/-- Header, token and the start of the options have been read. -/
theorem feed_to_options (last : Bool) (junk : Dec) (hj : junk.tbuf.length = 8) (b0 b1 b2 b3 : UInt8) (tok rest : List UInt8)
    (ht : tok.length = (b0 &&& 0x0F).toNat) (h8 : tok.length ≤ 8) (hr : rest ≠ []) :
    ∃ d, d.st = .options ∧ Ready d.opt ∧ d.holder = ⟨0, 0⟩ ∧ feed last (fresh junk) (b0 :: b1 :: b2 :: b3 :: (tok ++ rest)) =
      ([.header ⟨b0, b1, b2, b3⟩, .token tok, .optionStart] ++ (feed last d rest).1, (feed last d rest).2) := by
  rw [header_feed last (fresh junk) b0 b1 b2 b3 (tok ++ rest) rfl]
  generalize hd1 : ({ fresh junk with st := .headerDone, hdr := ⟨b0, b1, b2, b3⟩, hpos := 4 } : Dec) = d1
  have hd1s : d1.st = .headerDone := by rw [← hd1]
  have hd1h : d1.hdr.tokenLength.toNat = tok.length := by rw [← hd1, ht]; rfl
  have hd1b : d1.tbuf.length = 8 := by rw [← hd1]; exact hj
  by_cases htn : tok = []
  · subst htn
    rw [List.nil_append, token_feed_empty last d1 rest hd1s (by simpa using hd1h) hr, start_feed last _ rest rfl hr]
    exact ⟨_, rfl, Or.inl rfl, rfl, rfl⟩
  · obtain ⟨d2, e1, -, -, -, e5⟩ := token_feed last tok d1 rest hd1s htn hd1h h8 hd1b
    rw [e5, start_feed last d2 rest e1 hr]
    exact ⟨_, rfl, Or.inl rfl, rfl, rfl⟩

/-- C16, C17: whatever bytes follow header and token, and whatever the buffers in which all this arrives, empty ones included
everywhere, the decoder runs to completion and reports exactly `anyBufReport`.  The condition on the decoder is the one of C13. -/
theorem any_buffers_exact (junk : Dec) (hj : junk.tbuf.length = 8) (b0 b1 b2 b3 : UInt8) (tok rest : List UInt8)
    (ht : tok.length = (b0 &&& 0x0F).toNat) (h8 : tok.length ≤ 8)
    (hst : junk.opt.st ≠ .payload ∨ tok ≠ [] ∨ rest ≠ [])
    (cs : List (List UInt8)) (l : List UInt8) (hcut : cs.flatten ++ l = b0 :: b1 :: b2 :: b3 :: (tok ++ rest)) :
    ∃ N d', d'.st = .done ∧
      ∀ fuel, N ≤ fuel → deliverChunks fuel (fresh junk) cs l = .ok (d', anyBufReport b0 b1 b2 b3 tok rest cs l) := by
  by_cases hl : l ≠ []
  · rw [anyBufReport_plain (by unfold madeUpAny; rw [if_neg (fun h => hl h.2)])]
    exact any_cut_exact junk hj b0 b1 b2 b3 tok rest ht h8 hst cs l hcut (Or.inl hl)
  have hl : l = [] := Classical.byContradiction hl
  subst hl
  cases hp : (readRest 0 0 rest).2 with
  | some p =>
    rw [anyBufReport_plain (by unfold madeUpAny; rw [hp, if_neg (by simp)])]
    cases p with
    | cons b p => exact any_cut_exact junk hj b0 b1 b2 b3 tok rest ht h8 hst cs [] hcut (Or.inr ⟨b, p, hp⟩)
    | nil =>
      have hr : rest ≠ [] := by intro h; subst h; simp [readRest_nil] at hp
      obtain ⟨d, e1, e2, e3, e4⟩ := feed_to_options false junk hj b0 b1 b2 b3 tok rest ht h8 hr
      obtain ⟨d', f1, f2, f3⟩ := marker_end rest 0 0 d e1 e2 (by rw [e3]; rfl) hp
      rw [f1] at e4
      obtain ⟨X, hX1, hX2⟩ := spots_any_wire junk hj b0 b1 b2 b3 tok rest ht h8
      have hX2 := hX2 (cs ++ [[]]) (by rw [← hcut]; simp)
      rw [List.append_nil] at hcut
      have hwl : cs.flatten.length = 4 + tok.length + rest.length := by rw [hcut]; simp; omega
      rw [← hcut] at e4 hX1 hX2
      have hb : BetweenBufs (fresh junk) cs.flatten := by
        refine ⟨reach_inv (Reach.init junk [] false hj), ?_, by simp [Going, fresh], by simp [NV, fresh]⟩
        rw [hcut]
        simp only [HOK, fresh, List.head?_cons, Option.mem_def, Option.some.injEq]
        rintro b rfl; omega
      obtain ⟨N, d'', evs, g1, g2, g3, g4⟩ := cuts_marker_empty cs (fresh junk) hb (by rw [e4]) (by rw [e4]; exact f2) (by rw [e4]; exact f3)
      have hlen : (cutRest (cs ++ [[]]) (4 + tok.length) 0 0 rest).length = (readRest 0 0 rest).1.length := by
        have h1 := congrArg List.length hX1
        have h2 := congrArg List.length hX2
        simp only [List.length_map, List.length_append] at h1 h2
        omega
      have hev : (readRest 0 0 rest).1.map Item.event =
          (readRest 0 0 rest).1.map (fun i => Event.option (UInt16.ofNat i.number) i.value i.complete) := rfl
      suffices h : evs = [.header ⟨b0, b1, b2, b3⟩, .token tok, .optionStart] ++
          (cutRest (cs ++ [[]]) (4 + tok.length) 0 0 rest).map (fun i => .option (UInt16.ofNat i.number) i.value i.complete) ++
          [.optionsCompleted] by
        refine ⟨N, d'', g1, fun fuel hfu => ?_⟩
        rw [g4 fuel hfu, h, anyCutReport, hp, hwl]
        rfl
      have r3 := optsOf_feed false (fresh junk) cs.flatten
      rw [e4] at r3 g2
      refine eq_of_frame ?_ ?_
      · rw [Parts.frame_eq g2, hev]
        simp only [List.map_append, frame_items, hlen, List.append_assoc]
      · simp only [optsOf_append, hev, optsOf_items, hX1] at r3
        have hX0 : X.map Item.shown = [] := by
          have := congrArg List.length r3
          simp [optsOf] at this
          rw [this]; rfl
        rw [g3, bufOpts_eq]
        simp only [optsOf_append, optsOf_items, hX2, hX0]
        simp [optsOf]
  | none =>
    by_cases hr : rest = []
    · subst hr
      have l0 := b0.toNat_lt
      have l1 := b1.toNat_lt
      have l2 := b2.toNat_lt
      have l3 := b3.toNat_lt
      rw [tkl_toNat] at ht
      have a0 : UInt8.ofNat (64 * (b0.toNat / 64) + 16 * (b0.toNat / 16 % 4) + tok.length) = b0 := by
        apply UInt8.toNat_inj.1; simp; omega
      have a1 : UInt8.ofNat b1.toNat = b1 := by simp
      have a2 : UInt8.ofNat ((b2.toNat * 256 + b3.toNat) / 256) = b2 := by
        apply UInt8.toNat_inj.1; simp; omega
      have a3 : UInt8.ofNat ((b2.toNat * 256 + b3.toNat) % 256) = b3 := by
        apply UInt8.toNat_inj.1; simp
      have key := every_cut_exact ⟨b0.toNat / 64, b0.toNat / 16 % 4, b1.toNat, b2.toNat * 256 + b3.toNat, tok, [], none⟩
        ⟨by simp only; omega, by simp only; omega, l1, by simp only; omega, by simpa using h8, by simp [OptsOk], by simp⟩ []
        IsOpts.nil junk hj (by simpa using hst) cs []
        (by rw [hcut]; simp only [wire, encHeader, encPayload, a0, a1, a2, a3]; simp)
      obtain ⟨N, d', k1, k2⟩ := key
      refine ⟨N, d', k1, fun fuel hfu => ?_⟩
      rw [k2 fuel hfu]
      simp [exactReport, anyBufReport, a0, a2, a3, cutOptions, cutRest_nil, readRest_nil, phantoms, madeUpAny]
    · obtain ⟨d, e1, e2, e3, e4⟩ := feed_to_options false junk hj b0 b1 b2 b3 tok rest ht h8 hr
      obtain ⟨es, d', f1, f2, k, e, f3, f4⟩ := quiet_end rest 0 0 d e1 e2 (by rw [e3]; rfl) (by rw [e3]; rfl) (Or.inl hr) hp
      rw [f1] at e4
      obtain ⟨X, hX1, hX2⟩ := spots_any_wire junk hj b0 b1 b2 b3 tok rest ht h8
      have hX2 := hX2 (cs ++ [[]]) (by rw [← hcut]; simp)
      rw [List.append_nil] at hcut
      rw [← hcut] at e4 hX1 hX2
      have hb : BetweenBufs (fresh junk) cs.flatten := by
        refine ⟨reach_inv (Reach.init junk [] false hj), ?_, by simp [Going, fresh], by simp [NV, fresh]⟩
        rw [hcut]
        simp only [HOK, fresh, List.head?_cons, Option.mem_def, Option.some.injEq]
        rintro b rfl; omega
      have hid : idles (trailing cs) (feed false (fresh junk) cs.flatten).2.1 = (d', []) := by rw [e4, idles_options _ _ f2]
      obtain ⟨N, d'', evs, g1, g2, g3, g4⟩ := cuts_empty_last cs (fresh junk) hb (by rw [e4]) (by rw [e4]; simp [f2])
        (k := k) (e := e) (by rw [hid]; exact f3)
      have hlen : (cutRest (cs ++ [[]]) (4 + tok.length) 0 0 rest).length = (readRest 0 0 rest).1.length := by
        have h1 := congrArg List.length hX1
        have h2 := congrArg List.length hX2
        simp only [List.length_map, List.length_append] at h1 h2
        omega
      have hev : (readRest 0 0 rest).1.map Item.event =
          (readRest 0 0 rest).1.map (fun i => Event.option (UInt16.ofNat i.number) i.value i.complete) := rfl
      have hmade : madeUpLast 0 (readRest 0 0 rest).1 = madeUpAny tok rest cs [] := by
        unfold madeUpAny madeUpLast
        rw [if_pos ⟨hp, rfl⟩]
        obtain ⟨i, is, hi⟩ := List.exists_cons_of_ne_nil (readRest_some_item _ _ _ hr hp)
        rw [hi, List.getLast?_cons]
      rw [hmade, hev] at f4
      rw [hid, e4] at g2
      suffices h : evs = anyBufReport b0 b1 b2 b3 tok rest cs [] by exact ⟨N, d'', g1, h ▸ g4⟩
      have r3 := optsOf_feed false (fresh junk) cs.flatten
      rw [e4, optsOf_append] at r3
      unfold anyBufReport
      rw [hp]
      refine eq_of_frame ?_ ?_
      · rw [Parts.frame_eq g2]
        simp only [List.append_nil, List.append_assoc, f4]
        simp only [List.map_append, frame_items, hlen, List.append_assoc, List.cons_append, List.nil_append, List.map_cons]
      · have f5 := congrArg optsOf f4
        simp only [optsOf_append, optsOf_items, hX1] at f5
        have r4 : optsOf es = (spots (fresh junk) cs.flatten).map Spot.shown := by simpa [optsOf] using r3
        rw [r4] at f5
        simp only [List.append_assoc, List.append_cancel_left_eq] at f5
        rw [g3, bufOpts_eq, f5]
        simp only [optsOf_append, optsOf_items, hX2, List.append_assoc]
        simp [optsOf]

-- a byte that claims an option header of two more bytes, then an empty final buffer; and a complete option with a value
example : madeUpAny [] [0xB2, 1, 2] [[0x40, 1, 0, 1], [0xB2, 1, 2]] [] = [11] := by decide +kernel
example : madeUpAny [] [0xB3, 1, 2] [[0x40, 1, 0, 1], [0xB3, 1, 2]] [] = [] := by decide +kernel
example : anyBufReport 0x40 1 0 1 [] [0xB2, 1, 2, 0xB3, 7] [[0x40, 1, 0, 1, 0xB2, 1], [2, 0xB3], [7]] [] =
    [.header ⟨0x40, 1, 0, 1⟩, .token [], .optionStart, .option 11 [1] false, .option 22 [7] false, .optionsCompleted, .completed] := by
  decide +kernel

end Verif.Props
