import Verif.Props.DecoderAnyCuts
import Verif.Props.StreamAny

/-! # C27: the exact report for arbitrary bytes behind header and token, in any number of segments -/
namespace Verif.Props
open Verif.Model Verif.Proofs Verif.Spec Header Dec

/-- What is reported of the payload, the bytes from byte `k` of the stream on. -/
def payloadPieces (k : Nat) (segs : List (List UInt8)) : List Event :=
  match piecesFrom k segs with
  | [] => [.payload [] true]
  | ps => pieceEvents ps

/-- What is reported for header, token and arbitrary bytes behind them that come in the segments `segs`: of every option value
the part in the segment in which the value starts; of the payload all bytes, segment by segment. -/
def anyStreamReport (b0 b1 b2 b3 : UInt8) (tok rest : List UInt8) (segs : List (List UInt8)) : List Event :=
  [.header ⟨b0, b1, b2, b3⟩, .token tok, .optionStart] ++
  (cutRest segs (4 + tok.length) 0 0 rest).map (fun i => .option (UInt16.ofNat i.number) i.value i.complete) ++
  [.optionsCompleted] ++
  (match (readRest 0 0 rest).2 with
   | none => []
   | some p => payloadPieces (4 + tok.length + rest.length - p.length) segs) ++
  [.completed]

theorem piecesFrom_end (segs : List (List UInt8)) : ∀ k, segs.flatten.length ≤ k → piecesFrom k segs = [] := by
  induction segs with
  | nil => intro k _; rfl
  | cons c cs ih =>
    intro k hk
    simp only [List.flatten_cons, List.length_append] at hk
    rw [piecesFrom, if_neg (by omega), ih _ (by omega)]

theorem pieceEvents_opts (l : List (List UInt8)) : optsOf (pieceEvents l) = [] := by
  induction l with
  | nil => rfl
  | cons x xs ih => rw [pieceEvents, ← List.singleton_append, optsOf_append, ih]; rfl

/-- C27 for any bytes behind header and token, exactly (partial: `in_avail()` is 0 at the end or the bytes do not end within an option;
with a signed character type no byte of header and token is 0xFF; the one case of C13): however they are cut into segments, the decoder
completes and reports exactly `anyStreamReport`. -/
theorem stream_any_exact_partial (k : SbKind) (junk : Dec) (hj : junk.tbuf.length = 8) (b0 b1 b2 b3 : UInt8) (tok rest : List UInt8)
    (ht : tok.length = (b0 &&& 0x0F).toNat) (h8 : tok.length ≤ 8) (hst : junk.opt.st ≠ .payload ∨ tok ≠ [] ∨ rest ≠ [])
    (hc : k.charSigned = true → ∀ b ∈ [b0, b1, b2, b3] ++ tok, b ≠ 0xFF) (hk : k.endNeg = false ∨ endsOpen rest = false)
    (cur : List UInt8) (more : List (List UInt8)) (hcut : cur ++ more.flatten = [b0, b1, b2, b3] ++ tok ++ rest) :
    ∃ N d', d'.st = .done ∧
      ∀ fuel, N ≤ fuel → SDec.processToDone k fuel (fresh junk) ⟨cur, more⟩ =
        .ok (d', anyStreamReport b0 b1 b2 b3 tok rest (cur :: more)) := by
  obtain ⟨X, hX1, hX2⟩ := spots_any_wire junk hj b0 b1 b2 b3 tok rest ht h8
  have hpay := any_payload_wire junk hj b0 b1 b2 b3 tok rest ht h8
  have hX2 := hX2 (cur :: more) (by simpa using hcut)
  have hlen : (cutRest (cur :: more) (4 + tok.length) 0 0 rest).length = (readRest 0 0 rest).1.length := by
    have h1 := congrArg List.length hX1
    have h2 := congrArg List.length hX2
    simp only [List.length_map, List.length_append] at h1 h2
    omega
  generalize hB : b0 :: b1 :: b2 :: b3 :: (tok ++ rest) = B at *
  have hBl : B.length = 4 + tok.length + rest.length := by rw [← hB]; simp; omega
  obtain ⟨hnd, n, e, hf, he⟩ := any_says junk hj b0 b1 b2 b3 tok rest ht h8 hst
  have hend := end_options_any junk hj b0 b1 b2 b3 tok rest ht h8
  rw [hB] at hnd hf he hend
  have hh : HOK (fresh junk) B := by
    rw [← hB]
    simp only [HOK, fresh, List.head?_cons, Option.mem_def, Option.some.injEq]
    rintro b rfl; omega
  have hcl : StreamClean k (fresh junk) B := by
    show Clean k (4 + (B.headD 0 &&& 0x0F).toNat) B
    rw [← hB, List.headD_cons, ← ht, Clean]
    cases hs : k.charSigned with
    | false => simp; omega
    | true =>
      have := hc hs
      rw [if_pos rfl]
      intro b hb
      apply this b
      rw [show b0 :: b1 :: b2 :: b3 :: (tok ++ rest) = ([b0, b1, b2, b3] ++ tok) ++ rest by simp, List.take_left' (by simp; omega)] at hb
      exact hb
  have htot : total ⟨cur, more⟩ = B := by rw [← hB]; simpa [total] using hcut
  have hg : Going (fresh junk) := by simp [Going, fresh]
  have hi : DInv (fresh junk) ⟨B, 0, true⟩ := reach_inv (Reach.init junk B true hj)
  have hrun := seg_run k (fresh junk) ⟨cur, more⟩ (by rw [htot]; exact ⟨hi, hh, hcl⟩) hg (by rw [htot, ← hB]; simp)
  rw [htot] at hrun
  have r1 : optsOf (reportOf b0 b1 b2 b3 tok rest) = (readRest 0 0 rest).1.map Item.shown := by
    unfold reportOf
    cases (readRest 0 0 rest).2 <;> simp only [optsOf_append, optsOf_items] <;> simp [optsOf]
  have ho := r1
  rw [← he, optsOf_append, optsOf_chunkEnd, hX1, List.append_cancel_left_eq] at ho
  have hflat : (cur :: more).flatten.length = B.length := by rw [← htot]; simp [total]
  rcases hrun with ⟨h1, n1, evs, s', a1, a2, ao, a3, a4, a5⟩ | ⟨h1, n1, fr, ffr, s', a1, a2, ao, a3, atl, a4, a5, a6⟩
  · have hce : chunkEnd true (feed true (fresh junk) B) =
        ((feed true (fresh junk) B).1 ++ finEv true [] (feed true (fresh junk) B).2.1,
          fin true [] (feed true (fresh junk) B).2.1) := by simp [chunkEnd, h1]
    rw [hce] at hnd hf he
    have hnp : (fin true [] (feed true (fresh junk) B).2.1).st ≠ .payload := by
      unfold fin; split
      · simp
      · exact h1
    have hend' : k.endNeg = false ∨ (fin true [] (feed true (fresh junk) B).2.1).st ≠ .options := by
      rcases hk with hk | hk
      · exact Or.inl hk
      · refine Or.inr fun h => ?_
        rw [hend.1 h] at hk
        cases hk
    obtain ⟨d', hd', hall⟩ := finish_stream hend' a4 hnp (hf _ ⟨rfl, rfl⟩) s' a1
    -- the payload is missing or empty
    have hPE : ∃ PE : List Event, optsOf PE = [] ∧
        reportOf b0 b1 b2 b3 tok rest = [.header ⟨b0, b1, b2, b3⟩, .token tok, .optionStart] ++
          (readRest 0 0 rest).1.map (fun i => .option (UInt16.ofNat i.number) i.value i.complete) ++ [.optionsCompleted] ++ PE ++ [.completed] ∧
        anyStreamReport b0 b1 b2 b3 tok rest (cur :: more) = [.header ⟨b0, b1, b2, b3⟩, .token tok, .optionStart] ++
          (cutRest (cur :: more) (4 + tok.length) 0 0 rest).map (fun i => .option (UInt16.ofNat i.number) i.value i.complete) ++
          [.optionsCompleted] ++ PE ++ [.completed] := by
      cases hp : (readRest 0 0 rest).2 with
      | none => exact ⟨[], rfl, by rw [reportOf, hp], by rw [anyStreamReport, hp]⟩
      | some p =>
        rw [hp] at hpay
        have hp0 : p = [] := Classical.byContradiction fun h => h1 (hpay.2.2 h).2
        subst hp0
        refine ⟨[.payload [] true], rfl, by rw [reportOf, hp], ?_⟩
        rw [anyStreamReport, hp]
        simp only [List.length_nil, Nat.sub_zero, payloadPieces, piecesFrom_end (cur :: more) _ (by rw [hflat, hBl]; exact Nat.le_refl _)]
    obtain ⟨PE, hPE, hre, hac⟩ := hPE
    have heq : evs ++ e = anyStreamReport b0 b1 b2 b3 tok rest (cur :: more) := by
      refine eq_of_frame ?_ ?_
      · rw [Parts.frame_eq (a3.append (Parts.refl e)), he, hac, hre]
        simp only [List.map_append, frame_items, hlen]
      · rw [optsOf_append, ao, ho, ← hX2, hac]
        simp only [optsOf_append, hPE, optsOf_items]
        simp [optsOf]
    refine ⟨n1 + n, d', hd', fun fuel hfu => ?_⟩
    obtain ⟨g, rfl⟩ := Nat.exists_eq_add_of_le hfu
    rw [Nat.add_assoc, a5, hall, ← heq]; rfl
  · have he' : e = [.completed] := by
      have := hf ⟨[], 0, true⟩ ⟨rfl, rfl⟩
      exact Finish.unique this (finish_payloadDone (by simp [chunkEnd, h1]))
    subst he'
    have hX0 : X.map Item.shown = [] := by rw [← ho]; rfl
    rw [hX0, List.append_nil] at hX2
    have hce : (chunkEnd true (feed true (fresh junk) B)).1 = (feed true (fresh junk) B).1 := by
      simp [chunkEnd, h1]
    rw [hce, a1] at he
    have hre : (feed true (fresh junk) B).2.2 ≠ [] := by
      rw [← a4]; intro h; exact a5 (List.append_eq_nil_iff.1 h).1
    obtain ⟨p, hp, hpp, hpn⟩ : ∃ p, (readRest 0 0 rest).2 = some p ∧ (feed true (fresh junk) B).2.2 = p ∧ p.length ≤ rest.length := by
      cases hp : (readRest 0 0 rest).2 with
      | none => rw [hp] at hpay; exact absurd h1 hpay
      | some p =>
        rw [hp] at hpay
        obtain ⟨⟨q, hq⟩, p1, p2⟩ := hpay
        have hp0 : p ≠ [] := fun h => p1 h h1
        exact ⟨p, rfl, (p2 hp0).1, by rw [hq]; simp⟩
    rw [hpp] at he a4 hre
    have hffr : ffr = [.header ⟨b0, b1, b2, b3⟩, .token tok, .optionStart] ++
        (readRest 0 0 rest).1.map (fun i => .option (UInt16.ofNat i.number) i.value i.complete) ++ [.optionsCompleted] := by
      rw [reportOf, hp] at he
      exact List.append_inj_left' (List.append_inj_left' he rfl) rfl
    have hpieces := pieces_tail atl a5 (4 + tok.length + rest.length - p.length) (by rw [htot, a4, hBl]; omega)
    obtain ⟨n2, d', hd', hall⟩ := payload_phase k _ h1 s'.more
    have hfirst : Event.payload s'.cur (s'.more.all (·.isEmpty)) :: pays s'.more =
        payloadPieces (4 + tok.length + rest.length - p.length) (cur :: more) := by
      have : s'.more.all (·.isEmpty) = (piecesFrom 0 s'.more).isEmpty := by
        rw [piecesFrom_zero, Bool.eq_iff_iff]; simp
      rw [payloadPieces, hpieces]
      simp only [pieceEvents]
      rw [pays_pieces, this]
    have hpo : optsOf (payloadPieces (4 + tok.length + rest.length - p.length) (cur :: more)) = [] := by
      rw [payloadPieces, hpieces]; exact pieceEvents_opts _
    have heq : fr ++ (Event.payload s'.cur (s'.more.all (·.isEmpty)) :: pays s'.more) ++ [.completed] =
        anyStreamReport b0 b1 b2 b3 tok rest (cur :: more) := by
      rw [hfirst]
      refine eq_of_frame ?_ ?_
      · unfold anyStreamReport
        simp only [List.map_append, Parts.frame_eq a3, hffr, frame_items, hlen, hp]
      · have : optsOf (anyStreamReport b0 b1 b2 b3 tok rest (cur :: more)) =
            (cutRest (cur :: more) (4 + tok.length) 0 0 rest).map Item.shown := by
          unfold anyStreamReport
          simp only [optsOf_append, hp, hpo, optsOf_items]
          simp [optsOf]
        rw [this, optsOf_append, optsOf_append, ao, hpo, hX2]
        simp [optsOf]
    refine ⟨n1 + n2, d', hd', fun fuel hfu => ?_⟩
    obtain ⟨g, rfl⟩ := Nat.exists_eq_add_of_le hfu
    rw [Nat.add_assoc, a6, hall, ← heq]
    simp [preS]

-- an option of two bytes cut behind the first, one with a reserved length, and a payload in two segments
example : ∃ d', SDec.processToDone ⟨true, true⟩ 90 Dec.zero ⟨[0x40, 1, 0], [[1, 0xB2, 0x61], [], [0x62, 0x1F, 5, 0xFF, 7], [8]]⟩ =
    .ok (d', [.header ⟨0x40, 1, 0, 1⟩, .token [], .optionStart, .option 11 [0x61] false, .option 12 [] true, .optionsCompleted,
      .payload [7] false, .payload [8] true, .completed]) := ⟨_, rfl⟩
example : anyStreamReport 0x40 1 0 1 [] [0xB2, 0x61, 0x62, 0x1F, 5, 0xFF, 7, 8] [[0x40, 1, 0], [1, 0xB2, 0x61], [], [0x62, 0x1F, 5, 0xFF, 7], [8]] =
    [.header ⟨0x40, 1, 0, 1⟩, .token [], .optionStart, .option 11 [0x61] false, .option 12 [] true, .optionsCompleted,
      .payload [7] false, .payload [8] true, .completed] := by
  simp [anyStreamReport, cutRest, readRest, readExt, restOfBuffer, payloadPieces, piecesFrom, pieceEvents]
-- the marker at the end
example : ∃ d', SDec.processToDone ⟨true, true⟩ 90 Dec.zero ⟨[0x40, 1, 0], [[1, 0xFF], []]⟩ =
    .ok (d', anyStreamReport 0x40 1 0 1 [] [0xFF] [[0x40, 1, 0], [1, 0xFF], []]) := by
  have : anyStreamReport 0x40 1 0 1 [] [0xFF] [[0x40, 1, 0], [1, 0xFF], []] =
      [.header ⟨0x40, 1, 0, 1⟩, .token [], .optionStart, .optionsCompleted, .payload [] true, .completed] := by
    simp [anyStreamReport, cutRest, readRest, payloadPieces, piecesFrom]
  rw [this]
  exact ⟨_, rfl⟩

end Verif.Props
