import Verif.Props.DecoderAnyEmpty
import Verif.Props.DiagnosticCuts

/-! # What is shown, and which path is built, for arbitrary bytes in any buffers (C56, C57) -/
namespace Verif.Props
open Verif.Model Verif.Proofs Verif.Spec Header Dec

/-- The options that are shown of arbitrary bytes `rest` behind the token in the buffers `cs` and the final buffer `l`: their
numbers modulo 2^16, of each value the part in the buffer in which it starts, and behind them those that are made up. -/
def shownAny (tok rest : List UInt8) (cs : List (List UInt8)) (l : List UInt8) : List Opt :=
  (cutRest (cs ++ [l]) (4 + tok.length) 0 0 rest).map (fun i => ⟨i.number % 65536, i.value⟩) ++
  (madeUpAny tok rest cs l).map (fun n => ⟨n % 65536, []⟩)

theorem ofNat_mod16 (n : Nat) : UInt16.ofNat (n % 65536) = UInt16.ofNat n := by
  apply UInt16.toNat_inj.1
  simp only [UInt16.toNat_ofNat']
  omega

theorem shownAny_small (tok rest : List UInt8) (cs : List (List UInt8)) (l : List UInt8) :
    ∀ o ∈ shownAny tok rest cs l, o.number < 65536 := by
  intro o ho
  simp only [shownAny, List.mem_append, List.mem_map] at ho
  rcases ho with ⟨i, -, rfl⟩ | ⟨n, -, rfl⟩ <;> exact Nat.mod_lt _ (by omega)

theorem showEvents_items : ∀ is : List Item,
    showEvents (is.map fun i => Event.option (UInt16.ofNat i.number) i.value i.complete) =
      showEvents ((is.map fun i => (⟨i.number % 65536, i.value⟩ : Opt)).map fun o => Event.option (UInt16.ofNat o.number) o.value true)
  | [] => rfl
  | i :: is => by
    simp only [List.map_cons, showEvents, ofNat_mod16]
    rw [showEvents_items is]
    rfl

theorem showEvents_madeUp : ∀ ns : List Nat,
    showEvents (ns.map fun n => Event.option (UInt16.ofNat n) [] true) =
      showEvents ((ns.map fun n => (⟨n % 65536, []⟩ : Opt)).map fun o => Event.option (UInt16.ofNat o.number) o.value true)
  | [] => rfl
  | n :: ns => by
    simp only [List.map_cons, showEvents, ofNat_mod16]
    rw [showEvents_madeUp ns]

theorem buildUri_items : ∀ (is : List Item) (u : Option (List UInt8)),
    (is.map fun i => Event.option (UInt16.ofNat i.number) i.value i.complete).foldl buildUri u =
      ((is.map fun i => (⟨i.number % 65536, i.value⟩ : Opt)).map fun o => Event.option (UInt16.ofNat o.number) o.value true).foldl buildUri u
  | [], _ => rfl
  | i :: is, u => by
    simp only [List.map_cons, List.foldl_cons, ofNat_mod16]
    rw [buildUri_items is]
    rfl

theorem buildUri_madeUp : ∀ (ns : List Nat) (u : Option (List UInt8)),
    (ns.map fun n => Event.option (UInt16.ofNat n) [] true).foldl buildUri u =
      ((ns.map fun n => (⟨n % 65536, []⟩ : Opt)).map fun o => Event.option (UInt16.ofNat o.number) o.value true).foldl buildUri u
  | [], _ => rfl
  | n :: ns, u => by
    simp only [List.map_cons, List.foldl_cons, ofNat_mod16]
    rw [buildUri_madeUp ns]

/-- The report in three parts. -/
theorem anyBufReport_parts (b0 b1 b2 b3 : UInt8) (tok rest : List UInt8) (cs : List (List UInt8)) (l : List UInt8) :
    anyBufReport b0 b1 b2 b3 tok rest cs l = [.header ⟨b0, b1, b2, b3⟩, .token tok, .optionStart] ++
      ((cutRest (cs ++ [l]) (4 + tok.length) 0 0 rest).map (fun i => .option (UInt16.ofNat i.number) i.value i.complete) ++
       ((madeUpAny tok rest cs l).map (fun n => .option (UInt16.ofNat n) [] true) ++ ([.optionsCompleted] ++
      ((match (readRest 0 0 rest).2 with
       | none => []
       | some p => payloadEvents (payloadPart (4 + tok.length + rest.length - p.length) (cs ++ [l])).1
          (payloadPart (4 + tok.length + rest.length - p.length) (cs ++ [l])).2) ++ [.completed])))) := by
  simp only [anyBufReport, List.append_assoc]
  cases (readRest 0 0 rest).2 <;> rfl

/-- The same report with the options as they are shown. -/
theorem showEvents_anyBuf (b0 b1 b2 b3 : UInt8) (tok rest : List UInt8) (cs : List (List UInt8)) (l : List UInt8)
    (ht : tok.length = (b0 &&& 0x0F).toNat) :
    showEvents (anyBufReport b0 b1 b2 b3 tok rest cs l) =
      (showEvents ((shownAny tok rest cs l).map fun o => Event.option (UInt16.ofNat o.number) o.value true)).map fun ls =>
        .header (UInt8.ofNat tok.length) (UInt16.ofNat (b2.toNat * 256 + b3.toNat)) :: .token tok :: (ls ++
          (match (readRest 0 0 rest).2 with
           | none => []
           | some p => payloadLines (payloadPart (4 + tok.length + rest.length - p.length) (cs ++ [l])).1
              (payloadPart (4 + tok.length + rest.length - p.length) (cs ++ [l])).2) ++ [.completed]) := by
  have hh : showEvent (.header ⟨b0, b1, b2, b3⟩) = some [.header (UInt8.ofNat tok.length) (UInt16.ofNat (b2.toNat * 256 + b3.toNat))] := by
    simp only [showEvent, Option.some.injEq, List.cons.injEq, and_true, Line.header.injEq]
    constructor
    · rw [ht]; simp [tokenLength]
    · apply UInt16.toNat_inj.1
      have := b2.toNat_lt
      have := b3.toNat_lt
      rw [Header.messageId, ntoh_toNat]
      simp only [UInt16.toNat_ofNat']
      omega
  rw [anyBufReport_parts, showEvents_append, showEvents_append, showEvents_append, showEvents_append, showEvents_append, showEvents_items,
    showEvents_madeUp, shownAny, List.map_append, showEvents_append]
  simp only [showEvents, hh]
  simp only [showEvent]
  cases showEvents (List.map (fun o : Opt => Event.option (UInt16.ofNat o.number) o.value true)
      (List.map (fun i => (⟨i.number % 65536, i.value⟩ : Opt)) (cutRest (cs ++ [l]) (4 + tok.length) 0 0 rest))) with
  | none => rfl
  | some a =>
    cases showEvents (List.map (fun o : Opt => Event.option (UInt16.ofNat o.number) o.value true)
      (List.map (fun n => (⟨n % 65536, []⟩ : Opt)) (madeUpAny tok rest cs l))) with
    | none => rfl
    | some b => cases (readRest 0 0 rest).2 <;> simp [showEvents_payload, showEvents, showEvent]

theorem options_inside_iff (os : List Opt) (hn : ∀ o ∈ os, o.number < 65536) :
    (∃ ls, showEvents (os.map fun o => Event.option (UInt16.ofNat o.number) o.value true) = some ls) ↔
      ∀ o ∈ os, o.number ∈ textNumbers → o.value.length ≤ 127 := by
  have hnum : ∀ o ∈ os, (UInt16.ofNat o.number).toNat = o.number := fun o ho => by
    have := hn o ho
    rw [UInt16.toNat_ofNat']; omega
  rw [diagnostic_inside_iff]
  constructor
  · intro h o ho ht
    exact h (UInt16.ofNat o.number) o.value true (List.mem_map.2 ⟨o, ho, rfl⟩) (by rw [hnum o ho]; exact ht)
  · intro h n v l he ht
    obtain ⟨o, ho, e⟩ := List.mem_map.1 he
    cases e
    rw [hnum o ho] at ht
    exact h o ho ht

/-- C56, for arbitrary bytes behind header and token in any buffers (partial: as `diagnostic_cut_exact_partial`, what is shown is made
of options whose format the code knows, with numbers of at most eight bytes and texts of at most 127 bytes without zero): the lines
are those of the header, the token, the options as they are seen in the buffers, the beginning of the payload and the end. -/
theorem diagnostic_any_exact_partial (junk : Dec) (hj : junk.tbuf.length = 8) (b0 b1 b2 b3 : UInt8) (tok rest : List UInt8)
    (ht : tok.length = (b0 &&& 0x0F).toNat) (h8 : tok.length ≤ 8) (hst : junk.opt.st ≠ .payload ∨ tok ≠ [] ∨ rest ≠ [])
    (cs : List (List UInt8)) (l : List UInt8) (hcut : cs.flatten ++ l = b0 :: b1 :: b2 :: b3 :: (tok ++ rest))
    (hs : ∀ o ∈ shownAny tok rest cs l, ∃ f, Showable o f) :
    ∃ N d' evs ls, (∀ fuel, N ≤ fuel → deliverChunks fuel (fresh junk) cs l = .ok (d', evs)) ∧ OwedLines (shownAny tok rest cs l) ls ∧
      showEvents evs = some (.header (UInt8.ofNat tok.length) (UInt16.ofNat (b2.toNat * 256 + b3.toNat)) :: .token tok :: (ls ++
        (match (readRest 0 0 rest).2 with
         | none => []
         | some p => payloadLines (payloadPart (4 + tok.length + rest.length - p.length) (cs ++ [l])).1
            (payloadPart (4 + tok.length + rest.length - p.length) (cs ++ [l])).2) ++ [.completed])) := by
  obtain ⟨N, d', -, h⟩ := any_buffers_exact junk hj b0 b1 b2 b3 tok rest ht h8 hst cs l hcut
  obtain ⟨ls, e, hl⟩ := options_shown (shownAny tok rest cs l) hs
  refine ⟨N, d', _, ls, h, hl, ?_⟩
  rw [showEvents_anyBuf b0 b1 b2 b3 tok rest cs l ht, e]
  rfl

/-- C56: whatever bytes follow header and token, and whatever the buffers, the observer stays inside its memory exactly if no text
option has 128 or more bytes in the buffer in which its value starts (numbers are taken modulo 2^16). -/
theorem diagnostic_any_inside_iff (junk : Dec) (hj : junk.tbuf.length = 8) (b0 b1 b2 b3 : UInt8) (tok rest : List UInt8)
    (ht : tok.length = (b0 &&& 0x0F).toNat) (h8 : tok.length ≤ 8) (hst : junk.opt.st ≠ .payload ∨ tok ≠ [] ∨ rest ≠ [])
    (cs : List (List UInt8)) (l : List UInt8) (hcut : cs.flatten ++ l = b0 :: b1 :: b2 :: b3 :: (tok ++ rest)) :
    ∃ N d' evs, (∀ fuel, N ≤ fuel → deliverChunks fuel (fresh junk) cs l = .ok (d', evs)) ∧
      ((∃ ls, showEvents evs = some ls) ↔
        ∀ i ∈ cutRest (cs ++ [l]) (4 + tok.length) 0 0 rest, i.number % 65536 ∈ textNumbers → i.value.length ≤ 127) := by
  obtain ⟨N, d', -, h⟩ := any_buffers_exact junk hj b0 b1 b2 b3 tok rest ht h8 hst cs l hcut
  refine ⟨N, d', _, h, ?_⟩
  rw [showEvents_anyBuf b0 b1 b2 b3 tok rest cs l ht]
  have key := options_inside_iff (shownAny tok rest cs l) (shownAny_small tok rest cs l)
  have e : (∃ ls, Option.map (fun ls => Line.header (UInt8.ofNat tok.length) (UInt16.ofNat (b2.toNat * 256 + b3.toNat)) :: .token tok :: (ls ++
          (match (readRest 0 0 rest).2 with
           | none => []
           | some p => payloadLines (payloadPart (4 + tok.length + rest.length - p.length) (cs ++ [l])).1
              (payloadPart (4 + tok.length + rest.length - p.length) (cs ++ [l])).2) ++ [.completed]))
        (showEvents ((shownAny tok rest cs l).map fun o => Event.option (UInt16.ofNat o.number) o.value true)) = some ls) ↔
      ∃ ls, showEvents ((shownAny tok rest cs l).map fun o => Event.option (UInt16.ofNat o.number) o.value true) = some ls := by
    cases showEvents ((shownAny tok rest cs l).map fun o => Event.option (UInt16.ofNat o.number) o.value true) <;> simp
  refine (e.trans key).trans ⟨fun h i hi => h ⟨i.number % 65536, i.value⟩ ?_, fun h o ho => ?_⟩
  · exact List.mem_append_left _ (List.mem_map.2 ⟨i, hi, rfl⟩)
  · simp only [shownAny, List.mem_append, List.mem_map] at ho
    rcases ho with ⟨i, hi, rfl⟩ | ⟨n, -, rfl⟩
    · exact h i hi
    · intro _; exact Nat.zero_le _

theorem buildUri_payload (q : List UInt8) (n : Nat) (v : Option (List UInt8)) : (payloadEvents q n).foldl buildUri v = v := by
  have hr : ∀ k, (List.replicate k (Event.payload [] false)).foldl buildUri v = v := by
    intro k
    induction k with
    | zero => rfl
    | succ k ih => exact ih
  cases n with
  | zero => rfl
  | succ n => exact hr _

/-- The segments of the path among the options that are shown. -/
def pathAny (tok rest : List UInt8) (cs : List (List UInt8)) (l : List UInt8) : List (List UInt8) :=
  ((shownAny tok rest cs l).filter fun o => o.number = 11).map Opt.value

/-- C57, exactly, for arbitrary bytes behind header and token in any buffers: the text is that of `pathAny` whenever there is room for
it, and otherwise the string is asked for more than it holds. -/
theorem uri_text_any_exact (junk : Dec) (hj : junk.tbuf.length = 8) (b0 b1 b2 b3 : UInt8) (tok rest : List UInt8)
    (ht : tok.length = (b0 &&& 0x0F).toNat) (h8 : tok.length ≤ 8) (hst : junk.opt.st ≠ .payload ∨ tok ≠ [] ∨ rest ≠ [])
    (cs : List (List UInt8)) (l : List UInt8) (hcut : cs.flatten ++ l = b0 :: b1 :: b2 :: b3 :: (tok ++ rest)) (u : Option (List UInt8)) :
    ∃ N d' evs, (∀ fuel, N ≤ fuel → deliverChunks fuel (fresh junk) cs l = .ok (d', evs)) ∧
      evs.foldl buildUri u = if (pathText (pathAny tok rest cs l)).length ≤ 127 then some (pathText (pathAny tok rest cs l)) else none := by
  obtain ⟨N, d', -, h⟩ := any_buffers_exact junk hj b0 b1 b2 b3 tok rest ht h8 hst cs l hcut
  refine ⟨N, d', _, h, ?_⟩
  have hn := shownAny_small tok rest cs l
  have hfold : (anyBufReport b0 b1 b2 b3 tok rest cs l).foldl buildUri u =
      ((shownAny tok rest cs l).map fun o => Event.option (UInt16.ofNat o.number) o.value true).foldl buildUri (some []) := by
    rw [anyBufReport_parts, List.foldl_append, List.foldl_append, List.foldl_append, List.foldl_append, List.foldl_append, buildUri_items,
      buildUri_madeUp, shownAny, List.map_append, List.foldl_append]
    cases (readRest 0 0 rest).2 with
    | none => rfl
    | some p =>
      simp only [buildUri_payload]
      rfl
  rw [hfold]
  by_cases hr : (pathText (pathAny tok rest cs l)).length ≤ 127
  · rw [if_pos hr, buildUri_opts _ hn [] (by rw [List.length_nil, Nat.zero_add]; exact hr)]
    rfl
  · rw [if_neg hr]
    exact buildUri_opts_over _ hn [] (by simp) (by rw [List.length_nil, Nat.zero_add]; exact Nat.lt_of_not_le hr)

-- option 65536 + 11 counts as a path segment; the second segment is cut off by the end
example : pathAny [] [0xE1, 0xFE, 0xFE, 0x61, 0x03, 0x62] [[0x40, 1, 0, 1]] [0xE1, 0xFE, 0xFE, 0x61, 0x03, 0x62] = [[0x61], [0x62]] := by
  decide +kernel

end Verif.Props
