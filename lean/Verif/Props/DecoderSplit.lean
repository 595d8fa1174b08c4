import Verif.Proofs.Split
import Verif.Props.DecoderMessage

/-! # Decoding a message that arrives in several buffers (C16) -/
namespace Verif.Props
open Verif.Model Verif.Proofs Verif.Spec Header Dec

/-- A message delivered in several buffers: each buffer but the last goes through the one-call loop
(src/coap/decoder.h:260-264) without the final flag, the last one is stepped until the decoder is done. -/
def deliverChunks (fuel : Nat) (d : Dec) : List (List UInt8) → List UInt8 → Except Fault (Dec × List Event)
  | [], l =>
    match processToDone fuel d ⟨l, 0, true⟩ with
    | .error e => .error e
    | .ok (d, _, evs) => .ok (d, evs)
  | c :: cs, l =>
    match Dec.process fuel d ⟨c, 0, false⟩ with
    | .error e => .error e
    | .ok (d, _, evs) =>
      match deliverChunks fuel d cs l with
      | .error e => .error e
      | .ok (d, evs') => .ok (d, evs ++ evs')

/-- What the caller learns about an event apart from option values: kind, header, token, option number,
payload. -/
def outline : Event → Event
  | .option n _ _ => .option n [] true
  | e => e

theorem Parts.outline_eq {a b : List Event} (h : Parts a b) : a.map outline = b.map outline := by
  induction h with
  | nil => rfl
  | @cons e f es fs p _ ih =>
    have : outline e = outline f := by
      cases e <;> simp only [Part] at p
      case option n v l => obtain ⟨v', l', rfl, -⟩ := p; rfl
      all_goals rw [p]
    simp [this, ih]

theorem chunks_feed (cs : List (List UInt8)) (l : List UInt8) (d : Dec) (hi : DInv d ⟨l, 0, true⟩)
    (hh : HOK d (cs.flatten ++ l)) (hg : Going d) (hcs : ∀ c ∈ cs, c ≠ []) (hl : l ≠ [])
    (hrest : (feed true d (cs.flatten ++ l)).2.2.length ≤ l.length)
    (hnd : (chunkEnd true (feed true d (cs.flatten ++ l))).2.st ≠ .done) {k : Nat} {e : List Event}
    (hf : ∀ c, AtEof c → Finish k (chunkEnd true (feed true d (cs.flatten ++ l))).2 c e) :
    ∃ N d' evs, d'.st = .done ∧ Parts evs ((chunkEnd true (feed true d (cs.flatten ++ l))).1 ++ e) ∧
      ∀ fuel, N ≤ fuel → deliverChunks fuel d cs l = .ok (d', evs) := by
  induction cs generalizing d with
  | nil =>
    simp only [List.flatten_nil, List.nil_append] at *
    obtain ⟨N, d', -, hd', hall⟩ := deliver_of_feed (c := ⟨l, 0, true⟩) hi hh hl hg rfl hnd (hf _ ⟨rfl, rfl⟩)
    refine ⟨N, d', _, hd', Parts.refl _, fun fuel hfu => ?_⟩
    obtain ⟨f, rfl⟩ := Nat.exists_eq_add_of_le hfu
    simp only [deliverChunks, hall f]
    rfl
  | cons c cs ih =>
    have hc : c ≠ [] := hcs c (by simp)
    rw [List.flatten_cons, List.append_assoc] at *
    have hi0 : DInv d ⟨c, 0, false⟩ :=
      ⟨by simp, hi.tbuf, hi.header, hi.tokenStart, hi.token, hi.tokenDone, hi.options, fun h => by
        have := hi.optionsDone h
        rcases this with h | h
        · exact Or.inl h
        · exfalso; apply hl; have := h.2; simp at this; exact List.length_eq_zero_iff.mp this.symm⟩
    obtain ⟨n, -, hrun, hinv⟩ := chunk_feed d ⟨c, 0, false⟩ hi0 (HOK.left hh hc) hc hg
    have hrem : (⟨c, 0, false⟩ : Ctx).remainder = c := rfl
    simp only [hrem] at hrun hinv
    have hr0 : (feed false d c).2.2 = [] := by
      by_cases h : (feed false d c).2.2 = []
      · exact h
      · exfalso
        rw [feed_rest_append true d c _ h] at hrest
        have := List.length_pos_iff.mpr h
        simp at hrest; omega
    have hg1 := feed_going false d c hg hr0
    have hce : chunkEnd false (feed false d c) = ((feed false d c).1, (feed false d c).2.1) := by
      have : (feed false d c).2.1.st ≠ .payload := by intro h; apply hg1; simp [h]
      simp [chunkEnd, this, fin, finEv]
    rw [hce] at hrun hinv
    obtain ⟨fa1, fa2⟩ := feed_append true d c (cs.flatten ++ l) hr0
    have hi1 : DInv (feed false d c).2.1 ⟨l, 0, true⟩ :=
      ⟨by simp, hinv.tbuf, hinv.header, hinv.tokenStart, hinv.token, hinv.tokenDone, hinv.options, fun h => by
        rcases hinv.optionsDone h with h | h
        · exact Or.inl h
        · simp at h⟩
    have hE : chunkEnd true (feed true d (c ++ (cs.flatten ++ l))) =
        ((feed true d (c ++ (cs.flatten ++ l))).1 ++
          (chunkEnd true ([], (feed true (feed false d c).2.1 (cs.flatten ++ l)).2)).1,
        (chunkEnd true (feed true (feed false d c).2.1 (cs.flatten ++ l))).2) := by
      have h1 : feed true d (c ++ (cs.flatten ++ l)) = ((feed true d (c ++ (cs.flatten ++ l))).1 ++ [],
          (feed true (feed false d c).2.1 (cs.flatten ++ l)).2) := by rw [← fa1]; simp
      have h2 : feed true (feed false d c).2.1 (cs.flatten ++ l) = ((feed true (feed false d c).2.1 (cs.flatten ++ l)).1 ++ [],
          (feed true (feed false d c).2.1 (cs.flatten ++ l)).2) := by simp
      have h3 := chunkEnd_pre true (feed true (feed false d c).2.1 (cs.flatten ++ l)).1
        ([], (feed true (feed false d c).2.1 (cs.flatten ++ l)).2)
      have h4 := chunkEnd_pre true (feed true d (c ++ (cs.flatten ++ l))).1
        ([], (feed true (feed false d c).2.1 (cs.flatten ++ l)).2)
      rw [← h1] at h4; rw [← h2] at h3
      rw [h4, h3]
    have hE1 : (chunkEnd true (feed true (feed false d c).2.1 (cs.flatten ++ l))).1 =
        (feed true (feed false d c).2.1 (cs.flatten ++ l)).1 ++
          (chunkEnd true ([], (feed true (feed false d c).2.1 (cs.flatten ++ l)).2)).1 := by
      have h2 : feed true (feed false d c).2.1 (cs.flatten ++ l) = ((feed true (feed false d c).2.1 (cs.flatten ++ l)).1 ++ [],
          (feed true (feed false d c).2.1 (cs.flatten ++ l)).2) := by simp
      have h3 := chunkEnd_pre true (feed true (feed false d c).2.1 (cs.flatten ++ l)).1
        ([], (feed true (feed false d c).2.1 (cs.flatten ++ l)).2)
      rw [← h2] at h3
      rw [h3]
    rw [hE] at hnd hf ⊢
    obtain ⟨N, d', evs, hd', hp, hall⟩ := ih (feed false d c).2.1 hi1 (feed_hok false d c _ hi.header hh hr0) hg1
      (fun x hx => hcs x (by simp [hx])) (by rw [← fa1]; exact hrest) hnd hf
    refine ⟨max n N, d', (feed false d c).1 ++ evs, hd', ?_, fun fuel hfu => ?_⟩
    · rw [hE1] at hp
      have hsplit := (Parts.refl (feed false d c).1).append hp
      refine hsplit.trans ?_
      rw [← List.append_assoc, ← List.append_assoc]
      exact (fa2.append (Parts.refl _)).append (Parts.refl e)
    · rw [deliverChunks, hrun.process (by simp [atEnd]) fuel (by omega)]
      simp only [hall fuel (by omega)]

/-- C16 (partial): a well-formed message cut into any number of non-empty buffers so that the payload is
wholly in the last one is decoded to completion, and the events are those of the message except that
the value of an option that is cut is reported only up to the cut (and not flagged as complete).
Missing: payloads that are cut and empty buffers, for which the property is false (see below); a
header-only message without token when the uninitialised option state reads `Payload` (see C13). -/
theorem split_delivered_partial (m : Msg) (hm : m.Ok) (junk : Dec) (hj : junk.tbuf.length = 8)
    (hst : junk.opt.st ≠ .payload ∨ m.token ≠ [] ∨ m.opts ≠ [] ∨ m.payload ≠ none)
    (cs : List (List UInt8)) (l : List UInt8) (hcut : cs.flatten ++ l = encMsg m)
    (hcs : ∀ c ∈ cs, c ≠ []) (hl : l ≠ []) (hpay : (m.payload.getD []).length ≤ l.length) :
    ∃ N d' evs, d'.st = .done ∧ Parts evs (delivery m) ∧
      ∀ fuel, N ≤ fuel → deliverChunks fuel (fresh junk) cs l = .ok (d', evs) := by
  obtain ⟨hi, hh, -, hg, k, e, -, hnd, hf, he, -, hre⟩ := message_chunkEnd m hm junk hj hst
  rw [← hcut] at *
  rw [← he]
  exact chunks_feed cs l (fresh junk) (reach_inv (Reach.init junk l true hj)) hh hg hcs hl (by rw [hre]; exact hpay) hnd hf

/-- C16 (partial, same domain): the reported header, token, option numbers, payload and completion do not
depend on how the message is cut. -/
theorem split_independent_partial (m : Msg) (hm : m.Ok) (junk junk' : Dec) (hj : junk.tbuf.length = 8)
    (hj' : junk'.tbuf.length = 8)
    (hst : junk.opt.st ≠ .payload ∨ m.token ≠ [] ∨ m.opts ≠ [] ∨ m.payload ≠ none)
    (hst' : junk'.opt.st ≠ .payload ∨ m.token ≠ [] ∨ m.opts ≠ [] ∨ m.payload ≠ none)
    (cs cs' : List (List UInt8)) (l l' : List UInt8)
    (hcut : cs.flatten ++ l = encMsg m) (hcut' : cs'.flatten ++ l' = encMsg m)
    (hcs : ∀ c ∈ cs, c ≠ []) (hcs' : ∀ c ∈ cs', c ≠ []) (hl : l ≠ []) (hl' : l' ≠ [])
    (hpay : (m.payload.getD []).length ≤ l.length) (hpay' : (m.payload.getD []).length ≤ l'.length) :
    ∃ N d d' evs evs', (∀ fuel, N ≤ fuel → deliverChunks fuel (fresh junk) cs l = .ok (d, evs)) ∧
      (∀ fuel, N ≤ fuel → deliverChunks fuel (fresh junk') cs' l' = .ok (d', evs')) ∧
      d.st = .done ∧ d'.st = .done ∧ evs.map outline = evs'.map outline := by
  obtain ⟨N, d, evs, hd, hp, hall⟩ := split_delivered_partial m hm junk hj hst cs l hcut hcs hl hpay
  obtain ⟨N', d', evs', hd', hp', hall'⟩ := split_delivered_partial m hm junk' hj' hst' cs' l' hcut' hcs' hl' hpay'
  exact ⟨max N N', d, d', evs, evs', fun f h => hall f (by omega), fun f h => hall' f (by omega), hd, hd',
    (Parts.outline_eq hp).trans (Parts.outline_eq hp').symm⟩

/-- What a caller gets of an option value that is cut: a prefix, and the part is flagged complete only if
it is the whole value. -/
theorem cut_option_is_prefix {evs fs : List Event} (h : Parts evs fs) {n : UInt16} {v : List UInt8} {l : Bool}
    (hv : .option n v l ∈ evs) : ∃ v' l', .option n v' l' ∈ fs ∧ v <+: v' ∧ (l = true → v = v') := by
  induction h with
  | nil => simp at hv
  | @cons e f es fs p _ ih =>
    rcases List.mem_cons.mp hv with rfl | hv
    · obtain ⟨v', l', rfl, h1, h2⟩ := p
      exact ⟨v', l', by simp, h1, fun h => (h2 h).1.symm⟩
    · obtain ⟨v', l', h1, h2⟩ := ih hv
      exact ⟨v', l', by simp [h1], h2⟩

/-- If every option is flagged complete, nothing was cut: the reports are exact. -/
theorem complete_parts_exact {evs fs : List Event} (h : Parts evs fs) (hc : ∀ n v l, .option n v l ∈ evs → l = true) :
    evs = fs := by
  induction h with
  | nil => rfl
  | @cons e f es fs p _ ih =>
    rw [ih (fun n v l hm => hc n v l (by simp [hm]))]
    congr 1
    cases e <;> simp only [Part] at p
    case option n v l =>
      obtain ⟨v', l', rfl, -, h2⟩ := p
      have hl : l = true := hc n v l (by simp)
      obtain ⟨rfl, rfl⟩ := h2 hl
      rw [hl]
    all_goals exact p.symm

/-- A message with two options and a payload. -/
def splitSample : Msg := ⟨1, 0, 1, 0x1234, [7, 8], [⟨11, [1, 2, 3]⟩, ⟨300, [4]⟩], some [9, 10]⟩

-- cut in the header, in the token, in an option header, in an option value, after the marker
example : splitSample.Ok ∧ [[0x42, 1], [0x12, 0x34, 7], [8, 0xB3, 1], [2, 3, 0xE1, 0], [20, 4, 0xFF]].flatten ++ [9, 10] =
    encMsg splitSample ∧ (splitSample.payload.getD []).length ≤ [9, 10].length := by decide

example : ∃ d, deliverChunks 60 Dec.zero [[0x42, 1], [0x12, 0x34, 7], [8, 0xB3, 1], [2, 3, 0xE1, 0], [20, 4, 0xFF]] [9, 10] =
    .ok (d, [.header ⟨0x42, 1, 0x12, 0x34⟩, .token [7, 8], .optionStart, .option 11 [1] false, .option 300 [4] true,
      .optionsCompleted, .payload [9, 10] true, .completed]) := ⟨_, rfl⟩

/-- C16 is false when the payload is cut: its second byte is never reported, and an empty payload part is
reported instead. -/
theorem split_payload_lost :
    ∃ (m : Msg) (d d' : Dec) (evs : List Event), m.Ok ∧ encMsg m = [0x40, 1, 0, 1, 0xFF, 9] ++ [10] ∧
      deliverChunks 60 (fresh d) [[0x40, 1, 0, 1, 0xFF, 9]] [10] = .ok (d', evs) ∧
      evs = [.header ⟨0x40, 1, 0, 1⟩, .token [], .optionStart, .optionsCompleted, .payload [9] false,
        .payload [] false, .completed] :=
  ⟨⟨1, 0, 1, 1, [], [], some [9, 10]⟩, Dec.zero, _, _, by decide, by decide, rfl, rfl⟩

/-- C16 is false when the last buffer is empty: an option that is not in the message is reported. -/
theorem split_empty_last_phantom_option :
    ∃ (m : Msg) (d d' : Dec) (evs : List Event), m.Ok ∧ encMsg m = [0x40, 1, 0, 1, 0xB1, 9] ++ [] ∧
      deliverChunks 60 (fresh d) [[0x40, 1, 0, 1, 0xB1, 9]] [] = .ok (d', evs) ∧
      evs = [.header ⟨0x40, 1, 0, 1⟩, .token [], .optionStart, .option 11 [9] true, .option 11 [] true,
        .optionsCompleted, .completed] :=
  ⟨⟨1, 0, 1, 1, [], [⟨11, [9]⟩], none⟩, Dec.zero, _, _, by decide, by decide, rfl, rfl⟩

end Verif.Props
