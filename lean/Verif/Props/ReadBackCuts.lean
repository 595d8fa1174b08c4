import Verif.Props.ReadBack
import Verif.Props.DecoderCuts

/-! # What is read back from the report on a message that arrives in several buffers (C92, C16) -/
namespace Verif.Props
open Verif.Model Verif.Proofs Verif.Spec Dec

theorem readOpts_all (A : List Event) (T : List Event) (hA : ∀ e ∈ A, ∃ n v l, e = .option n v l) {q}
    (h : readTail (readOpts (A ++ .optionsCompleted :: T)).2 = some q) :
    (∀ n v l, .option n v l ∈ A → l = true) ∧ readTail (.optionsCompleted :: T) = some q := by
  induction A with
  | nil => simpa [readOpts] using h
  | cons e A ih =>
    obtain ⟨n, v, l, rfl⟩ := hA e (by simp)
    cases l with
    | false => simp [readOpts, readTail] at h
    | true =>
      simp only [List.cons_append, readOpts] at h
      obtain ⟨h1, h2⟩ := ih (fun e he => hA e (by simp [he])) h
      refine ⟨?_, h2⟩
      intro n' v' l' hm
      rcases List.mem_cons.1 hm with a | a
      · cases a; rfl
      · exact h1 _ _ _ a

/-- A payload that begins in the last buffer is all there. -/
theorem payloadPart_zero (cs : List (List UInt8)) (l : List UInt8) : ∀ (pre p q : List UInt8), p ≠ [] →
    cs.flatten ++ l = pre ++ p → payloadPart pre.length (cs ++ [l]) = (q, 0) → q = p := by
  induction cs with
  | nil =>
    intro pre p q hp hc h
    simp only [List.flatten_nil, List.nil_append] at hc
    subst hc
    have : 0 < p.length := List.length_pos_iff.2 hp
    simp only [List.nil_append, payloadPart] at h
    rw [if_pos (by right; simp; omega)] at h
    simp at h
    exact h.symm
  | cons c cs ih =>
    intro pre p q hp hc h
    simp only [List.cons_append, payloadPart] at h
    by_cases hk : pre.length = 0 ∨ pre.length < c.length
    · rw [if_pos hk] at h; simp at h
    · rw [if_neg hk] at h
      have hle : c.length ≤ pre.length := by omega
      simp only [List.flatten_cons, List.append_assoc] at hc
      have h1 : c = pre.take c.length := by
        have := congrArg (List.take c.length) hc
        rw [List.take_append_of_le_length (by omega), List.take_append_of_le_length hle] at this
        simpa using this
      have h2 : cs.flatten ++ l = pre.drop c.length ++ p := by
        have := congrArg (List.drop c.length) hc
        rw [List.drop_left, List.drop_append_of_le_length hle] at this
        exact this
      exact ih (pre.drop c.length) p q hp h2 (by rw [List.length_drop]; exact h)

theorem cutOptions_options (bufs : List (List UInt8)) (os : List Opt) : ∀ (k : Nat) (bs : List UInt8),
    ∀ e ∈ cutOptions bufs k os bs, ∃ n v l, e = .option n v l := by
  induction os with
  | nil => intro k bs e he; simp [cutOptions] at he
  | cons o os ih =>
    intro k bs e he
    simp only [cutOptions, List.mem_cons] at he
    rcases he with rfl | he
    · exact ⟨_, _, _, rfl⟩
    · exact ih _ _ e he

/-- The message that a message in the buffers `cs` and the last buffer `l` is taken for, if it is taken for one at all. -/
def takenFor (m : Msg) (cs : List (List UInt8)) (l : List UInt8) : Msg :=
  { m with opts := m.opts ++ (phantoms m cs l).map fun k => ⟨k, []⟩ }

theorem readTail_payload (q : List UInt8) (n : Nat) {r} (h : readTail (.optionsCompleted :: (payloadEvents q n ++ [.completed])) = some r) :
    n = 0 ∧ r = if q = [] then none else some q := by
  cases n with
  | zero => simp [payloadEvents, readTail] at h; simp [← h]
  | succ n =>
    simp only [payloadEvents, List.cons_append] at h
    cases hx : List.replicate (if q = [] then n else n + 1) (Event.payload [] false) ++ [Event.completed] with
    | nil => simp at hx
    | cons a as => rw [hx] at h; simp [readTail] at h

theorem phantoms_number (m : Msg) (ho : ∀ o ∈ m.opts, o.number < 65536) (cs : List (List UInt8)) (l : List UInt8) :
    ∀ k ∈ phantoms m cs l, k < 65536 := by
  intro k hk
  unfold phantoms at hk
  split at hk
  · cases e : m.opts.getLast? with
    | none => rw [e] at hk; simp only at hk; repeat' split at hk
              all_goals simp at hk
              all_goals omega
    | some o =>
      rw [e] at hk; simp only at hk
      split at hk
      · simp at hk
      · simp at hk; rw [hk]; exact ho o (List.mem_of_getLast? e)
  · simp at hk

theorem readBack_cutReport (m : Msg) (hm : m.Ok) (ob : List UInt8) (hob : IsOpts 0 m.opts ob)
    (cs : List (List UInt8)) (l : List UInt8) (hcut : cs.flatten ++ l = wire m ob)
    (hz : m.payload = none ∨ (payloadPart (4 + m.token.length + ob.length + 1) (cs ++ [l])).2 = 0) :
    readBack (cutReport m ob.length cs l) = some (takenFor m cs l) := by
  have ho := isOpts_number hob
  have hn : ∀ o ∈ m.opts ++ (phantoms m cs l).map (fun k => (⟨k, []⟩ : Opt)), o.number < 65536 := by
    intro o h
    rcases List.mem_append.1 h with h | h
    · exact ho o h
    · obtain ⟨k, hk, rfl⟩ := List.mem_map.1 h
      exact phantoms_number m ho cs l k hk
  obtain ⟨hd, h1, h2⟩ := delivery_header m hm
  obtain ⟨-, -, -, -, -, -, hp⟩ := hm
  have key : ∀ T, readOpts (m.opts.map (fun o => .option (UInt16.ofNat o.number) o.value true) ++
      ((phantoms m cs l).map (fun k => .option (UInt16.ofNat k) [] true) ++ (.optionsCompleted :: T))) =
      (m.opts ++ (phantoms m cs l).map (fun k => (⟨k, []⟩ : Opt)), .optionsCompleted :: T) := by
    intro T
    have := readOpts_map (m.opts ++ (phantoms m cs l).map (fun k => (⟨k, []⟩ : Opt))) hn (.optionsCompleted :: T)
      (by simp [readOpts])
    rw [← this]
    simp [List.map_append, List.map_map, Function.comp_def]
  simp only [delivery, List.cons_append, List.head?_cons, Option.some.injEq, Event.header.injEq] at h1
  subst h1
  simp only [cutReport, List.append_assoc, List.cons_append, List.nil_append, readBack, key, h2, takenFor]
  obtain ⟨ver, ty, code, mid, tok, opts, pay⟩ := m
  cases pay with
  | none => simp [readTail]
  | some p =>
    have hp' : p ≠ [] := by rintro rfl; exact hp rfl
    have hq : payloadPart (4 + tok.length + ob.length + 1) (cs ++ [l]) = (p, 0) := by
      have hz : (payloadPart (4 + tok.length + ob.length + 1) (cs ++ [l])).2 = 0 := by simpa using hz
      have hw : ∃ pre, wire ⟨ver, ty, code, mid, tok, opts, some p⟩ ob = pre ++ p ∧ pre.length = 4 + tok.length + ob.length + 1 := by
        refine ⟨encHeader ⟨ver, ty, code, mid, tok, opts, some p⟩ ++ tok ++ ob ++ [0xFF], by simp [wire, encPayload], ?_⟩
        simp [encHeader]; omega
      obtain ⟨pre, hw, hl⟩ := hw
      rw [hw] at hcut
      have := payloadPart_zero cs l pre p (payloadPart pre.length (cs ++ [l])).1 hp' hcut (by rw [hl]; exact Prod.ext rfl hz)
      rw [← hl] at hz ⊢
      exact Prod.ext this hz
    simp [hq, payloadEvents, readTail, hp']

/-- C92, C16: what is read off the report on a message in any buffers, exactly.  A message is read back if and only if no option value
is reported as incomplete and the payload begins in the last buffer, and then it is the message of `takenFor`. -/
theorem cut_read_back (m : Msg) (hm : m.Ok) (ob : List UInt8) (hob : IsOpts 0 m.opts ob) (junk : Dec)
    (hj : junk.tbuf.length = 8)
    (hst : junk.opt.st ≠ .payload ∨ m.token ≠ [] ∨ m.opts ≠ [] ∨ m.payload ≠ none)
    (cs : List (List UInt8)) (l : List UInt8) (hcut : cs.flatten ++ l = wire m ob) :
    ∃ N d' evs, (∀ fuel, N ≤ fuel → deliverChunks fuel (fresh junk) cs l = .ok (d', evs)) ∧
      (∀ m', readBack evs = some m' → m' = takenFor m cs l) ∧
      ((readBack evs).isSome = true ↔ (∀ n v f, .option n v f ∈ evs → f = true) ∧
        (m.payload = none ∨ (payloadPart (4 + m.token.length + ob.length + 1) (cs ++ [l])).2 = 0)) := by
  obtain ⟨N, d', -, h1⟩ := every_cut_exact m hm ob hob junk hj hst cs l hcut
  obtain ⟨N2, d2, evs, -, hp, h2⟩ := every_cut_reported m hm ob hob junk hj hst cs l hcut
  have he : evs = exactReport m ob cs l := by
    have a := h1 (N + N2) (by omega)
    rw [h2 (N + N2) (by omega)] at a
    simp only [Except.ok.injEq, Prod.mk.injEq] at a
    exact a.2
  have main : ∀ m', readBack evs = some m' → (∀ n v f, .option n v f ∈ evs → f = true) ∧
      (m.payload = none ∨ (payloadPart (4 + m.token.length + ob.length + 1) (cs ++ [l])).2 = 0) := by
    intro m' hr
    rw [he] at hr
    simp only [exactReport, List.append_assoc, List.cons_append, List.nil_append, readBack, Option.map_eq_some_iff] at hr
    obtain ⟨q, hq, -⟩ := hr
    rw [← List.append_assoc] at hq
    obtain ⟨ha, hb⟩ := readOpts_all _ _ (by
      intro e h
      rcases List.mem_append.1 h with h | h
      · exact cutOptions_options _ _ _ _ e h
      · obtain ⟨k, -, rfl⟩ := List.mem_map.1 h; exact ⟨_, _, _, rfl⟩) hq
    constructor
    · intro n v f hm
      rw [he] at hm
      unfold exactReport at hm
      simp only [List.mem_append, List.mem_cons, List.not_mem_nil, or_false, reduceCtorEq, false_or] at hm
      apply ha n v f
      rw [List.mem_append]
      rcases hm with (h | h) | h
      · exact Or.inl h
      · exact Or.inr h
      · exfalso
        cases hpay : m.payload with
        | none => rw [hpay] at h; simp at h
        | some p =>
          rw [hpay] at h
          simp only at h
          revert h
          unfold payloadEvents
          split <;> simp
    · cases hpay : m.payload with
      | none => exact Or.inl rfl
      | some p =>
        rw [hpay] at hb
        exact Or.inr (readTail_payload _ _ hb).1
  have back : (∀ n v f, .option n v f ∈ evs → f = true) →
      (m.payload = none ∨ (payloadPart (4 + m.token.length + ob.length + 1) (cs ++ [l])).2 = 0) →
      readBack evs = some (takenFor m cs l) := by
    intro ha hb
    rw [complete_parts_exact hp ha]
    exact readBack_cutReport m hm ob hob cs l hcut hb
  refine ⟨N2, d2, evs, h2, ?_, ?_⟩
  · intro m' hr
    obtain ⟨ha, hb⟩ := main m' hr
    rw [back ha hb] at hr
    exact (Option.some.inj hr).symm
  · constructor
    · intro h
      obtain ⟨m', hr⟩ := Option.isSome_iff_exists.1 h
      exact main m' hr
    · rintro ⟨ha, hb⟩
      rw [back ha hb]; rfl

/-- C92, C16: so no message is ever taken for another, unless the last buffer is empty and the message has no payload. -/
theorem cut_read_back_sound (m : Msg) (hm : m.Ok) (ob : List UInt8) (hob : IsOpts 0 m.opts ob) (junk : Dec)
    (hj : junk.tbuf.length = 8)
    (hst : junk.opt.st ≠ .payload ∨ m.token ≠ [] ∨ m.opts ≠ [] ∨ m.payload ≠ none)
    (cs : List (List UInt8)) (l : List UInt8) (hcut : cs.flatten ++ l = wire m ob) (hl : m.payload ≠ none ∨ l ≠ []) :
    ∃ N d' evs, (∀ fuel, N ≤ fuel → deliverChunks fuel (fresh junk) cs l = .ok (d', evs)) ∧
      ∀ m', readBack evs = some m' → m' = m := by
  obtain ⟨N, d', evs, h1, h2, -⟩ := cut_read_back m hm ob hob junk hj hst cs l hcut
  refine ⟨N, d', evs, h1, fun m' hr => ?_⟩
  rw [h2 m' hr, takenFor, phantoms_nil_of hl]
  simp

/-- In one buffer no value is cut. -/
theorem cutOptions_whole {prev : Nat} {os : List Opt} {ob : List UInt8} (h : IsOpts prev os ob) (t : List UInt8)
    (bufs : List (List UInt8)) : ∀ pre : List UInt8,
    ∀ n v f, .option n v f ∈ cutOptions ((pre ++ (ob ++ t)) :: bufs) pre.length os (ob ++ t) → f = true := by
  induction h with
  | nil => intro pre n v f hm; simp [cutOptions] at hm
  | @cons prev o os hdr ob h1 h2 h3 hh h4 ih =>
    intro pre n v f hm
    have e0 : pre ++ (hdr ++ (o.value ++ (ob ++ t))) = (pre ++ hdr ++ o.value) ++ (ob ++ t) := by simp
    have e1 : pre.length + ((hdr ++ (o.value ++ (ob ++ t))).length - (o.value ++ (ob ++ t)).length) = (pre ++ hdr).length := by
      simp
    have e2 : (pre ++ hdr).length + o.value.length = (pre ++ hdr ++ o.value).length := by
      rw [List.length_append (as := pre ++ hdr)]
    rw [List.append_assoc, List.append_assoc, cutOptions] at hm
    simp only [behindHead_hdr hh, List.drop_left, e1, e2] at hm
    rw [e0] at hm
    rcases List.mem_cons.1 hm with a | a
    · have hf : f = decide (((restOfBuffer (pre ++ hdr).length (((pre ++ hdr ++ o.value) ++ (ob ++ t)) :: bufs)).take
          o.value.length).length = o.value.length) := by cases a; rfl
      rw [hf, decide_eq_true_eq]
      by_cases hv : o.value = []
      · simp [hv]
      · have : 0 < o.value.length := List.length_pos_iff.2 hv
        rw [restOfBuffer, if_pos (by simp; omega)]
        simp
    · exact ih (pre ++ hdr ++ o.value) n v f a

/-- C92, C16: with an empty last buffer a message without payload whose last option has a value is taken for another one,
with one option more at the end, which is empty and has the same number. -/
theorem cut_read_back_phantom (m : Msg) (hm : m.Ok) (ob : List UInt8) (hob : IsOpts 0 m.opts ob) (junk : Dec)
    (hj : junk.tbuf.length = 8) (hp : m.payload = none) (o : Opt) (ho : m.opts.getLast? = some o) (hv : o.value ≠ []) :
    ∃ N d' evs, (∀ fuel, N ≤ fuel → deliverChunks fuel (fresh junk) [wire m ob] [] = .ok (d', evs)) ∧
      readBack evs = some { m with opts := m.opts ++ [⟨o.number, []⟩] } := by
  have hst : junk.opt.st ≠ .payload ∨ m.token ≠ [] ∨ m.opts ≠ [] ∨ m.payload ≠ none :=
    Or.inr (Or.inr (Or.inl (by rintro h; rw [h] at ho; simp at ho)))
  obtain ⟨N, d', evs, h1, h2, h3⟩ := cut_read_back m hm ob hob junk hj hst [wire m ob] [] (by simp)
  obtain ⟨N2, d2, -, h4⟩ := every_cut_exact m hm ob hob junk hj hst [wire m ob] [] (by simp)
  have he : evs = exactReport m ob [wire m ob] [] := by
    have a := h4 (N + N2) (by omega)
    rw [h1 (N + N2) (by omega)] at a
    simp only [Except.ok.injEq, Prod.mk.injEq] at a
    exact a.2
  have hs : (readBack evs).isSome = true := by
    rw [h3]
    refine ⟨?_, Or.inl hp⟩
    intro n v f hmem
    rw [he] at hmem
    unfold exactReport at hmem
    simp only [hp, List.mem_append, List.mem_cons, List.not_mem_nil, or_false, reduceCtorEq, false_or] at hmem
    rcases hmem with h | h
    · have := cutOptions_whole hob [] [[]] (encHeader m ++ m.token) n v f
      apply this
      have e : wire m ob = encHeader m ++ m.token ++ (ob ++ []) := by simp [wire, hp, encPayload]
      have e2 : (encHeader m ++ m.token).length = 4 + m.token.length := by simp [encHeader]; omega
      rw [e2, ← e]
      simpa [encPayload] using h
    · obtain ⟨k, -, hk⟩ := List.mem_map.1 h; cases hk; rfl
  obtain ⟨m', hr⟩ := Option.isSome_iff_exists.1 hs
  refine ⟨N, d', evs, h1, ?_⟩
  rw [hr, h2 m' hr, takenFor]
  simp [phantoms, hp, ho, hv]

/-- A message with a path and a payload. -/
def cutBack : Msg := ⟨1, 0, 1, 7, [5], [⟨11, [1, 2]⟩], some [9]⟩

-- read back when cut between option and payload, not when cut inside the value
example : cutBack.Ok ∧ ∃ d evs d2 evs2,
    deliverChunks 60 Dec.zero [[0x41, 1, 0], [7, 5, 0xB2, 1, 2]] [0xFF, 9] = .ok (d, evs) ∧ readBack evs = some cutBack ∧
    deliverChunks 60 Dec.zero [[0x41, 1, 0], [7, 5, 0xB2, 1]] [2, 0xFF, 9] = .ok (d2, evs2) ∧ readBack evs2 = none := by
  refine ⟨by decide, _, _, _, _, rfl, by decide, rfl, by decide⟩

-- a GET of a path of one segment, with an empty last buffer, is read as having two
example : ∃ d evs, deliverChunks 60 Dec.zero [[0x40, 1, 0, 7, 0xB1, 0x61]] [] = .ok (d, evs) ∧
    readBack evs = some ⟨1, 0, 1, 7, [], [⟨11, [0x61]⟩, ⟨11, []⟩], none⟩ := by
  refine ⟨_, _, rfl, by decide⟩

end Verif.Props
