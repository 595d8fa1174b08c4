import Verif.Spec.ReadBack
import Verif.Props.Pump
import Verif.Props.Server

/-! # The message can be read off what the decoder reports (C92) -/
namespace Verif.Props
open Verif.Model Verif.Proofs Verif.Spec Dec

/-- One decoder used for one buffer after the other, each to the end; the reports, buffer by buffer. -/
def reports (fuel : Nat) : Dec → List (List UInt8) → Except Fault (List (List Event))
  | _, [] => .ok []
  | d, b :: bs =>
    match processToDone fuel d ⟨b, 0, true⟩ with
    | .error e => .error e
    | .ok (d, _, evs) =>
      match reports fuel d bs with
      | .error e => .error e
      | .ok rs => .ok (evs :: rs)

theorem readOpts_map (os : List Opt) (hn : ∀ o ∈ os, o.number < 65536) (es : List Event)
    (hes : readOpts es = ([], es)) :
    readOpts (os.map (fun o => .option (UInt16.ofNat o.number) o.value true) ++ es) = (os, es) := by
  induction os with
  | nil => exact hes
  | cons o os ih =>
    have ho : (UInt16.ofNat o.number).toNat = o.number := by
      have := hn o (by simp)
      simp only [UInt16.toNat_ofNat']; omega
    simp only [List.map_cons, List.cons_append, readOpts, ih (fun x hx => hn x (by simp [hx])), ho]

theorem isOpts_number {prev : Nat} {os : List Opt} {ob : List UInt8} (h : IsOpts prev os ob) : ∀ o ∈ os, o.number < 65536 := by
  induction h with
  | nil => simp
  | cons _ h2 _ _ _ ih =>
    intro o ho
    rcases List.mem_cons.1 ho with rfl | ho
    · exact h2
    · exact ih o ho

/-- The report of a message determines the message. -/
theorem readBack_delivery (m : Msg) (hm : m.Ok) (ho : ∀ o ∈ m.opts, o.number < 65536) : readBack (delivery m) = some m := by
  obtain ⟨hd, h1, h2⟩ := delivery_header m hm
  obtain ⟨-, -, -, -, -, -, hp⟩ := hm
  obtain ⟨ver, ty, code, mid, tok, opts, pay⟩ := m
  simp only [delivery, List.cons_append, List.nil_append, List.head?_cons, Option.some.injEq, Event.header.injEq] at h1 h2 ho hp ⊢
  simp only [List.append_assoc, List.cons_append, List.nil_append, readBack]
  subst h1
  rw [h2]
  cases pay with
  | none => rw [readOpts_map opts ho _ (by rfl)]; rfl
  | some p =>
    rw [readOpts_map opts ho _ (by rfl)]
    have : p ≠ [] := fun e => hp (by rw [e])
    simp [readTail, this]

theorem processToDone_done : ∀ {f : Nat} {d : Dec} {c : Ctx} {d' : Dec} {c' : Ctx} {es}, d.processToDone f c = .ok (d', c', es) →
    d'.st = .done ∧ d'.tbuf.length = d.tbuf.length
  | 0, d, c, d', c', es, h => by simp [Dec.processToDone] at h
  | f + 1, d, c, d', c', es, h => by
    rw [Dec.processToDone] at h
    cases hs : d.stepNotify c with
    | error e => rw [hs] at h; simp at h
    | ok v =>
      obtain ⟨d1, c1, e1⟩ := v
      rw [hs] at h
      have ht : d1.tbuf.length = d.tbuf.length := by
        unfold stepNotify at hs
        split at hs
        · cases hs
        · rename_i h2
          split at hs
          · cases hs
          · simp only [Except.ok.injEq, Prod.mk.injEq] at hs
            rw [← hs.1]; exact step_tbuf _ _ _ _ h2
      simp only at h
      by_cases hd : d1.st = .done
      · simp only [hd, beq_self_eq_true, if_true, Except.ok.injEq, Prod.mk.injEq] at h
        rw [← h.1]; exact ⟨hd, ht⟩
      · simp only [beq_iff_eq, hd, if_false] at h
        cases hp : d1.processToDone f c1 with
        | error e => rw [hp] at h; simp at h
        | ok w =>
          obtain ⟨d2, c2, e2⟩ := w
          rw [hp] at h
          simp only [Except.ok.injEq, Prod.mk.injEq] at h
          obtain ⟨h3, h4⟩ := processToDone_done hp
          rw [← h.1]; exact ⟨h3, h4.trans ht⟩

/-- C13, exactly when: whatever memory held, a decoder given a well-formed message in one final buffer, and room for enough steps, delivers
exactly that message unless the message is a header alone and the option state left in memory reads `Payload`. -/
theorem message_delivered_iff (m : Msg) (hm : m.Ok) (junk : Dec) (hj : junk.tbuf.length = 8) (fuel : Nat) (hf : 11 * (encMsg m).length + 6 ≤ fuel) :
    (∃ d' c, processToDone fuel (fresh junk) ⟨encMsg m, 0, true⟩ = .ok (d', c, delivery m)) ↔
      ¬(junk.opt.st = .payload ∧ m.token = [] ∧ m.opts = [] ∧ m.payload = none) := by
  constructor
  · rintro ⟨d', c, h⟩ ⟨h1, h2, h3, h4⟩
    obtain ⟨d2, -, e⟩ := stale_option_state_phantom_payload m hm h2 h3 h4 junk h1
    have hl : (encMsg m).length = 4 := by simp [encMsg, encHeader, h2, h3, h4, encOpts, encPayload]
    rw [processToDone_mono e (by omega : 9 ≤ fuel)] at h
    simp only [Except.ok.injEq, Prod.mk.injEq] at h
    have := congrArg List.length h.2.2
    simp [delivery, h3, h4] at this
  · intro hst
    obtain ⟨N, d', hN, -, h⟩ := message_delivered_partial m hm junk hj (by
      by_cases h1 : junk.opt.st = .payload <;> by_cases h2 : m.token = [] <;> by_cases h3 : m.opts = [] <;> by_cases h4 : m.payload = none <;> simp_all)
    exact ⟨d', _, h fuel (by omega)⟩

example : ¬(Dec.zero.opt.st = .payload ∧ sampleMsg.token = [] ∧ sampleMsg.opts = [] ∧ sampleMsg.payload = none) ∧ sampleMsg.Ok := by
  decide

/-- C92, one message: from the report of a decoder, the message can be read back — for every legal encoding of its
options, and whatever the decoder was used for before or memory held. -/
theorem message_read_back (m : Msg) (hm : m.Ok) (ob : List UInt8) (hob : IsOpts 0 m.opts ob) (d : Dec) (hj : d.tbuf.length = 8)
    (hd : d.st = .uninitialized ∨ d.st = .done) :
    ∃ N, N ≤ 11 * (wire m ob).length + 7 ∧ ∀ fuel, N ≤ fuel → ∃ d' c evs, processToDone fuel d ⟨wire m ob, 0, true⟩ = .ok (d', c, evs) ∧
      readBack evs = some m := by
  have key : ∃ N, N ≤ 11 * (wire m ob).length + 6 ∧ ∀ fuel, N ≤ fuel → ∃ d' c evs,
      processToDone fuel (fresh d) ⟨wire m ob, 0, true⟩ = .ok (d', c, evs) ∧ readBack evs = some m := by
    by_cases hst : d.opt.st ≠ .payload ∨ m.token ≠ [] ∨ m.opts ≠ [] ∨ m.payload ≠ none
    · obtain ⟨N, d', hN, -, h⟩ := wire_delivered_partial m hm ob hob d hj hst
      exact ⟨N, hN, fun fuel hf => ⟨_, _, _, h fuel hf, readBack_delivery m hm (isOpts_number hob)⟩⟩
    · simp only [not_or, ne_eq, Classical.not_not] at hst
      obtain ⟨h1, h2, h3, h4⟩ := hst
      have hob0 : ob = [] := by rw [h3] at hob; cases hob; rfl
      have hw : wire m ob = encMsg m := by rw [← wire_encMsg, h3, hob0]; rfl
      obtain ⟨d', -, h⟩ := stale_option_state_phantom_payload m hm h2 h3 h4 d h1
      have hl : (encMsg m).length = 4 := by simp [encMsg, encHeader, h2, h3, h4, encOpts, encPayload]
      refine ⟨9, by rw [hw, hl]; omega, fun fuel hf => ⟨_, _, _, by rw [hw]; exact processToDone_mono h hf, ?_⟩⟩
      obtain ⟨hd, e1, e2⟩ := delivery_header m hm
      obtain ⟨ver, ty, code, mid, tok, opts, pay⟩ := m
      simp only at h2 h3 h4
      subst h2 h3 h4
      simp only [delivery, List.cons_append, List.nil_append, List.head?_cons, Option.some.injEq, Event.header.injEq,
        List.length_nil, Nat.add_zero] at e1 e2 ⊢
      rw [e1]
      simp [readBack, readOpts, readTail, e2]
  obtain ⟨N, hN, h⟩ := key
  rcases hd with hd | hd
  · have : fresh d = d := by cases d; simp only at hd; subst hd; rfl
    rw [this] at h
    exact ⟨N, by omega, h⟩
  · refine ⟨N + 1, by omega, fun fuel hf => ?_⟩
    obtain ⟨f, rfl⟩ : ∃ f, fuel = f + 1 := ⟨fuel - 1, by omega⟩
    obtain ⟨d', c, evs, h', hr⟩ := h f (by omega)
    have h1 : d.stepNotify ⟨wire m ob, 0, true⟩ = .ok (fresh d, ⟨wire m ob, 0, true⟩, []) := by
      simp [stepNotify, Dec.step, hd, notify, fresh]
    refine ⟨d', c, evs, ?_, hr⟩
    simp only [processToDone, h1]
    rw [h']
    simp [fresh]

/-- C92, many messages: one decoder used for any number of messages reports each of them so that it can be read back. -/
theorem messages_read_back (ms : List (Msg × List UInt8)) : (∀ x ∈ ms, x.1.Ok ∧ IsOpts 0 x.1.opts x.2) →
    ∀ d : Dec, d.tbuf.length = 8 → d.st = .uninitialized ∨ d.st = .done →
    ∃ N, ∀ fuel, N ≤ fuel → ∃ rs, reports fuel d (ms.map fun x => wire x.1 x.2) = .ok rs ∧
      rs.map readBack = ms.map (fun x => some x.1) := by
  induction ms with
  | nil => intro _ d _ _; exact ⟨0, fun _ _ => ⟨[], rfl, rfl⟩⟩
  | cons x xs ih =>
    intro h d hj hd
    obtain ⟨h1, h2⟩ := h x (by simp)
    obtain ⟨N, -, hN⟩ := message_read_back x.1 h1 x.2 h2 d hj hd
    obtain ⟨d1, c1, e1, hp, hr⟩ := hN N (Nat.le_refl _)
    obtain ⟨hd1, ht1⟩ := processToDone_done hp
    obtain ⟨N', hN'⟩ := ih (fun y hy => h y (by simp [hy])) d1 (ht1.trans hj) (.inr hd1)
    refine ⟨max N N', fun fuel hf => ?_⟩
    obtain ⟨rs, hrs, hm⟩ := hN' fuel (by omega)
    refine ⟨e1 :: rs, ?_, by simp [hr, hm]⟩
    simp only [List.map_cons, reports]
    rw [processToDone_mono hp (by omega : N ≤ fuel)]
    simp only [hrs]

/-- C92 among anything else: whatever else the decoder was given before, between and behind, as long as it came through
it, every well-formed message can be read back from its report. -/
theorem message_among_others (fuel : Nat) (bs : List (List UInt8)) : ∀ (d : Dec) (rs : List (List Event)), d.tbuf.length = 8 →
    d.st = .uninitialized ∨ d.st = .done → reports fuel d bs = .ok rs →
    rs.length = bs.length ∧
      ∀ (i : Nat) (m : Msg) (ob : List UInt8), m.Ok → IsOpts 0 m.opts ob → bs[i]? = some (wire m ob) →
        rs[i]?.map readBack = some (some m) := by
  induction bs with
  | nil => intro d rs _ _ h; simp only [reports, Except.ok.injEq] at h; subst h; simp
  | cons b bs ih =>
    intro d rs hj hd h
    simp only [reports] at h
    cases hp : processToDone fuel d ⟨b, 0, true⟩ with
    | error e => rw [hp] at h; cases h
    | ok v =>
      obtain ⟨d1, c1, e1⟩ := v
      rw [hp] at h
      simp only at h
      cases hq : reports fuel d1 bs with
      | error e => rw [hq] at h; cases h
      | ok rs' =>
        rw [hq] at h
        simp only [Except.ok.injEq] at h
        subst h
        obtain ⟨hd1, ht1⟩ := processToDone_done hp
        obtain ⟨hl, hall⟩ := ih d1 rs' (ht1.trans hj) (.inr hd1) hq
        refine ⟨by simp [hl], fun i m ob hm hob hi => ?_⟩
        cases i with
        | zero =>
          simp only [List.getElem?_cons_zero, Option.some.injEq] at hi
          subst hi
          obtain ⟨N, -, hN⟩ := message_read_back m hm ob hob d hj hd
          obtain ⟨d2, c2, e2, hp2, hr⟩ := hN (max N fuel) (by omega)
          rw [processToDone_mono hp (by omega : fuel ≤ max N fuel)] at hp2
          simp only [Except.ok.injEq, Prod.mk.injEq] at hp2
          obtain ⟨-, -, rfl⟩ := hp2
          simp [hr]
        | succ i =>
          simp only [List.getElem?_cons_succ] at hi ⊢
          exact hall i m ob hm hob hi

/-- C92: different messages are never reported alike — by whichever decoders, in whichever legal encodings. -/
theorem reports_tell_apart (m m' : Msg) (hm : m.Ok) (hm' : m'.Ok) (ob ob' : List UInt8) (hob : IsOpts 0 m.opts ob)
    (hob' : IsOpts 0 m'.opts ob') (d d' : Dec) (hj : d.tbuf.length = 8) (hj' : d'.tbuf.length = 8)
    (hd : d.st = .uninitialized ∨ d.st = .done) (hd' : d'.st = .uninitialized ∨ d'.st = .done) (fuel fuel' : Nat)
    (rs : List (List Event)) (h : reports fuel d [wire m ob] = .ok rs) (h' : reports fuel' d' [wire m' ob'] = .ok rs) : m = m' := by
  have h1 := (message_among_others fuel _ d rs hj hd h).2 0 m ob hm hob rfl
  have h2 := (message_among_others fuel' _ d' rs hj' hd' h').2 0 m' ob' hm' hob' rfl
  rw [h1] at h2
  simpa using h2

/-- Two messages whose options are the same bytes grouped differently. -/
def apartA : Msg := ⟨1, 0, 1, 7, [5], [⟨11, [1, 2]⟩, ⟨11, []⟩], none⟩
def apartB : Msg := ⟨1, 0, 1, 7, [5], [⟨11, [1]⟩, ⟨11, [2]⟩], none⟩

-- three messages through one decoder: one with a payload, a header only (its report tells of an empty payload, because
-- the decoder remembers the marker of the message before), one with options; and one whose only option is
-- cut short
example : ∃ rs, reports 60 Dec.zero [[0x40, 1, 0, 1, 0xFF, 7], [0x40, 0, 0, 2], [0x40, 1, 0, 3, 0xB5, 1], encMsg apartA] = .ok rs ∧
    rs.map readBack = [some ⟨1, 0, 1, 1, [], [], some [7]⟩, some ⟨1, 0, 0, 2, [], [], none⟩, none, some apartA] := by
  refine ⟨_, rfl, ?_⟩; decide

example : apartA.Ok ∧ apartB.Ok ∧ apartA ≠ apartB ∧ (encMsg apartA).length = (encMsg apartB).length := by decide

end Verif.Props
