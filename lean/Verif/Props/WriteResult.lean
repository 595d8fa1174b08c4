import Verif.Props.StreamRoundTrip
import Verif.Props.NetBufEncoder

/-!
# C91 — what the encoders say about an option that may not fit
-/
namespace Verif.Props
open Verif.Model OptEnc NEnc Spec Proofs

/-- C91 for `option(number, text)` of the stream encoder (partial: the text is not empty).  It returns for every stream and every text,
writes nothing beyond the room, and says that it succeeded exactly if everything is written: compared with any larger stream, what is written is the
beginning of what is written there; it is the same if success is reported, and something is missing if not. -/
theorem text_option_result_partial (s : SEnc) (number : UInt16) (text : List UInt8) (hlen : s.out.length ≤ s.cap) (ht : text ≠ []) :
    ∃ s' ok, s.optionStr number text = .ok (s', ok) ∧ s'.out.length ≤ s.cap ∧ (ok = false → s'.out.length = s.cap) ∧
      ∀ cap, s.cap ≤ cap → ∃ t ok2, ({ s with cap := cap } : SEnc).optionStr number text = .ok (t, ok2) ∧
        s'.out <+: t.out ∧ (ok = true → ok2 = true ∧ t.out = s'.out) ∧ (ok = false → ok2 = true → s.cap < t.out.length) := by
  obtain ⟨s1, ok1, e1, h1, h2, h3⟩ := option_header_room s number (UInt16.ofNat text.length) hlen
  obtain ⟨s1', ok1', e1', hc, -⟩ := option_header_returns s number (UInt16.ofNat text.length)
  rw [e1] at e1'
  simp only [Except.ok.injEq, Prod.mk.injEq] at e1'
  obtain ⟨rfl, rfl⟩ := e1'
  have hpos : 0 < text.length := List.length_pos_iff.2 ht
  refine ⟨(s1.putn text).1, (s1.putn text).2 == text.length, by simp only [SEnc.optionStr, e1], ?_, ?_, fun cap hcap => ?_⟩
  · simp only [SEnc.putn, SEnc.room, List.length_append, List.length_take]; omega
  · intro h
    simp only [SEnc.putn, SEnc.room, beq_eq_false_iff_ne] at h
    simp only [SEnc.putn, SEnc.room, List.length_append, List.length_take]; omega
  · obtain ⟨t1, ok2, e2, g1, g2, g3⟩ := h3 cap hcap
    obtain ⟨t1', ok2', e2', hc2, -⟩ := option_header_returns { s with cap := cap } number (UInt16.ofNat text.length)
    rw [e2] at e2'
    simp only [Except.ok.injEq, Prod.mk.injEq] at e2'
    obtain ⟨rfl, rfl⟩ := e2'
    simp only at hc2
    refine ⟨(t1.putn text).1, (t1.putn text).2 == text.length, by simp only [SEnc.optionStr, e2], ?_, ?_, ?_⟩
    · cases ok1 with
      | true =>
        simp only [SEnc.putn, SEnc.room]
        rw [(g2 rfl).2, hc, hc2]
        refine (List.prefix_append_right_inj _).2 ?_
        rw [List.prefix_take_iff]
        exact ⟨List.take_prefix _ _, by simp; omega⟩
      | false =>
        simp only [SEnc.putn, SEnc.room]
        have : s1.cap - s1.out.length = 0 := by have := h2 rfl; omega
        rw [this]
        simp only [List.take_zero, List.append_nil]
        exact g1.trans (List.prefix_append _ _)
    · intro h
      simp only [SEnc.putn, SEnc.room, beq_iff_eq] at h
      have ho : ok1 = true := by
        cases ok1 with
        | true => rfl
        | false => have := h2 rfl; omega
      have hto := (g2 ho).2
      simp only [SEnc.putn, SEnc.room, hto, hc2]
      refine ⟨by simp; omega, ?_⟩
      rw [List.take_of_length_le (by omega), List.take_of_length_le (by omega)]
    · intro h hk
      simp only [SEnc.putn, SEnc.room, beq_eq_false_iff_ne, beq_iff_eq] at h hk
      simp only [SEnc.putn, SEnc.room, List.length_append, List.length_take]
      cases ok1 with
      | true => have := (g2 rfl).2; rw [this] at hk ⊢; omega
      | false =>
        cases ok2 with
        | true => have := g3 rfl rfl; omega
        | false =>
          have hx := g1.length_le
          have := h2 rfl
          omega

/-- C91 fails for an empty text: success is reported although the header did not fit. -/
theorem empty_text_unreported (s : SEnc) (number : UInt16) (s1 : SEnc) (h : s.optionHeader number 0 = .ok (s1, false)) :
    s.optionStr number [] = .ok (s1, true) := by
  simp [SEnc.optionStr, h, SEnc.putn]

/-- Such streams: one that is full already. -/
example : (⟨OptEnc.init, [1, 2], 2⟩ : SEnc).optionStr 11 [] = .ok (⟨⟨.firstByteDone, 0, 0⟩, [1, 2], 2⟩, true) := by decide +kernel

/-- C91 for `option(number, value)` of the stream encoder (partial: only failure means what it says).  Failure is reported only if
something is missing; what is written is always the beginning of what a larger stream holds.  Success says that the header is
there, and no more (`option_value_cut_unreported`). -/
theorem value_option_result_partial (s : SEnc) (number : UInt16) (value : List UInt8) (hlen : s.out.length ≤ s.cap) :
    ∃ s' ok, s.option number value = .ok (s', ok) ∧ s'.out.length ≤ s.cap ∧
      ∀ cap, s.cap ≤ cap → ∃ t ok2, ({ s with cap := cap } : SEnc).option number value = .ok (t, ok2) ∧
        s'.out <+: t.out ∧ (ok = true → ok2 = true ∧ (s'.out.length < s.cap → t.out = s'.out)) ∧
        (ok = false → ok2 = true → s.cap < t.out.length) := by
  obtain ⟨s1, ok1, e1, h1, h2, h3⟩ := option_header_room s number (UInt16.ofNat value.length) hlen
  obtain ⟨s1', ok1', e1', hc, -⟩ := option_header_returns s number (UInt16.ofNat value.length)
  rw [e1] at e1'
  simp only [Except.ok.injEq, Prod.mk.injEq] at e1'
  obtain ⟨rfl, rfl⟩ := e1'
  cases ok1 with
  | false =>
    refine ⟨s1, false, by simp only [SEnc.option, e1], h1, fun cap hcap => ?_⟩
    obtain ⟨t1, ok2, e2, g1, g2, g3⟩ := h3 cap hcap
    cases ok2 with
    | false => exact ⟨t1, false, by simp only [SEnc.option, e2], g1, by simp, by simp⟩
    | true =>
      refine ⟨(t1.putn value).1, true, by simp only [SEnc.option, e2], g1.trans (List.prefix_append _ _), by simp, fun _ _ => ?_⟩
      have := g3 rfl rfl
      simp only [SEnc.putn, List.length_append]; omega
  | true =>
    refine ⟨(s1.putn value).1, true, by simp only [SEnc.option, e1], ?_, fun cap hcap => ?_⟩
    · simp only [SEnc.putn, SEnc.room, List.length_append, List.length_take]; omega
    · obtain ⟨t1, ok2, e2, g1, g2, g3⟩ := h3 cap hcap
      obtain ⟨t1', ok2', e2', hc2, -⟩ := option_header_returns { s with cap := cap } number (UInt16.ofNat value.length)
      rw [e2] at e2'
      simp only [Except.ok.injEq, Prod.mk.injEq] at e2'
      obtain ⟨rfl, rfl⟩ := e2'
      simp only at hc2
      obtain ⟨hk, hto⟩ := g2 rfl
      subst hk
      refine ⟨(t1.putn value).1, true, by simp only [SEnc.option, e2], ?_, fun _ => ⟨rfl, fun hr => ?_⟩, by simp⟩
      · simp only [SEnc.putn, SEnc.room]
        rw [hto, hc, hc2]
        refine (List.prefix_append_right_inj _).2 ?_
        rw [List.prefix_take_iff]
        exact ⟨List.take_prefix _ _, by simp; omega⟩
      · simp only [SEnc.putn, SEnc.room, List.length_append, List.length_take] at hr
        simp only [SEnc.putn, SEnc.room, hto, hc2]
        rw [List.take_of_length_le (by omega), List.take_of_length_le (by omega)]

/-- What `option` of the buffer encoder returns and writes, from what its header wrote. -/
theorem option_of_run {s : NEnc} (hs : Between s) {number : UInt16} {value : List UInt8} {bs : List UInt8} {p : OptEnc}
    (h : NRun ⟨number, UInt16.ofNat value.length, []⟩ ⟨.firstByte, s.oe.current, s.oe.pos⟩ s.room bs p) (fuel : Nat)
    (hf : s.room + 6 ≤ fuel) :
    ∃ s', s.option fuel number value =
        .ok (s', decide (p.st = doneState (UInt16.ofNat value.length) ∧ value.length ≤ s.room - bs.length)) ∧
      s'.out = s.out ++ bs ++ (if p.st = doneState (UInt16.ofNat value.length) then value.take (s.room - bs.length) else []) := by
  have e1 := optionHeader_run (between_next hs) (.inl (.inl trivial)) h fuel hf
  by_cases hp : p.st = doneState (UInt16.ofNat value.length)
  · have hp' : (p.st == doneState (UInt16.ofNat value.length)) = true := by simp [hp]
    rw [hp'] at e1
    by_cases hw : value.length ≤ s.room - bs.length
    · refine ⟨_, by simp only [NEnc.option, e1, NEnc.optionValue, NEnc.write, Nat.min_eq_right hw, beq_self_eq_true, if_true, hp, hw,
        and_self, decide_true]; rfl, by simp [hp]⟩
    · have hm : min (s.room - bs.length) value.length = s.room - bs.length := by omega
      have hb : (s.room - bs.length == value.length) = false := by simp; omega
      refine ⟨_, by simp only [NEnc.option, e1, NEnc.optionValue, NEnc.write, hm, hb, Bool.false_eq_true, if_false, hp, hw,
        and_false, decide_false]; rfl, by simp [hp]⟩
  · have hp' : (p.st == doneState (UInt16.ofNat value.length)) = false := by simp [hp]
    rw [hp'] at e1
    refine ⟨_, by simp only [NEnc.option, e1, hp, false_and, decide_false]; rfl, by simp [hp]⟩

/-- C91 for `option(number, value)` of the buffer encoder (partial: an empty value that exactly fills the room).  It returns, writes nothing
beyond the room, and reports success only if everything is written; if it reports failure, either something is missing, or the
value is empty and the header fills the room exactly. -/
theorem buffer_option_result_partial (s : NEnc) (hs : Between s) (number : UInt16) (value : List UInt8) (hv : value.length < 65536)
    (fuel : Nat) (hf : s.room + 6 ≤ fuel) :
    ∃ s' ok, s.option fuel number value = .ok (s', ok) ∧ s.out <+: s'.out ∧ s'.out.length ≤ s.out.length + s.room ∧
      ∀ more fuel2, s.room + more + 6 ≤ fuel2 → ∃ t ok2, (s.refill (s.room + more)).option fuel2 number value = .ok (t, ok2) ∧
        s'.out <+: t.out ∧ (ok = true → ok2 = true ∧ t.out = s'.out) ∧
        (ok = false → ok2 = true → s.out.length + s.room < t.out.length ∨
          (value = [] ∧ t.out = s'.out ∧ t.out.length = s.out.length + s.room)) := by
  obtain ⟨bs, p, r1, r2, r3, r4⟩ := NRun.total ⟨number, UInt16.ofNat value.length, []⟩ _ ⟨.firstByte, s.oe.current, s.oe.pos⟩ s.room
    (Nat.le_refl _) (.inl (.inl trivial))
  obtain ⟨s', e1, o1⟩ := option_of_run hs r1 fuel hf
  simp only at r4
  refine ⟨s', _, e1, by rw [o1, List.append_assoc]; exact List.prefix_append _ _, ?_, fun more fuel2 hf2 => ?_⟩
  · rw [o1]
    split <;> simp <;> omega
  by_cases hp : p.st = doneState (UInt16.ofNat value.length)
  · have r5 : NRun ⟨number, UInt16.ofNat value.length, []⟩ ⟨.firstByte, (s.refill (s.room + more)).oe.current, (s.refill (s.room + more)).oe.pos⟩
        (s.refill (s.room + more)).room bs p := r1.finished hp more
    obtain ⟨t, e2, o2⟩ := option_of_run (show Between (s.refill (s.room + more)) from hs) r5 fuel2 hf2
    refine ⟨t, _, e2, ?_, ?_, ?_⟩
    · rw [o1, o2, if_pos hp, if_pos hp]
      simp only [refill]
      refine (List.prefix_append_right_inj _).2 ?_
      rw [List.prefix_take_iff]
      exact ⟨List.take_prefix _ _, by simp; omega⟩
    · intro h
      simp only [hp, true_and, decide_eq_true_eq] at h
      rw [o1, o2, if_pos hp, if_pos hp]
      simp only [refill, hp, true_and, decide_eq_true_eq]
      refine ⟨by omega, ?_⟩
      rw [List.take_of_length_le (by omega), List.take_of_length_le (by omega)]
    · intro h h2
      simp only [hp, true_and, decide_eq_false_iff_not] at h
      simp only [refill, hp, true_and, decide_eq_true_eq] at h2
      left
      rw [o2, if_pos hp]
      simp only [refill, List.length_append, List.length_take]
      omega
  · have hb := r4 hp
    obtain ⟨bs2, q, q1, q2, q3, q4⟩ := NRun.total ⟨number, UInt16.ofNat value.length, []⟩ _ p more (Nat.le_refl _) r2
    have r5 : NRun ⟨number, UInt16.ofNat value.length, []⟩ ⟨.firstByte, (s.refill (s.room + more)).oe.current, (s.refill (s.room + more)).oe.pos⟩
        (s.refill (s.room + more)).room (bs ++ bs2) q := r1.append hp q1
    obtain ⟨t, e2, o2⟩ := option_of_run (show Between (s.refill (s.room + more)) from hs) r5 fuel2 hf2
    refine ⟨t, _, e2, ?_, ?_, ?_⟩
    · rw [o1, o2, if_neg hp]
      simp only [refill, List.append_nil, List.append_assoc]
      exact (List.prefix_append_right_inj _).2 (List.prefix_append _ _)
    · intro h
      simp [hp] at h
    · intro _ h2
      simp only [refill, List.length_append, decide_eq_true_eq] at h2
      rw [o1, o2, if_neg hp, if_pos h2.1]
      simp only [refill, List.length_append, List.length_take, List.append_nil, List.append_assoc]
      by_cases hx : 0 < bs2.length + value.length
      · left; omega
      · right
        have h3 : bs2 = [] := List.eq_nil_of_length_eq_zero (by omega)
        have h4 : value = [] := List.eq_nil_of_length_eq_zero (by omega)
        subst h3; subst h4
        simp; omega

/-- That case: reported as a failure, though all of it is there. -/
example : (⟨OptEnc.init, [], 1, false⟩ : NEnc).option 20 5 [] = .ok (⟨⟨.firstByteDone, 0, 0⟩, [0x50], 0, false⟩, false) := by
  decide +kernel

end Verif.Props
