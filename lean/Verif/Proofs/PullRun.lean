import Verif.Proofs.Pull
import Verif.Proofs.DecoderSafety

/-! # Whole walks of the pull-style decoder -/
namespace Verif.Proofs
open Verif.Model Header Dec OptDec Spec Pull

/-- An option as the reader sees it. -/
def optPair (o : Opt) : UInt16 × List UInt8 := (UInt16.ofNat o.number, o.value)

/-- The state in which a walk should end. -/
def arrived (pay : Option (List UInt8)) : DState := if pay.isSome then .payload else .done

theorem Shown.current {p : Pull} {o : Opt} {t : List UInt8} (h : Shown p o t) : p.current = optPair o := by
  rcases h with h | ⟨h, hv, -⟩
  · have : (UInt16.ofNat o.value.length).toNat = o.value.length := by simp; have := h.small; omega
    simp [Pull.current, optPair, optionValue, h.num, h.rest.1, h.len, this]
  · simp [Pull.current, optPair, optionValue, h.num, h.rest.1, hv, h.hend.2.1]

theorem AtD.current {p : Pull} {n : Nat} {t : List UInt8} (h : AtD p n t) : p.current = (UInt16.ofNat n, []) := by
  simp [Pull.current, optionValue, h.num, h.len]

theorem Shown.valid {p : Pull} {o : Opt} {t : List UInt8} (h : Shown p o t) : p.d.st = .options := by
  rcases h with h | ⟨h, -⟩ <;> exact h.st

theorem Shown.atV {p : Pull} {o : Opt} {t : List UInt8} (h : Shown p o t) (ht : t ≠ []) : AtV p o t := by
  rcases h with h | ⟨-, -, h⟩
  · exact h
  · exact absurd h ht

/-- `option_next` behind the last option of a message without payload. -/
theorem next_last {p : Pull} {o : Opt} (h : Shown p o []) :
    ∃ q, p.optionNext = .ok (false, q) ∧ q.d.st = .done ∧ Rem q.c [] := by
  rcases h with h | ⟨h, hv, -⟩
  · obtain ⟨q1, e1, h1⟩ := h.step_end
    obtain ⟨q2, e2, h2, h3⟩ := h1.step
    exact ⟨q2, by simp [optionNext, e1, e2, h2], h2, h3⟩
  · obtain ⟨q0, e0, h0⟩ := h.step hv
    obtain ⟨q1, e1, h1⟩ := h0.step_end
    obtain ⟨q2, e2, h2, h3⟩ := h1.step
    exact ⟨q2, by simp [optionNext, e0, e1, h1.st, e2, h2], h2, h3⟩

/-- `option_next` in front of the payload marker. -/
theorem next_marker {p : Pull} {o : Opt} {pl : List UInt8} (h : Shown p o (0xFF :: pl)) :
    ∃ q, p.optionNext = .ok (false, q) ∧ q.d.st = .payload ∧ Rem q.c pl := by
  obtain ⟨q1, e1, h1⟩ := (h.atV (by simp)).step_more (by simp)
  obtain ⟨q2, e2, h2⟩ := (show Before q1 o.number (0xFF :: pl) from Or.inr h1).marker
  obtain ⟨q3, e3, h3, h4⟩ := h2.step
  exact ⟨q3, by simp [optionNext, e1, e2, h2.st, e3, h3], h3, h4⟩

/-- `option_next` with another option behind. -/
theorem next_option {p : Pull} {o o2 : Opt} {hdr t : List UInt8} (h : Shown p o (hdr ++ o2.value ++ t))
    (hle : o.number ≤ o2.number) (hh : HdrOf hdr (o2.number - o.number) o2.value.length) (hl : o2.value.length < 65536) :
    ∃ q, p.optionNext = .ok (true, q) ∧ Shown q o2 t := by
  have hne : hdr ++ o2.value ++ t ≠ [] := by simp [hdrOf_ne hh]
  obtain ⟨q1, e1, h1⟩ := (h.atV hne).step_more hne
  obtain ⟨q2, e2, h2, -⟩ := (show Before q1 o.number _ from Or.inr h1).option hle hh hl
  exact ⟨q2, by simp [optionNext, e1, e2, h2.valid], h2⟩

theorem encPayload_nil {pay : Option (List UInt8)} : encPayload pay = [] ↔ pay = none := by
  cases pay <;> simp [encPayload]

/-- The walk with `option_next` from an option on. -/
theorem nextLoop_all {os : List Opt} {ob : List UInt8} (pay : Option (List UInt8)) : ∀ {p : Pull} {o : Opt},
    Shown p o (ob ++ encPayload pay) → IsOpts o.number os ob → ∀ f,
    ∃ q, nextLoop (os.length + 2 + f) true p = .ok (optPair o :: os.map optPair, q) ∧ q.d.st = arrived pay ∧
      Rem q.c (pay.getD []) := by
  intro p o h hob
  generalize hn : o.number = n at hob
  induction hob generalizing p o with
  | nil =>
    intro f
    simp only [List.nil_append] at h
    cases pay with
    | none =>
      obtain ⟨q, e, h1, h2⟩ := next_last h
      refine ⟨q, ?_, h1, h2⟩
      rw [show ([] : List Opt).length + 2 + f = f + 1 + 1 by simp; omega]
      simp [nextLoop, e, h.current]
    | some pl =>
      obtain ⟨q, e, h1, h2⟩ := next_marker h
      refine ⟨q, ?_, h1, h2⟩
      rw [show ([] : List Opt).length + 2 + f = f + 1 + 1 by simp; omega]
      simp [nextLoop, e, h.current]
  | @cons prev o2 os hdr bs hle hlt hl hh hrest ih =>
    intro f
    subst hn
    rw [List.append_assoc] at h
    obtain ⟨q1, e, h1⟩ := next_option (p := p) (o := o) (o2 := o2) (hdr := hdr) h hle hh hl
    obtain ⟨q, e2, h2, h3⟩ := ih h1 rfl f
    refine ⟨q, ?_, h2, h3⟩
    rw [show (o2 :: os).length + 2 + f = (os.length + 2 + f) + 1 by simp; omega]
    simp [nextLoop, e, h.current, e2]

/-- The whole walk with `begin_option_experimental` and `option_next`. -/
theorem nextAll_all {os : List Opt} {ob : List UInt8} {pay : Option (List UInt8)} {p : Pull} (hob : IsOpts 0 os ob)
    (hs : p.d.st = .optionsStart) (hr : Rem p.c (ob ++ encPayload pay))
    (hj : p.d.opt.st ≠ .payload ∨ os ≠ [] ∨ pay ≠ none) (f : Nat) :
    ∃ q, nextAll (os.length + 1 + f) p = .ok (os.map optPair, q) ∧ q.d.st = arrived pay ∧ Rem q.c (pay.getD []) := by
  cases hob with
  | nil =>
    simp only [List.nil_append] at hr
    cases pay with
    | none =>
      simp only [ne_eq, not_true_eq_false, or_false] at hj
      have hat := hr.1
      simp only [encPayload] at hat
      have e1 : p.iterate = .ok ⟨{ p.d with st := .optionsDone }, p.c⟩ := by
        simp [iterate, Dec.step, hs, hat, hr.2.2]
      obtain ⟨q, e2, h2, h3⟩ := (show AtE ⟨{ p.d with st := .optionsDone }, p.c⟩ from ⟨rfl, hj, hr⟩).step
      refine ⟨q, ?_, h2, h3⟩
      rw [show ([] : List Opt).length + 1 + f = f + 1 by simp; omega]
      simp [nextAll, beginOption, e1, e2, nextLoop]
    | some pl =>
      obtain ⟨q1, e1, h1⟩ := (show Before p 0 (0xFF :: pl) from Or.inl ⟨hs, rfl, hr, by simp⟩).marker
      obtain ⟨q, e2, h2, h3⟩ := h1.step
      refine ⟨q, ?_, h2, h3⟩
      rw [show ([] : List Opt).length + 1 + f = f + 1 by simp; omega]
      simp [nextAll, beginOption, e1, h1.st, e2, nextLoop]
  | @cons prev o os hdr bs hle hlt hl hh hrest =>
    rw [List.append_assoc] at hr
    have hne : hdr ++ o.value ++ (bs ++ encPayload pay) ≠ [] := by simp [hdrOf_ne hh]
    obtain ⟨q1, e1, h1, -⟩ := (show Before p 0 _ from Or.inl ⟨hs, rfl, hr, hne⟩).option hle hh hl
    obtain ⟨q, e2, h2, h3⟩ := nextLoop_all pay h1 hrest f
    refine ⟨q, ?_, h2, h3⟩
    rw [show (o :: os).length + 1 + f = os.length + 2 + f by simp]
    simp [nextAll, beginOption, e1, h1.valid, e2]

/-! ## The iterator -/

/-- Making the iterator is two steps. -/
theorem iterNew_two {p q r : Pull} (e1 : p.iterate = .ok q) (e2 : q.iterate = .ok r) : p.iterNew = .ok r := by
  simp only [iterNew, beginOption, e1]
  by_cases h : q.d.st = .optionsDone
  · simp [h, e2]
  · simp [h, e2]

theorem iterNext_true {p q : Pull} (h : p.optionNext = .ok (true, q)) : p.iterNext = q.iterate := by simp [iterNext, h]
theorem iterNext_false {p q : Pull} (h : p.optionNext = .ok (false, q)) : p.iterNext = .ok q := by simp [iterNext, h]

/-- Advancing from the value of an option, more to come. -/
theorem iterNext_V {p : Pull} {o : Opt} {t : List UInt8} (h : AtV p o t) (ht : t ≠ []) {q2 r : Pull}
    (hq : ∀ q1, p.iterate = .ok q1 → q1.iterate = .ok q2) (hr : q2.iterate = .ok r)
    (hst : q2.d.st = .options ∨ (q2.d.st = .optionsDone ∧ r.d.st ≠ .options)) : p.iterNext = .ok r := by
  obtain ⟨q1, e1, h1⟩ := h.step_more ht
  have e2 := hq q1 e1
  rcases hst with hst | ⟨hst, hst2⟩
  · rw [iterNext_true (q := q2) (by simp [optionNext, e1, e2, hst]), hr]
  · exact iterNext_false (by simp [optionNext, e1, e2, hst, hr, hst2])

theorem iterLoop_stop {p : Pull} (h : p.d.st ≠ .options) (f : Nat) : iterLoop (f + 1) p = .ok ([], p) := by
  simp [iterLoop, iterValid, h]

theorem iterLoop_go {p q r : Pull} {l : List (UInt16 × List UInt8)} {f : Nat} (h : p.d.st = .options) (e : p.iterNext = .ok q)
    (e2 : iterLoop f q = .ok (l, r)) : iterLoop (f + 1) p = .ok (p.current :: l, r) := by
  simp [iterLoop, iterValid, h, e, e2]

/-- What a finished walk with the iterator leaves. -/
def WalkEnd (pay : Option (List UInt8)) (os : List Opt) (q : Pull) : Prop :=
  q.d.st = (if iteratorArrives pay.isSome os then arrived pay else .optionsDone) ∧ Rem q.c (pay.getD [])

/-- The walk with the iterator, from in front of the options or behind one. -/
theorem iter_walk (pay : Option (List UInt8)) : ∀ (n : Nat) (os : List Opt) (ob : List UInt8) (p : Pull) (prev : Nat), os.length ≤ n →
    Before p prev (ob ++ encPayload pay) → IsOpts prev os ob → ∀ f,
    ∃ q1 q2 q, p.iterate = .ok q1 ∧ q1.iterate = .ok q2 ∧ (q1.d.st = .options ∨ (q1.d.st = .optionsDone ∧ q2.d.st ≠ .options)) ∧
      iterLoop (os.length + 1 + f) q2 = .ok ((iteratorShows pay.isSome os).map optPair, q) ∧ WalkEnd pay os q := by
  intro n
  induction n using Nat.strongRecOn with
  | _ n ih =>
  intro os ob p prev hlen hb hob f
  cases hob with
  | nil =>
    cases pay with
    | none =>
      rcases hb with ⟨-, -, -, h⟩ | h
      · exact absurd rfl h
      · exact absurd rfl h.more
    | some pl =>
      obtain ⟨q1, e1, h1⟩ := Before.marker (p := p) (prev := prev) (pl := pl) hb
      obtain ⟨q2, e2, h2, h3⟩ := h1.step
      refine ⟨q1, q2, q2, e1, e2, Or.inr ⟨h1.st, by simp [h2]⟩, ?_, by simp [iteratorArrives, arrived, h2], h3⟩
      rw [show ([] : List Opt).length + 1 + f = f + 1 by simp; omega, iterLoop_stop (by simp [h2])]
      simp [iteratorShows]
  | @cons _ o os1 hdr bs hle hlt hl hh hrest =>
    rw [List.append_assoc] at hb
    obtain ⟨q1, e1, h1, hA⟩ := hb.option hle hh hl
    cases hrest with
    | nil =>
      simp only [List.nil_append] at h1 hA
      cases pay with
      | none =>
        by_cases hv : o.value = []
        · have h1 := hA (by simp [hv, encPayload])
          obtain ⟨q2, e2, h2⟩ := h1.step hv
          obtain ⟨q3, e3, h3⟩ := h2.step_end
          obtain ⟨q4, e4, h4, h5⟩ := h3.step
          refine ⟨q1, q2, q4, e1, e2, Or.inl h1.st, ?_, by simp [iteratorArrives, hv, h4, arrived], h5⟩
          rw [show [o].length + 1 + f = (f + 1) + 1 by simp; omega]
          have hn : q2.iterNext = .ok q4 := iterNext_false (by simp [optionNext, e3, e4, h4])
          rw [iterLoop_go h2.st hn (iterLoop_stop (by simp [h4]) f), (show Shown q2 o [] from Or.inl h2).current]
          simp [iteratorShows, hv, optPair]
        · rcases h1 with h1 | ⟨-, hv2, -⟩
          · obtain ⟨q2, e2, h2⟩ := h1.step_end
            refine ⟨q1, q2, q2, e1, e2, Or.inl h1.st, ?_, by simp [iteratorArrives, hv, h2.st], h2.rest⟩
            rw [show [o].length + 1 + f = (f + 1) + 1 by simp; omega, iterLoop_stop (by simp [h2.st])]
            simp [iteratorShows, hv]
          · exact absurd hv2 hv
      | some pl =>
        have h1 := h1.atV (by simp [encPayload])
        obtain ⟨q2, e2, h2⟩ := h1.step_more (by simp [encPayload])
        obtain ⟨q3, e3, h3⟩ := (show Before q2 o.number (0xFF :: pl) from Or.inr h2).marker
        obtain ⟨q4, e4, h4, h5⟩ := h3.step
        refine ⟨q1, q2, q4, e1, e2, Or.inl h1.st, ?_, by simp [iteratorArrives, h4, arrived], h5⟩
        rw [show [o].length + 1 + f = (f + 1) + 1 by simp; omega]
        have hn : q2.iterNext = .ok q4 := iterNext_false (by simp [optionNext, e3, e4, h4])
        rw [iterLoop_go h2.st hn (iterLoop_stop (by simp [h4]) f), h2.current]
        simp [iteratorShows, optPair]
    | @cons _ o2 os2 hdr2 bs2 hle2 hlt2 hl2 hh2 hrest2 =>
      rw [List.append_assoc (hdr2 ++ o2.value)] at h1
      have hne : hdr2 ++ o2.value ++ (bs2 ++ encPayload pay) ≠ [] := by simp [hdrOf_ne hh2]
      have h1 := h1.atV hne
      obtain ⟨q2, e2, h2⟩ := h1.step_more hne
      obtain ⟨q3, e3, h3, hA3⟩ := (show Before q2 o.number _ from Or.inr h2).option hle2 hh2 hl2
      cases hrest2 with
      | nil =>
        simp only [List.nil_append] at h3 hA3
        rw [show [o, o2].length + 1 + f = ((f + 1) + 1) + 1 by simp; omega]
        cases pay with
        | none =>
          by_cases hv : o2.value = []
          · have h3 := hA3 (by simp [hv, encPayload])
            obtain ⟨q4, e4, h4⟩ := h3.step hv
            obtain ⟨q5, e5, h5⟩ := h4.step_end
            refine ⟨q1, q2, q5, e1, e2, Or.inl h1.st, ?_, by simp [iteratorArrives, hv, h5.st], h5.rest⟩
            have hn : q2.iterNext = .ok q5 := (iterNext_true (q := q4) (by simp [optionNext, e3, e4, h4.st])).trans e5
            rw [iterLoop_go h2.st hn (iterLoop_stop (by simp [h5.st]) (f + 1)), h2.current]
            simp [iteratorShows, optPair]
          · rcases h3 with h3 | ⟨-, hv2, -⟩
            · obtain ⟨q4, e4, h4⟩ := h3.step_end
              obtain ⟨q5, e5, h5, h6⟩ := h4.step
              refine ⟨q1, q2, q5, e1, e2, Or.inl h1.st, ?_, by simp [iteratorArrives, hv, h5, arrived], h6⟩
              have hn : q2.iterNext = .ok q5 := iterNext_false (by simp [optionNext, e3, e4, h4.st, e5, h5])
              rw [iterLoop_go h2.st hn (iterLoop_stop (by simp [h5]) (f + 1)), h2.current]
              simp [iteratorShows, optPair]
            · exact absurd hv2 hv
        | some pl =>
          have h3 := h3.atV (by simp [encPayload])
          obtain ⟨q4, e4, h4⟩ := h3.step_more (by simp [encPayload])
          obtain ⟨q5, e5, h5⟩ := (show Before q4 o2.number (0xFF :: pl) from Or.inr h4).marker
          refine ⟨q1, q2, q5, e1, e2, Or.inl h1.st, ?_, by simp [iteratorArrives, h5.st], h5.rest⟩
          have hn : q2.iterNext = .ok q5 := (iterNext_true (q := q4) (by simp [optionNext, e3, e4, h4.st])).trans e5
          rw [iterLoop_go h2.st hn (iterLoop_stop (by simp [h5.st]) (f + 1)), h2.current]
          simp [iteratorShows, optPair]
      | @cons _ o3 os3 hdr3 bs3 hle3 hlt3 hl3 hh3 hrest3 =>
        rw [List.append_assoc (hdr3 ++ o3.value)] at h3
        have hne3 : hdr3 ++ o3.value ++ (bs3 ++ encPayload pay) ≠ [] := by simp [hdrOf_ne hh3]
        have h3 := h3.atV hne3
        obtain ⟨q4, e4, h4⟩ := h3.step_more hne3
        obtain ⟨q5, e5, h5, -⟩ := (show Before q4 o2.number _ from Or.inr h4).option hle3 hh3 hl3
        have hn : q2.iterNext = .ok q5 := (iterNext_true (q := q4) (by simp [optionNext, e3, e4, h4.st])).trans e5
        rw [show (o :: o2 :: o3 :: os3).length + 1 + f = ((os3.length + 1 + (f + 1)) + 1) + 1 by simp; omega]
        by_cases ht : bs3 ++ encPayload pay = []
        · obtain ⟨hb3, hp⟩ := List.append_eq_nil_iff.mp ht
          rw [encPayload_nil] at hp
          subst hp
          have hos := hrest3.nil_iff.mp hb3
          subst hos
          rw [ht] at h5
          obtain ⟨q6, e6, h6, h7⟩ := next_last h5
          have hn2 : q5.iterNext = .ok q6 := by simp [iterNext, e6]
          refine ⟨q1, q2, q6, e1, e2, Or.inl h1.st, ?_, by simp [iteratorArrives, h6, arrived], h7⟩
          rw [show ([] : List Opt).length + 1 + (f + 1) = (f + 1) + 1 by simp; omega]
          rw [iterLoop_go h2.st hn (iterLoop_go h5.valid hn2 (iterLoop_stop (by simp [h6]) (f + 1))), h2.current, h5.current]
          simp [iteratorShows, optPair]
        · have h5v := h5.atV ht
          obtain ⟨q6, e6, h6⟩ := h5v.step_more ht
          obtain ⟨q7, q8, q, e7, e8, hst, e9, h9⟩ := ih (n - 3) (by simp at hlen; omega) os3 bs3 q6 o3.number
            (by simp at hlen; omega) (Or.inr h6) hrest3 (f + 1)
          have hn2 : q5.iterNext = .ok q8 := iterNext_V h5v ht
            (fun q1 h => by rw [e6] at h; cases h; exact e7) e8 hst
          refine ⟨q1, q2, q, e1, e2, Or.inl h1.st, ?_, by
            rw [WalkEnd, show iteratorArrives pay.isSome (o :: o2 :: o3 :: os3) = iteratorArrives pay.isSome os3 by simp [iteratorArrives]]
            exact h9⟩
          rw [iterLoop_go h2.st hn (iterLoop_go h5.valid hn2 e9), h2.current, h5.current]
          simp [iteratorShows, optPair]

/-- The whole walk with the iterator. -/
theorem iterAll_all {os : List Opt} {ob : List UInt8} {pay : Option (List UInt8)} {p : Pull} (hob : IsOpts 0 os ob)
    (hs : p.d.st = .optionsStart) (hr : Rem p.c (ob ++ encPayload pay))
    (hj : p.d.opt.st ≠ .payload ∨ os ≠ [] ∨ pay ≠ none) (f : Nat) :
    ∃ q, iterAll (os.length + 1 + f) p = .ok ((iteratorShows pay.isSome os).map optPair, q) ∧ WalkEnd pay os q := by
  by_cases hne : ob ++ encPayload pay = []
  · obtain ⟨hb, hp⟩ := List.append_eq_nil_iff.mp hne
    rw [encPayload_nil] at hp
    subst hp
    have hos := hob.nil_iff.mp hb
    subst hos
    rw [hne] at hr
    simp only [ne_eq, not_true_eq_false, or_false] at hj
    have e1 : p.iterate = .ok ⟨{ p.d with st := .optionsDone }, p.c⟩ := by
      simp [iterate, Dec.step, hs, hr.1, hr.2.2]
    obtain ⟨q, e2, h2, h3⟩ := (show AtE ⟨{ p.d with st := .optionsDone }, p.c⟩ from ⟨rfl, hj, hr⟩).step
    refine ⟨q, ?_, by simp [iteratorArrives, arrived, h2], h3⟩
    rw [show ([] : List Opt).length + 1 + f = f + 1 by simp; omega]
    simp [iterAll, iterNew_two e1 e2, iterLoop_stop (show q.d.st ≠ .options by simp [h2]), iteratorShows]
  · obtain ⟨q1, q2, q, e1, e2, -, e3, h⟩ := iter_walk pay os.length os ob p 0 (Nat.le_refl _) (Or.inl ⟨hs, rfl, hr, hne⟩) hob f
    exact ⟨q, by simp [iterAll, iterNew_two e1 e2, e3], h⟩

/-! ## Header and token -/

/-- Reading the token bytes; `p` has been read already. -/
theorem tokenLoop_all (t p : List UInt8) (d : Dec) (r : List UInt8) (n : Nat)
    (ht : t ≠ []) (htk : d.hdr.tokenLength.toNat = p.length + t.length) (h8 : p.length + t.length ≤ 8)
    (hb : d.tbuf.length = 8) (hp : d.tpos.toNat = p.length) (htb : d.tbuf.take p.length = p) (ho : d.opt.st = .garbage) :
    ∃ d', tokenLoop d (t ++ r) n = .ok (d', n + t.length, true) ∧ d'.opt.st = .garbage ∧ d'.hdr = d.hdr ∧ d'.tbuf.length = 8 ∧
      d'.tbuf.take (p.length + t.length) = p ++ t := by
  induction t generalizing p d n with
  | nil => exact absurd rfl ht
  | cons b bs ih =>
    have hadd : (d.tpos + 1).toNat = p.length + 1 := by
      simp only [List.length_cons] at h8
      rw [UInt8.toNat_add]; simp; omega
    have hlt8 : d.tpos.toNat < d.tbuf.length := by simp at h8; omega
    have hw : writeAt d.tbuf d.tpos.toNat b = some (d.tbuf.set d.tpos.toNat b) := by simp [writeAt, hlt8]
    have htb' : (d.tbuf.set d.tpos.toNat b).take (p.length + 1) = p ++ [b] := by
      rw [hp]
      have hlt : p.length < (d.tbuf.set p.length b).length := by simp [hb]; simp at h8; omega
      rw [List.take_succ_eq_append_getElem hlt]
      rw [List.take_set_of_le (by omega), htb]
      simp
    by_cases hbs : bs = []
    · subst hbs
      have hge : d.tpos + 1 ≥ d.hdr.tokenLength := by
        rw [ge_iff_le, UInt8.le_iff_toNat_le, hadd, htk]; simp
      refine ⟨{ d with tbuf := d.tbuf.set d.tpos.toNat b, tpos := d.tpos + 1, opt := { d.opt with st := .garbage } },
        ?_, rfl, rfl, by simp [hb], by simpa using htb'⟩
      simp [tokenLoop, hw, hge]
    · have hlt : ¬ (d.tpos + 1 ≥ d.hdr.tokenLength) := by
        rw [ge_iff_le, UInt8.le_iff_toNat_le, hadd, htk]
        have := List.length_pos_iff.mpr hbs
        simp; omega
      obtain ⟨d', e1, e2, e3, e4, e5⟩ := ih (p ++ [b])
        { d with tbuf := d.tbuf.set d.tpos.toNat b, tpos := d.tpos + 1, opt := { d.opt with st := .garbage } } (n + 1) hbs
        (by simp only [htk]; simp; omega) (by simp at h8 ⊢; omega) (by simp [hb]) (by simp [hadd]) (by simpa using htb') rfl
      refine ⟨d', ?_, e2, e3, e4, ?_⟩
      · rw [List.cons_append]
        simp only [tokenLoop, hw, hlt, if_false]
        rw [e1]; simp; omega
      · rw [show p.length + (b :: bs).length = (p ++ [b]).length + bs.length by simp; omega, e5]; simp

/-- Reading token bytes that end too early. -/
theorem tokenLoop_cut (r : List UInt8) : ∀ (d : Dec) (n : Nat), d.tpos.toNat + r.length < d.hdr.tokenLength.toNat →
    d.tpos.toNat + r.length ≤ 8 → d.tbuf.length = 8 →
    ∃ d', tokenLoop d r n = .ok (d', n + r.length, false) ∧ d'.hdr = d.hdr ∧ d'.tbuf.length = 8 := by
  induction r with
  | nil => intro d n _ _ hb; exact ⟨d, rfl, rfl, hb⟩
  | cons b bs ih =>
    intro d n h1 h2 hb
    simp only [List.length_cons] at h1 h2
    have hw : writeAt d.tbuf d.tpos.toNat b = some (d.tbuf.set d.tpos.toNat b) := by
      rw [writeAt, if_pos (by omega)]
    have hadd : (d.tpos + 1).toNat = d.tpos.toNat + 1 := by rw [UInt8.toNat_add]; simp; omega
    have hlt : ¬ (d.tpos + 1 ≥ d.hdr.tokenLength) := by
      rw [ge_iff_le, UInt8.le_iff_toNat_le, hadd]; omega
    obtain ⟨d', e, g1, g2⟩ := ih { d with tbuf := d.tbuf.set d.tpos.toNat b, tpos := d.tpos + 1, opt := { d.opt with st := .garbage } } (n + 1)
      (by simp only [hadd]; omega) (by simp only [hadd]; omega) (by simp [hb])
    refine ⟨d', ?_, g1, g2⟩
    simp only [tokenLoop, hw, hlt, if_false]
    rw [e]; simp; omega

/-- Waiting for the end of a token when there is nothing to read. -/
theorem until_stuck (n : Nat) : ∀ (p : Pull), p.d.st = .token → p.c.remainder = [] →
    processUntil .tokenDone n p = .ok (false, p) := by
  induction n with
  | zero => intros; rfl
  | succ n ih =>
    intro p hs hr
    have e : p.iterate = .ok p := by
      obtain ⟨⟨st, hdr, hpos, tpos, tbuf, opt, holder⟩, c⟩ := p
      simp only at hs; subst hs
      simp only [iterate, Dec.step, hr, tokenLoop]
      simp
    simp [processUntil, hs, e, ih p hs hr]

/-- `token()` when the token is cut off. -/
theorem token_cut {p : Pull} {r : List UInt8} (hs : p.d.st = .tokenStart) (hl : r.length < p.d.hdr.tokenLength.toNat)
    (h8 : r.length ≤ 8) (hb : p.d.tbuf.length = 8) (hr : Rem p.c r) :
    ∃ q, p.token = .ok ([], false, q) ∧ q.d.st = .token ∧ Rem q.c [] := by
  obtain ⟨d', e, g1, g2⟩ := tokenLoop_cut r { p.d with st := .token, tpos := 0, opt := { p.d.opt with st := .garbage } } 0
    (by simpa using hl) (by simpa using h8) hb
  have e1 : p.iterate = .ok ⟨{ p.d with st := .token, tpos := 0, opt := { p.d.opt with st := .garbage } }, p.c⟩ := by
    simp [iterate, Dec.step, hs]
  have e2 : iterate ⟨{ p.d with st := .token, tpos := 0, opt := { p.d.opt with st := .garbage } }, p.c⟩ =
      .ok ⟨{ d' with st := .token }, { p.c with pos := p.c.pos + r.length }⟩ := by
    simp only [iterate, Dec.step, hr.1, e]; simp
  have hr2 : Rem { p.c with pos := p.c.pos + r.length } [] := Rem.adv (a := r) (t := []) (by simpa using hr)
  have e3 := until_stuck 9 ⟨{ d' with st := .token }, { p.c with pos := p.c.pos + r.length }⟩ rfl hr2.1
  refine ⟨⟨{ d' with st := .token }, { p.c with pos := p.c.pos + r.length }⟩, ?_, rfl, hr2⟩
  have e4 : processUntil .tokenDone 10 ⟨{ p.d with st := .token, tpos := 0, opt := { p.d.opt with st := .garbage } }, p.c⟩ =
      .ok (false, ⟨{ d' with st := .token }, { p.c with pos := p.c.pos + r.length }⟩) := by
    rw [processUntil, if_pos (by simp), e2]
    exact e3
  simp [Pull.token, preprocessToken, hs, e1, e4]

/-- `header()` on a new decoder. -/
theorem header_all (junk : Dec) (b0 b1 b2 b3 : UInt8) (r : List UInt8) :
    ∃ q, (make junk (b0 :: b1 :: b2 :: b3 :: r)).header = .ok (⟨b0, b1, b2, b3⟩, q) ∧
      q.d.st = (if (⟨b0, b1, b2, b3⟩ : Header).tokenLength > 0 then .tokenStart else .optionsStart) ∧
      q.d.hdr = ⟨b0, b1, b2, b3⟩ ∧ q.d.opt = junk.opt ∧ q.d.tbuf = junk.tbuf ∧ Rem q.c r := by
  have hrem : Rem ⟨b0 :: b1 :: b2 :: b3 :: r, 4, true⟩ r := ⟨rfl, by simp, rfl⟩
  have e2 : processUntil .headerDone 10 (make junk (b0 :: b1 :: b2 :: b3 :: r)) =
      .ok (true, ⟨{ junk with st := .headerDone, hdr := ⟨b0, b1, b2, b3⟩, hpos := 4 }, ⟨b0 :: b1 :: b2 :: b3 :: r, 4, true⟩⟩) := by
    simp [processUntil, iterate, make, fresh, Dec.step, headerLoop, writeHeader, Ctx.remainder]
  by_cases ht : (⟨b0, b1, b2, b3⟩ : Header).tokenLength > 0
  · refine ⟨⟨{ junk with st := .tokenStart, hdr := ⟨b0, b1, b2, b3⟩, hpos := 4 }, ⟨b0 :: b1 :: b2 :: b3 :: r, 4, true⟩⟩, ?_, by simp [ht], rfl, rfl, rfl, hrem⟩
    simp [Pull.header, e2, iterate, Dec.step, ht]
  · refine ⟨⟨{ junk with st := .optionsStart, hdr := ⟨b0, b1, b2, b3⟩, hpos := 4 }, ⟨b0 :: b1 :: b2 :: b3 :: r, 4, true⟩⟩, ?_, by simp [ht], rfl, rfl, rfl, hrem⟩
    simp [Pull.header, e2, iterate, Dec.step, ht]

/-- `token()` behind the header. -/
theorem token_all_frame {p : Pull} {t r : List UInt8} (hs : p.d.st = (if t = [] then .optionsStart else .tokenStart))
    (htk : p.d.hdr.tokenLength.toNat = t.length) (h8 : t.length ≤ 8) (hb : p.d.tbuf.length = 8) (hr : Rem p.c (t ++ r)) :
    ∃ q, p.token = .ok (t, true, q) ∧ q.d.st = .optionsStart ∧ Rem q.c r ∧
      (q.d.opt.st = .payload → t = [] ∧ p.d.opt.st = .payload) ∧ q.d.hdr = p.d.hdr ∧ q.d.tbuf.length = 8 := by
  by_cases ht : t = []
  · subst ht
    simp only [if_true] at hs
    exact ⟨p, by simp [Pull.token, preprocessToken, hs], hs, hr, fun h => ⟨rfl, h⟩, rfl, hb⟩
  · simp only [ht, if_false] at hs
    obtain ⟨d', e, h1, h2, h3, h4⟩ := tokenLoop_all t [] { p.d with st := .token, tpos := 0, opt := { p.d.opt with st := .garbage } } r 0 ht
      (by simpa using htk) (by simpa using h8) hb rfl rfl rfl
    have e1 : p.iterate = .ok ⟨{ p.d with st := .token, tpos := 0, opt := { p.d.opt with st := .garbage } }, p.c⟩ := by
      simp [iterate, Dec.step, hs]
    have e2 : iterate ⟨{ p.d with st := .token, tpos := 0, opt := { p.d.opt with st := .garbage } }, p.c⟩ =
        .ok ⟨{ d' with st := .tokenDone }, { p.c with pos := p.c.pos + t.length }⟩ := by
      simp only [iterate, Dec.step, hr.1, e]; simp
    have e3 : processUntil .tokenDone 10 ⟨{ p.d with st := .token, tpos := 0, opt := { p.d.opt with st := .garbage } }, p.c⟩ =
        .ok (true, ⟨{ d' with st := .tokenDone }, { p.c with pos := p.c.pos + t.length }⟩) := by
      simp [processUntil, e2]
    refine ⟨⟨{ d' with st := .optionsStart }, { p.c with pos := p.c.pos + t.length }⟩, ?_, rfl, hr.adv, fun h => by simp [h1] at h, h2, h3⟩
    have e4 : iterate ⟨{ d' with st := .tokenDone }, { p.c with pos := p.c.pos + t.length }⟩ =
        .ok ⟨{ d' with st := .optionsStart }, { p.c with pos := p.c.pos + t.length }⟩ := by
      simp [iterate, Dec.step]
    have hp : p.preprocessToken = .ok (some p.d.hdr.tokenLength, ⟨{ d' with st := .optionsStart }, { p.c with pos := p.c.pos + t.length }⟩) := by
      simp [preprocessToken, hs, e1, e3, e4]
    simp only [List.length_nil, Nat.zero_add, List.nil_append] at h4
    simp [Pull.token, hp, htk, h3, h8, h4]

theorem token_all {p : Pull} {t r : List UInt8} (hs : p.d.st = (if t = [] then .optionsStart else .tokenStart))
    (htk : p.d.hdr.tokenLength.toNat = t.length) (h8 : t.length ≤ 8) (hb : p.d.tbuf.length = 8) (hr : Rem p.c (t ++ r)) :
    ∃ q, p.token = .ok (t, true, q) ∧ q.d.st = .optionsStart ∧ Rem q.c r ∧
      (q.d.opt.st = .payload → t = [] ∧ p.d.opt.st = .payload) := by
  obtain ⟨q, h1, h2, h3, h4, -⟩ := token_all_frame hs htk h8 hb hr
  exact ⟨q, h1, h2, h3, h4⟩

end Verif.Proofs
