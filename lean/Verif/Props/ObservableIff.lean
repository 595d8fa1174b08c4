import Verif.Props.Observable

/-! # C38: exactly how many notifications an address gets, and exactly when that is right -/
namespace Verif.Props
open Verif.Model Verif.Model.Observable Verif.Spec Verif.Proofs

variable {A : Type} [DecidableEq A]

/-- What a request means for the tokens an address observes with (RFC 7641 sections 3.6 and 4.1): 0 adds the token unless it is there
already, 1 takes it away. -/
def observingStep (a : A) (ts : List (List UInt8)) : Ev A → List (List UInt8)
  | .round => ts
  | .observe b t c => if b = a then if c = 0 then (if t ∈ ts then ts else ts ++ [t]) else if c = 1 then ts.erase t else ts else ts

/-- The tokens an address observes with after a history. -/
def observing (a : A) (es : List (Ev A)) : List (List UInt8) := es.foldl (observingStep a) []

/-- How often an address asked to observe. -/
def askedToObserve (a : A) : List (Ev A) → Nat
  | [] => 0
  | .round :: es => askedToObserve a es
  | .observe b _ c :: es => (if b = a ∧ c = 0 then 1 else 0) + askedToObserve a es

theorem count_subs (a : A) : ∀ es : List (Ev A), ((subs es).filter fun x => x.1 = a).length = askedToObserve a es
  | [] => rfl
  | .round :: es => by simpa [subs, askedToObserve] using count_subs a es
  | .observe b t c :: es => by
    have ih := count_subs a es
    by_cases hc : c = 0 <;> by_cases hb : b = a <;> simp_all [subs, askedToObserve] <;> omega

theorem asked_observing (a : A) : ∀ (es : List (Ev A)) (ts : List (List UInt8)),
    (es.foldl (observingStep a) ts).length ≤ askedToObserve a es + ts.length ∧
    ((es.foldl (observingStep a) ts).length = askedToObserve a es + ts.length ↔
      ∀ p t c q, es = p ++ .observe a t c :: q → c = 0 ∨ c = 1 → t ∉ p.foldl (observingStep a) ts)
  | [], ts => by simp [askedToObserve]
  | e :: es, ts => by
    obtain ⟨h1, h2⟩ := asked_observing a es (observingStep a ts e)
    have hsplit : (∀ p t c q, e :: es = p ++ .observe a t c :: q → c = 0 ∨ c = 1 → t ∉ p.foldl (observingStep a) ts) ↔
        (∀ t c, e = .observe a t c → c = 0 ∨ c = 1 → t ∉ ts) ∧
        (∀ p t c q, es = p ++ .observe a t c :: q → c = 0 ∨ c = 1 → t ∉ p.foldl (observingStep a) (observingStep a ts e)) := by
      constructor
      · intro h
        refine ⟨fun t c he => h [] t c es (by rw [he]; rfl), fun p t c q he => ?_⟩
        have := h (e :: p) t c q (by rw [he]; rfl)
        simpa using this
      · rintro ⟨ha, hb⟩ p t c q he
        cases p with
        | nil => simp only [List.nil_append, List.cons.injEq] at he; exact ha t c he.1
        | cons x p =>
          simp only [List.cons_append, List.cons.injEq] at he
          obtain ⟨rfl, he⟩ := he
          simpa using hb p t c q he
    rw [hsplit, ← h2, List.foldl_cons]
    cases e with
    | round =>
      simp only [observingStep, askedToObserve] at h1 ⊢
      exact ⟨h1, by simp⟩
    | observe b t c =>
      by_cases hb : b = a
      · subst hb
        by_cases h0 : c = 0
        · subst h0
          by_cases ht : t ∈ ts
          · have hs : observingStep b ts (.observe b t 0) = ts := by simp [observingStep, ht]
            rw [hs] at h1 ⊢
            simp only [askedToObserve, and_self, if_true]
            refine ⟨by omega, fun h => by omega, fun h => absurd ht (h.1 t 0 rfl (.inl rfl))⟩
          · have hs : observingStep b ts (.observe b t 0) = ts ++ [t] := by simp [observingStep, ht]
            rw [hs] at h1 ⊢
            simp only [askedToObserve, and_self, if_true, List.length_append, List.length_singleton] at h1 ⊢
            refine ⟨by omega, fun h => ⟨?_, by omega⟩, fun h => by have := h.2; omega⟩
            intro t' c' he _
            simp only [Ev.observe.injEq, true_and] at he
            rw [← he.1]; exact ht
        · by_cases hc1 : c = 1
          · subst hc1
            by_cases ht : t ∈ ts
            · have hs : observingStep b ts (.observe b t 1) = ts.erase t := by simp [observingStep]
              have hl := List.length_erase_of_mem ht
              have hp := List.length_pos_of_mem ht
              rw [hs] at h1 ⊢
              simp only [askedToObserve, true_and, if_neg h0] at h1 ⊢
              refine ⟨by omega, fun h => by omega, fun h => absurd ht (h.1 t 1 rfl (.inr rfl))⟩
            · have hs : observingStep b ts (.observe b t 1) = ts := by simp [observingStep, List.erase_of_not_mem ht]
              rw [hs] at h1 ⊢
              simp only [askedToObserve, true_and, if_neg h0] at h1 ⊢
              refine ⟨by omega, fun h => ⟨?_, by omega⟩, fun h => by have := h.2; omega⟩
              intro t' c' he _
              simp only [Ev.observe.injEq, true_and] at he
              rw [← he.1]; exact ht
          · have hs : observingStep b ts (.observe b t c) = ts := by simp [observingStep, h0, hc1]
            rw [hs] at h1 ⊢
            simp only [askedToObserve, true_and, if_neg h0] at h1 ⊢
            refine ⟨by omega, fun h => ⟨?_, by omega⟩, fun h => by have := h.2; omega⟩
            intro t' c' he hc'
            simp only [Ev.observe.injEq, true_and] at he
            rw [← he.2] at hc'
            exact absurd hc' (by simp [h0, hc1])
      · have hs : observingStep a ts (.observe b t c) = ts := by simp [observingStep, hb]
        rw [hs] at h1 ⊢
        simp only [askedToObserve, hb, false_and, if_false, Nat.zero_add] at h1 ⊢
        refine ⟨h1, fun h => ⟨?_, h⟩, fun h => h.2⟩
        intro t' c' he
        simp only [Ev.observe.injEq] at he
        exact absurd he.1 hb

/-- C38, exactly: in a round an address gets as many notifications as it asked to observe, whatever else it asked; that is never less than
the number of tokens it observes with, and equal to it exactly if no request repeated or ended an observation that was there. -/
theorem notified_right_iff (cap room fuel : Nat) (junk : List UInt8) (emit : Session A → NEnc → NEnc)
    (hj : 4 ≤ junk.length) (hroom : 18 ≤ room) (hf : room + 6 ≤ fuel) (pre post : List (Ev A)) (a : A)
    (hfit : Fits cap (pre ++ .round :: post)) :
    ∃ r outs ms, run cap room fuel junk emit Registrar.init (pre ++ .round :: post) = .ok (r, outs) ∧
      outs[rounds pre]? = some ms ∧ (ms.filter fun m => m.addr = a).length = askedToObserve a pre ∧
      (observing a pre).length ≤ (ms.filter fun m => m.addr = a).length ∧
      ((ms.filter fun m => m.addr = a).length = (observing a pre).length ↔
        ∀ p t c q, pre = p ++ .observe a t c :: q → c = 0 ∨ c = 1 → t ∉ observing a p) := by
  obtain ⟨r, outs, ms, h1, -, h3, h4, h5⟩ := observers_notified_partial cap room fuel junk emit hj hroom hf pre post hfit
  have hmap : ms.map (·.addr) = (subs pre).map (·.1) := by
    apply List.ext_getElem?
    intro i
    rw [List.getElem?_map, List.getElem?_map]
    by_cases hi : i < (subs pre).length
    · obtain ⟨v, e, -, -, -, -, hm⟩ := h5 i (subs pre)[i].1 (subs pre)[i].2.1 (subs pre)[i].2.2 (List.getElem?_eq_getElem hi)
      rw [hm, List.getElem?_eq_getElem hi]; rfl
    · rw [List.getElem?_eq_none (by omega), List.getElem?_eq_none (by omega)]; rfl
  have hcnt : (ms.filter fun m => m.addr = a).length = askedToObserve a pre := by
    rw [← count_subs a pre]
    have e1 : (ms.filter fun m => m.addr = a).length = ((ms.map (·.addr)).filter fun x => x = a).length := by
      rw [List.filter_map, List.length_map]; rfl
    have e2 : ((subs pre).filter fun x => x.1 = a).length = (((subs pre).map (·.1)).filter fun x => x = a).length := by
      rw [List.filter_map, List.length_map]; rfl
    rw [e1, e2, hmap]
  obtain ⟨g1, g2⟩ := asked_observing a pre []
  simp only [List.length_nil, Nat.add_zero] at g1 g2
  refine ⟨r, outs, ms, h1, h3, hcnt, by rw [hcnt]; exact g1, ?_⟩
  rw [hcnt, eq_comm]
  exact g2

/-- Address 7 observes with two tokens, address 8 asks twice with the same token and ends: right for 7, wrong for 8. -/
example : let pre : List (Ev Nat) := [.observe 7 [1] 0, .observe 8 [1] 0, .observe 7 [2] 0, .observe 8 [1] 0, .observe 8 [1] 1, .observe 9 [3] 1]
    observing 7 pre = [[1], [2]] ∧ askedToObserve 7 pre = 2 ∧ observing 8 pre = [] ∧ askedToObserve 8 pre = 2 ∧ observing 9 pre = [] ∧
    askedToObserve 9 pre = 0 := by decide

example := notified_right_iff (A := Nat) 4 30 50 [0, 0, 0, 0] (fun _ e => e) (by decide) (by decide) (by decide)
  [.observe 7 [0xAA] 0, .observe 8 [0xAA] 0, .observe 7 [0xAA] 1] [] 7 ⟨by decide, by decide, by decide⟩

end Verif.Props
