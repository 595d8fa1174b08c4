import Verif.Props.ObserveHandler
import Verif.Props.Pump

/-! # C67, C58: exactly when the observation handler and the data pump do what they should -/
namespace Verif.Props
open Verif.Model Verif.Spec Verif.Proofs Dec ObserveHandler

theorem count_filter_ne (t : List UInt8) (l : List (List UInt8)) : (l.filter (· ≠ t)).count t = 0 := by
  rw [List.count_eq_zero]
  intro h
  simp at h

theorem perm_cons_filter (t : List UInt8) : ∀ l : List (List UInt8), l.count t = 1 → l.Perm (t :: l.filter (· ≠ t))
  | [], h => by simp at h
  | x :: l, h => by
    by_cases hx : x = t
    · subst hx
      have h0 : l.count x = 0 := by simpa using h
      have : l.filter (· ≠ x) = l := by
        rw [List.filter_eq_self]
        intro a ha
        have := List.count_eq_zero.1 h0
        simp only [decide_eq_true_eq]
        rintro rfl
        exact this ha
      rw [List.filter_cons, if_neg (by simp), this]
    · have h1 : l.count t = 1 := by rwa [List.count_cons_of_ne (by simpa using hx)] at h
      rw [List.filter_cons, if_pos (by simpa using hx)]
      exact ((perm_cons_filter t l h1).cons x).trans (List.Perm.swap _ _ _)

theorem filter_ne_self {t : List UInt8} {l : List (List UInt8)} (h : t ∉ l) : l.filter (· ≠ t) = l := by
  rw [List.filter_eq_self]
  intro a ha
  simp only [decide_eq_true_eq]
  rintro rfl
  exact h ha

/-- C67, exactly when the registrations of a handler whose memory held true are right after a request with a payload and at most one
Observe option, their order aside: for a value of 0 the token must not be registered yet, and the value must be sent as bytes
unless the handler was already awake (where the value is not seen, the registrations are right if the token has been there once); a
value of 1 is never treated rightly; any other value is if it begins neither with a byte 0 nor a byte 1; and without an
Observe option the handler must not be awake. -/
theorem observe_handler_right_iff (m : Msg) (hm : m.Ok) (ob : List UInt8) (hob : IsOpts 0 m.opts ob) (junk : Dec)
    (hj : junk.tbuf.length = 8) (hp : m.payload ≠ none) (token : List UInt8) (i : Interest) (sessions : List (List UInt8))
    (hone : (observeOptions m).length ≤ 1) :
    ∃ N d' i' after, (∀ fuel, N ≤ fuel → dispatch fuel (fresh junk) token ⟨i, true, sessions⟩ [] (wire m ob) = .ok (d', ⟨i', true, after⟩)) ∧
      (after.Perm (observeWanted m token sessions) ↔
        (observeOptions m = [] ∧ i ≠ .always) ∨
        ∃ v, observeOptions m = [v] ∧
          ((beValue v = 0 ∧ (v ≠ [] ∨ i = .always) ∧ token ∉ sessions) ∨ (v = [] ∧ i ≠ .always ∧ sessions.count token = 1) ∨
           (2 ≤ beValue v ∧ v.head? ≠ some 0 ∧ v.head? ≠ some 1))) := by
  obtain ⟨N, d', i', -, h⟩ := observe_handler_effect m hm ob hob junk hj hp token ⟨i, true, sessions⟩
  refine ⟨N, d', i', _, h, ?_⟩
  simp only [Bool.and_true]
  have hgrow : ¬(token :: sessions).Perm sessions := fun h => by have := h.length_eq; simp at this
  match ho : observeOptions m, hone with
  | [], _ =>
    have hw : observeWanted m token sessions = sessions := by simp [observeWanted, ho]
    have ha : awake ⟨i, true, sessions⟩ m = (i == .always) := by simp [awake, lastObserve, ho]
    rw [hw, ha]
    by_cases hi : i = .always
    · rw [hi]
      simp only [beq_self_eq_true, if_true]
      constructor
      · intro h; exact absurd h hgrow
      · rintro (⟨-, h⟩ | ⟨v, h, -⟩)
        · exact absurd rfl h
        · simp at h
    · have : (i == .always) = false := by simpa using hi
      simp [this, hi]
  | [v], _ =>
    have hw : observeWanted m token sessions = if beValue v = 0 then token :: sessions.filter (· ≠ token) else
        if beValue v = 1 then sessions.filter (· ≠ token) else sessions := by simp [observeWanted, ho]
    rw [hw]
    have hin : (token :: sessions).Perm (token :: sessions.filter (· ≠ token)) ↔ token ∉ sessions := by
      constructor
      · intro h
        have := h.count_eq token
        rw [List.count_cons_self, List.count_cons_self, count_filter_ne] at this
        exact List.count_eq_zero.1 (by omega)
      · intro h; rw [filter_ne_self h]
    have hone' : sessions.Perm (token :: sessions.filter (· ≠ token)) ↔ sessions.count token = 1 := by
      constructor
      · intro h
        have := h.count_eq token
        rwa [List.count_cons_self, count_filter_ne] at this
      · exact perm_cons_filter token sessions
    have hout : ¬(token :: sessions).Perm (sessions.filter (· ≠ token)) := by
      intro h
      have := h.count_eq token
      rw [List.count_cons_self, count_filter_ne] at this
      omega
    cases v with
    | nil =>
      have ha : awake ⟨i, true, sessions⟩ m = (i == .always) := by simp [awake, lastObserve, ho]
      rw [ha, show beValue [] = 0 from rfl, if_pos rfl]
      by_cases hi : i = .always
      · subst hi
        simp only [beq_self_eq_true, if_true, hin]
        constructor
        · intro h; exact Or.inr ⟨[], rfl, Or.inl ⟨rfl, Or.inr (by trivial), h⟩⟩
        · rintro (⟨h, -⟩ | ⟨v, h, h'⟩)
          · simp at h
          · simp only [List.cons.injEq, and_true] at h
            subst h
            rcases h' with h' | h' | h'
            · exact h'.2.2
            · exact absurd rfl h'.2.1
            · simp [beValue] at h'
      · have hb : (i == .always) = false := by simpa using hi
        simp only [hb, Bool.false_eq_true, if_false, hone']
        constructor
        · intro h; exact Or.inr ⟨[], rfl, Or.inr (Or.inl ⟨rfl, hi, h⟩)⟩
        · rintro (⟨h, -⟩ | ⟨v, h, h'⟩)
          · simp at h
          · simp only [List.cons.injEq, and_true] at h
            subst h
            rcases h' with h' | h' | h'
            · rcases h'.2.1 with x | x
              · exact absurd rfl x
              · exact absurd x hi
            · exact h'.2.2
            · simp [beValue] at h'
    | cons b v =>
      have ha : awake ⟨i, true, sessions⟩ m = (b == 0 || b == 1) := by simp [awake, lastObserve, ho]
      rw [ha]
      have hsplit : (b = 0 ∨ b = 1) ∨ (b ≠ 0 ∧ b ≠ 1) := by
        by_cases h0 : b = 0
        · exact Or.inl (Or.inl h0)
        · by_cases h1 : b = 1
          · exact Or.inl (Or.inr h1)
          · exact Or.inr ⟨h0, h1⟩
      have hpos : 1 ≤ 256 ^ v.length := Nat.pow_pos (by omega)
      rcases hsplit with hb | hb
      · have hb' : (b == 0 || b == 1) = true := by rcases hb with h | h <;> simp [h]
        rw [hb']
        simp only [if_true]
        have hno : ¬((b :: v).head? ≠ some 0 ∧ (b :: v).head? ≠ some 1) := by rcases hb with h | h <;> simp [h]
        by_cases h0 : beValue (b :: v) = 0
        · rw [if_pos h0, hin]
          constructor
          · intro h; exact Or.inr ⟨_, rfl, Or.inl ⟨h0, Or.inl (by simp), h⟩⟩
          · rintro (⟨h, -⟩ | ⟨w, h, h'⟩)
            · simp at h
            · simp only [List.cons.injEq, and_true] at h
              subst h
              rcases h' with h' | h' | h'
              · exact h'.2.2
              · simp at h'
              · exact absurd h'.2 hno
        · rw [if_neg h0]
          have hfalse : ¬((observeOptions m = [] ∧ i ≠ .always) ∨ ∃ w, [b :: v] = [w] ∧
              ((beValue w = 0 ∧ (w ≠ [] ∨ i = .always) ∧ token ∉ sessions) ∨ (w = [] ∧ i ≠ .always ∧ sessions.count token = 1) ∨
                (2 ≤ beValue w ∧ w.head? ≠ some 0 ∧ w.head? ≠ some 1))) := by
            rintro (⟨h, -⟩ | ⟨w, h, h'⟩)
            · simp [ho] at h
            · simp only [List.cons.injEq, and_true] at h
              subst h
              rcases h' with h' | h' | h'
              · exact h0 h'.1
              · simp at h'
              · exact hno h'.2
          rw [ho] at hfalse
          constructor
          · intro h
            split at h
            · exact absurd h hout
            · exact absurd h hgrow
          · intro h; exact absurd h hfalse
      · have hb' : (b == 0 || b == 1) = false := by simp [hb.1, hb.2]
        rw [hb']
        simp only [Bool.false_eq_true, if_false]
        have h2 : 2 ≤ beValue (b :: v) := by
          have h0 : b.toNat ≠ 0 := fun h => hb.1 (UInt8.toNat_inj.1 h)
          have h1 : b.toNat ≠ 1 := fun h => hb.2 (UInt8.toNat_inj.1 h)
          simp only [beValue]
          have : 2 * 256 ^ v.length ≤ b.toNat * 256 ^ v.length := Nat.mul_le_mul_right _ (by omega)
          omega
        rw [if_neg (by omega), if_neg (by omega)]
        exact ⟨fun _ => Or.inr ⟨_, rfl, Or.inr (Or.inr ⟨h2, by simp [hb.1], by simp [hb.2]⟩)⟩, fun _ => List.Perm.refl _⟩
  | _ :: _ :: _, h => simp at h

/-- C67, where memory held false nothing is ever registered: exactly then it is right. -/
theorem observe_handler_idle_right_iff (m : Msg) (hm : m.Ok) (ob : List UInt8) (hob : IsOpts 0 m.opts ob) (junk : Dec)
    (hj : junk.tbuf.length = 8) (hp : m.payload ≠ none) (token : List UInt8) (i : Interest) (sessions : List (List UInt8)) :
    ∃ N d' i' after, (∀ fuel, N ≤ fuel → dispatch fuel (fresh junk) token ⟨i, false, sessions⟩ [] (wire m ob) = .ok (d', ⟨i', false, after⟩)) ∧
      (after.Perm (observeWanted m token sessions) ↔
        ∀ v, observeOptions m = [v] → (beValue v = 0 → sessions.count token = 1) ∧ (beValue v = 1 → token ∉ sessions)) := by
  obtain ⟨N, d', i', -, h⟩ := observe_handler_effect m hm ob hob junk hj hp token ⟨i, false, sessions⟩
  refine ⟨N, d', i', _, h, ?_⟩
  simp only [Bool.and_false, Bool.false_eq_true, if_false]
  match ho : observeOptions m with
  | [] => simp [observeWanted, ho]
  | [v] =>
    have hw : observeWanted m token sessions = if beValue v = 0 then token :: sessions.filter (· ≠ token) else
        if beValue v = 1 then sessions.filter (· ≠ token) else sessions := by simp [observeWanted, ho]
    rw [hw]
    have hq : (∀ w, [v] = [w] → (beValue w = 0 → sessions.count token = 1) ∧ (beValue w = 1 → token ∉ sessions)) ↔
        (beValue v = 0 → sessions.count token = 1) ∧ (beValue v = 1 → token ∉ sessions) :=
      ⟨fun h => h v rfl, fun h w hw => by simp only [List.cons.injEq, and_true] at hw; subst hw; exact h⟩
    rw [hq]
    by_cases h0 : beValue v = 0
    · rw [if_pos h0]
      constructor
      · intro h
        have := h.count_eq token
        rw [List.count_cons_self, count_filter_ne] at this
        exact ⟨fun _ => this, fun h => by omega⟩
      · intro h; exact perm_cons_filter token sessions (h.1 h0)
    · rw [if_neg h0]
      by_cases h1 : beValue v = 1
      · rw [if_pos h1]
        constructor
        · intro h
          have := h.count_eq token
          rw [count_filter_ne] at this
          exact ⟨fun h => absurd h h0, fun _ => List.count_eq_zero.1 this⟩
        · intro h; rw [filter_ne_self (h.2 h1)]
      · rw [if_neg h1]
        exact ⟨fun _ => ⟨fun h => absurd h h0, fun h => absurd h h1⟩, fun _ => List.Perm.refl _⟩
  | _ :: _ :: _ => simp [observeWanted, ho]

/-- C58, exactly when the observer is told of every datagram's message: at most one datagram is taken from the data pump, and its message
has a payload. -/
theorem pump_right_iff (ms : List (Msg × List UInt8)) (hms : ∀ x ∈ ms, x.1.Ok ∧ IsOpts 0 x.1.opts x.2) (junk : Dec)
    (hj : junk.tbuf.length = 8) :
    ∃ N, ∀ fuel, N ≤ fuel →
      ((∃ d', pump fuel (fresh junk) (ms.map fun x => [wire x.1 x.2]) = .ok (d', ms.map fun x => owed x.1)) ↔
        ms.length ≤ 1 ∧ ∀ x ∈ ms, x.1.payload ≠ none) := by
  match ms, hms with
  | [], _ => exact ⟨0, fun fuel _ => by simp [pump]⟩
  | x :: rest, hms =>
    obtain ⟨hm, hob⟩ := hms x List.mem_cons_self
    by_cases hp : x.1.payload = none
    · have hw : wire x.1 x.2 ≠ [] := by simp [wire, encHeader]
      obtain ⟨N, d1, evs, h1, -, h2⟩ := legacy_no_payload_incomplete x.1 hm x.2 hob junk hj hp [] (wire x.1 x.2) (by simp) hw
      refine ⟨N, fun fuel hf => ⟨?_, fun h => absurd hp (h.2 x List.mem_cons_self)⟩⟩
      rintro ⟨d', h⟩
      have hc := h1 fuel hf
      simp only [legacyChunks] at hc
      cases hr : legacyRun fuel (fresh junk) ⟨wire x.1 x.2, 0, true⟩ with
      | error e => rw [hr] at hc; simp at hc
      | ok r =>
        obtain ⟨d2, c2, evs2⟩ := r
        rw [hr] at hc
        simp only [Except.ok.injEq, Prod.mk.injEq] at hc
        simp only [List.map_cons, pump, pumpDispatch, List.headD_cons, hr] at h
        cases hq : pump fuel d2 (rest.map fun x => [wire x.1 x.2]) with
        | error e => rw [hq] at h; simp at h
        | ok r =>
          rw [hq] at h
          simp only [Except.ok.injEq, Prod.mk.injEq, List.cons.injEq] at h
          rw [← hc.2, h.2.1] at h2
          exact absurd (by simp [owed]) h2
    · match rest with
      | [] =>
        obtain ⟨N, d', h⟩ := pump_first_partial x.1 hm x.2 hob junk hj hp
        exact ⟨N, fun fuel hf => ⟨fun _ => ⟨by simp, by simpa using hp⟩, fun _ => ⟨d', h fuel hf⟩⟩⟩
      | y :: rest =>
        obtain ⟨N, d', h⟩ := pump_second_lost x.1 hm x.2 hob junk hj hp [wire y.1 y.2]
        refine ⟨N, fun fuel hf => ⟨?_, fun h => by have := h.1; simp at this⟩⟩
        rintro ⟨d2, h2⟩
        have h1 := h fuel hf
        simp only [List.map_cons, pump] at h1 h2
        cases ha : pumpDispatch fuel (fresh junk) [wire x.1 x.2] with
        | error e => rw [ha] at h1; simp at h1
        | ok r =>
          obtain ⟨da, ea⟩ := r
          simp only [ha] at h1 h2
          cases hb : pumpDispatch fuel da [wire y.1 y.2] with
          | error e => rw [hb] at h1; simp at h1
          | ok r =>
            obtain ⟨db, eb⟩ := r
            simp only [hb] at h1 h2
            cases hq : pump fuel db (rest.map fun x => [wire x.1 x.2]) with
            | error e => rw [hq] at h2; simp at h2
            | ok r =>
              rw [hq] at h2
              simp only [Except.ok.injEq, Prod.mk.injEq, List.cons.injEq, and_true] at h1 h2
              have := h1.2.2.symm.trans h2.2.2.1
              simp [owed] at this

/-! ## Cases that meet the hypotheses -/

/-- Observe 0 as a byte, as no bytes at all, Observe 1 and Observe 5: right, wrong, wrong, right for a new handler. -/
example : observeOptions ⟨1, 0, 1, 7, [0xAA], [⟨6, [0]⟩], some [1]⟩ = [[0]] ∧ observeOptions ⟨1, 0, 1, 7, [0xAA], [⟨6, []⟩], some [1]⟩ = [[]] ∧
    (⟨1, 0, 1, 7, [0xAA], [⟨6, [0]⟩], some [1]⟩ : Msg).Ok ∧ beValue [5] = 5 := by decide

/-- A pump with one message with payload, one without, and two messages: the right side holds, fails, fails. -/
example : (([(⟨1, 0, 1, 7, [0xAA], [], some [1]⟩, [])] : List (Msg × List UInt8)).length ≤ 1 ∧
      ∀ x ∈ ([(⟨1, 0, 1, 7, [0xAA], [], some [1]⟩, [])] : List (Msg × List UInt8)), x.1.payload ≠ none) ∧
    ¬ (∀ x ∈ ([(⟨1, 0, 1, 7, [0xAA], [], none⟩, [])] : List (Msg × List UInt8)), x.1.payload ≠ none) := by decide

end Verif.Props
