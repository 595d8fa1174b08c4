import Verif.Props.AggregateUri
import Verif.Spec.AggregateSeq

/-! # Aggregates of handlers and any sequence of messages (C55) -/
namespace Verif.Props
open Verif.Model Verif.Model.Dispatch Verif.Proofs Verif.Proofs.Route Verif.Spec Dec

/-- Dispatching the messages one after the other, each in one buffer and with its options encoded in some legal way, takes the aggregate
from the one state to the other (`none`: undefined). -/
inductive ToldAll (cs : Bool) (names : List (List UInt8)) : Agg → List (Msg × List UInt8) → Option Agg → Prop
  | nil {a} : ToldAll cs names a [] (some a)
  | cons {a b m ob l r} : Told cs names a m ob (some b) → ToldAll cs names b l r → ToldAll cs names a ((m, ob) :: l) r
  | undef {a m ob l} : Told cs names a m ob none → ToldAll cs names a ((m, ob) :: l) none

theorem served_exists (names : List (List UInt8)) : ∀ os : List Opt, (∃ o ∈ os, Named names o) → ∃ i rest, Served names os i rest
  | [], h => by simp at h
  | o :: os, h => by
    by_cases ho : Named names o
    · obtain ⟨i, hi⟩ := firstPrefix_exists o.value names ho.2.2
      exact ⟨i, _, .here ho hi⟩
    · obtain ⟨x, hx, hn⟩ := h
      rcases List.mem_cons.1 hx with rfl | hx
      · exact absurd hn ho
      · obtain ⟨i, rest, hs⟩ := served_exists names os ⟨x, hx, hn⟩
        exact ⟨i, rest, .later ho hs⟩

theorem served_named {names : List (List UInt8)} {os : List Opt} {i : Nat} {rest : List Opt} (h : Served names os i rest) :
    ∃ o ∈ os, Named names o := by
  induction h with
  | here h1 _ => exact ⟨_, List.mem_cons_self, h1⟩
  | later _ _ ih => obtain ⟨o, ho, hn⟩ := ih; exact ⟨o, List.mem_cons_of_mem _ ho, hn⟩

theorem told_nil_iff (m : Msg) : told m.opts m.payload = [] ↔ ¬Carries m := by
  cases hp : m.payload with
  | none => simp [told, Carries, hp]
  | some p => simp [told, Carries, hp]

theorem told_acted (os : List Opt) (p : Option (List UInt8)) : ∀ c ∈ told os p, acted c = true := by
  intro c hc
  rw [told_split, List.mem_append] at hc
  rcases hc with hc | hc
  · obtain ⟨n, v, rfl⟩ := told_kind _ c hc
    rfl
  · cases p with
    | none => simp at hc
    | some p =>
      simp only [List.mem_cons, List.not_mem_nil, or_false] at hc
      rcases hc with rfl | rfl <;> rfl

theorem gone_crash (cs : Bool) (names : List (List UInt8)) (a : Agg) (i : Nat) (ha : a.handler = some (i, false)) (m : Msg)
    (h : told m.opts m.payload ≠ []) : a.calls cs names (told m.opts m.payload) = none := by
  cases hl : told m.opts m.payload with
  | nil => exact absurd hl h
  | cons c l =>
    have hc := told_acted m.opts m.payload c (by rw [hl]; exact List.mem_cons_self)
    cases c with
    | option n p b => simp [Agg.calls, Agg.call, Agg.look, Agg.hand, ha]
    | payload p b => simp [Agg.calls, Agg.call, Agg.hand, ha]
    | complete => simp [Agg.calls, Agg.call, Agg.hand, ha]
    | header | token | optionHead => simp [acted] at hc

/-- The state of the aggregate is what the messages so far leave behind. -/
def AtLeft (a : Agg) : Left → Prop
  | .nobody => a.handler = none
  | .kept i => a.handler = some (i, true)
  | .gone => ∃ i, a.handler = some (i, false)

theorem atLeft_leaves (i : Nat) (p : Option (List UInt8)) (a : Agg) (h : a.handler = some (i, alive p)) : AtLeft a (leaves i p) := by
  cases p with
  | none => exact h
  | some p => exact ⟨i, h⟩

/-- Every sequence has a course. -/
theorem course_exists (names : List (List UInt8)) : ∀ (ms : List Msg) (s : Left), ∃ r, Course names s ms r
  | [], s => ⟨_, .nil⟩
  | m :: ms, .nobody => by
    by_cases h : ∃ o ∈ m.opts, Named names o
    · obtain ⟨i, rest, hs⟩ := served_exists names m.opts h
      obtain ⟨r, hr⟩ := course_exists names ms (leaves i m.payload)
      exact ⟨_, .served hs hr⟩
    · obtain ⟨r, hr⟩ := course_exists names ms .nobody
      exact ⟨r, .unserved (fun o ho hn => h ⟨o, ho, hn⟩) hr⟩
  | m :: ms, .kept i => by
    obtain ⟨r, hr⟩ := course_exists names ms (leaves i m.payload)
    exact ⟨_, .kept hr⟩
  | m :: ms, .gone => by
    by_cases h : told m.opts m.payload = []
    · obtain ⟨r, hr⟩ := course_exists names ms .gone
      exact ⟨r, .empty h hr⟩
    · exact ⟨none, .crash h⟩

theorem sequence_told (cs : Bool) (names : List (List UInt8)) (hp : ∀ n ∈ names, Plain cs n) :
    ∀ (l : List (Msg × List UInt8)), (∀ x ∈ l, x.1.Ok ∧ IsOpts 0 x.1.opts x.2) → ∀ (s : Left) (a : Agg), AtLeft a s →
    ∀ r, Course names s (l.map (·.1)) r → ∃ a', ToldAll cs names a l a' ∧ a'.map Agg.given = r.map (a.given ++ ·)
  | [], _, s, a, _, r, hr => by
    cases hr
    exact ⟨some a, .nil, by simp⟩
  | (m, ob) :: l, hl, s, a, ha, r, hr => by
    obtain ⟨hm, hob⟩ := hl (m, ob) List.mem_cons_self
    have hl' : ∀ x ∈ l, x.1.Ok ∧ IsOpts 0 x.1.opts x.2 := fun x hx => hl x (List.mem_cons_of_mem _ hx)
    simp only at hm hob
    have hn := optsOk_numbers m.opts 0 hm.2.2.2.2.2.1
    simp only [List.map_cons] at hr
    cases hr with
    | unserved hu hr =>
      obtain ⟨b, e⟩ := unserved_options cs names hp m.payload m.opts hu hn a ha
      obtain ⟨a', t, g⟩ := sequence_told cs names hp l hl' .nobody { a with interest := b } ha _ hr
      exact ⟨a', .cons (told_of cs names _ m hm ob hob _ e) t, g⟩
    | @served _ _ r0 i rest hs hr =>
      have e := served_options cs names hp m.payload i m.opts rest hs hn a ha
      obtain ⟨a', t, g⟩ := sequence_told cs names hp l hl' _
        ⟨.always, some (i, alive m.payload), a.given ++ (told rest m.payload).map fun c => (i, c)⟩ (atLeft_leaves i m.payload _ rfl) _ hr
      refine ⟨a', .cons (told_of cs names _ m hm ob hob _ e) t, ?_⟩
      rw [g]
      cases r0 <;> simp
    | @kept _ _ r0 i hr =>
      have e := hand_message cs names i a ha m.opts m.payload
      obtain ⟨a', t, g⟩ := sequence_told cs names hp l hl' _
        { a with handler := some (i, alive m.payload), given := a.given ++ (told m.opts m.payload).map fun c => (i, c) }
        (atLeft_leaves i m.payload _ rfl) _ hr
      refine ⟨a', .cons (told_of cs names _ m hm ob hob _ e) t, ?_⟩
      rw [g]
      cases r0 <;> simp
    | empty h0 hr =>
      obtain ⟨a', t, g⟩ := sequence_told cs names hp l hl' .gone a ha _ hr
      exact ⟨a', .cons (told_of cs names _ m hm ob hob _ (by rw [h0]; rfl)) t, g⟩
    | crash h0 =>
      obtain ⟨i, hi⟩ := ha
      exact ⟨none, .undef (told_of cs names _ m hm ob hob _ (gone_crash cs names a i hi m h0)), rfl⟩

/-- C55 for any sequence of messages, exactly what is told to whom: nobody is told anything of the messages up to the first one that names
a handler; of this one the handler is told the options from the segment on that names it, the payload and the end; of all that follow
the same handler is told everything, whatever their paths, until one with a payload has been told; the next message after that which
carries anything calls a destroyed handler. -/
theorem aggregate_sequence (cs : Bool) (names : List (List UInt8)) (hp : ∀ n ∈ names, Plain cs n) (l : List (Msg × List UInt8))
    (hl : ∀ x ∈ l, x.1.Ok ∧ IsOpts 0 x.1.opts x.2) (r : Option (List (Nat × Call))) (hr : Course names .nobody (l.map (·.1)) r) :
    ∃ a', ToldAll cs names Agg.init l a' ∧ a'.map Agg.given = r := by
  obtain ⟨a', t, g⟩ := sequence_told cs names hp l hl .nobody Agg.init rfl r hr
  refine ⟨a', t, ?_⟩
  rw [g]
  cases r <;> simp [Agg.init]

theorem course_gone {names : List (List UInt8)} : ∀ {ms : List Msg} {r}, Course names .gone ms r → (r = none ↔ ∃ m ∈ ms, Carries m)
  | [], _, h => by cases h; simp
  | m :: ms, _, h => by
    cases h with
    | empty h0 hr =>
      rw [course_gone hr]
      have := (told_nil_iff m).1 h0
      simp [this]
    | crash h0 =>
      have : Carries m := Classical.byContradiction fun hc => h0 ((told_nil_iff m).2 hc)
      simp [this]

/-- Some message has a payload and a later one carries something. -/
def PayloadThenMore (ms : List Msg) : Prop := ∃ pre m post, ms = pre ++ m :: post ∧ m.payload ≠ none ∧ ∃ m' ∈ post, Carries m'

theorem payloadThenMore_cons (m : Msg) (ms : List Msg) :
    PayloadThenMore (m :: ms) ↔ m.payload ≠ none ∧ (∃ m' ∈ ms, Carries m') ∨ PayloadThenMore ms := by
  constructor
  · rintro ⟨pre, x, post, e, h1, h2⟩
    cases pre with
    | nil => simp only [List.nil_append, List.cons.injEq] at e; obtain ⟨rfl, rfl⟩ := e; exact .inl ⟨h1, h2⟩
    | cons y pre => simp only [List.cons_append, List.cons.injEq] at e; exact .inr ⟨pre, x, post, e.2, h1, h2⟩
  · rintro (⟨h1, h2⟩ | ⟨pre, x, post, rfl, h1, h2⟩)
    · exact ⟨[], m, ms, rfl, h1, h2⟩
    · exact ⟨m :: pre, x, post, rfl, h1, h2⟩

theorem payloadThenMore_carries {ms : List Msg} (h : PayloadThenMore ms) : ∃ m ∈ ms, Carries m := by
  obtain ⟨pre, m, post, rfl, h1, -⟩ := h
  exact ⟨m, by simp, .inl h1⟩

theorem course_kept {names : List (List UInt8)} : ∀ {ms : List Msg} {i : Nat} {r}, Course names (.kept i) ms r → (r = none ↔ PayloadThenMore ms)
  | [], i, _, h => by cases h; simp [PayloadThenMore]
  | m :: ms, i, _, h => by
    cases h with
    | @kept _ _ r0 _ hr =>
      rw [payloadThenMore_cons, Option.map_eq_none_iff]
      cases hp : m.payload with
      | none => rw [hp] at hr; rw [course_kept hr]; simp
      | some p =>
        rw [hp] at hr
        rw [course_gone hr]
        simp only [ne_eq, reduceCtorEq, not_false_eq_true, true_and]
        exact ⟨.inl, fun h => h.elim id payloadThenMore_carries⟩

/-- C55, exactly when a sequence of messages ends in a call to a destroyed handler: when from the first message on that names a handler,
one has a payload and a later one has a payload or an option with a value. -/
theorem aggregate_sequence_undefined_iff (cs : Bool) (names : List (List UInt8)) (hp : ∀ n ∈ names, Plain cs n) (l : List (Msg × List UInt8))
    (hl : ∀ x ∈ l, x.1.Ok ∧ IsOpts 0 x.1.opts x.2) : ∃ a', ToldAll cs names Agg.init l a' ∧
      (a' = none ↔ ∃ pre m post, l.map (·.1) = pre ++ m :: post ∧ (∃ o ∈ m.opts, Named names o) ∧ PayloadThenMore (m :: post)) := by
  obtain ⟨r, hr⟩ := course_exists names (l.map (·.1)) .nobody
  obtain ⟨a', t, g⟩ := aggregate_sequence cs names hp l hl r hr
  refine ⟨a', t, ?_⟩
  have : a' = none ↔ r = none := by rw [← g, Option.map_eq_none_iff]
  rw [this]
  clear this g t hl
  generalize l.map (·.1) = ms at hr
  induction ms generalizing r with
  | nil => cases hr; simp
  | cons m ms ih =>
    cases hr with
    | unserved hu hr =>
      refine (ih r hr).trans ?_
      constructor
      · rintro ⟨pre, x, post, rfl, h1, h2⟩
        exact ⟨m :: pre, x, post, rfl, h1, h2⟩
      · rintro ⟨pre, x, post, e, ⟨o, ho, hn⟩, h2⟩
        cases pre with
        | nil => simp only [List.nil_append, List.cons.injEq] at e; obtain ⟨rfl, rfl⟩ := e; exact absurd hn (hu o ho)
        | cons y pre => simp only [List.cons_append, List.cons.injEq] at e; exact ⟨pre, x, post, e.2, ⟨o, ho, hn⟩, h2⟩
    | @served _ _ r0 i rest hs hr =>
      have key : Option.map (fun l => (told rest m.payload).map (fun c => (i, c)) ++ l) r0 = none ↔ PayloadThenMore (m :: ms) := by
        rw [payloadThenMore_cons, Option.map_eq_none_iff]
        cases hpay : m.payload with
        | none => rw [hpay] at hr; rw [course_kept hr]; simp
        | some p =>
          rw [hpay] at hr
          rw [course_gone hr]
          simp only [ne_eq, reduceCtorEq, not_false_eq_true, true_and]
          exact ⟨.inl, fun h => h.elim id payloadThenMore_carries⟩
      rw [key]
      constructor
      · exact fun h => ⟨[], m, ms, rfl, served_named hs, h⟩
      · rintro ⟨pre, x, post, e, -, pre', y, post', e', h1, h2⟩
        exact ⟨pre ++ pre', y, post', by rw [e, e', List.append_assoc], h1, h2⟩

-- three messages: the first names nobody, the second names the handler of `a`, the third is told to the same handler
example : Course [[0x61]] .nobody
    [⟨1, 0, 1, 7, [], [⟨11, [0x62]⟩], none⟩, ⟨1, 0, 1, 8, [], [⟨11, [0x61]⟩], none⟩, ⟨1, 0, 1, 9, [], [⟨11, [0x62]⟩], some [5]⟩]
    (some [(0, .option 11 [0x61] true), (0, .option 11 [0x62] true), (0, .payload [5] true), (0, .complete)]) := by
  have h1 : ∀ o ∈ [(⟨11, [0x62]⟩ : Opt)], ¬Named [[0x61]] o := by
    intro o ho
    simp only [List.mem_cons, List.not_mem_nil, or_false] at ho
    subst ho
    rintro ⟨-, -, n, hn, hpre⟩
    simp only [List.mem_cons, List.not_mem_nil, or_false] at hn
    subst hn
    exact absurd hpre (by decide)
  refine .unserved h1 ?_
  have h2 : Served [[0x61]] [(⟨11, [0x61]⟩ : Opt)] 0 [⟨11, [0x61]⟩] :=
    .here ⟨rfl, by decide, [0x61], by simp, List.prefix_refl _⟩ ⟨[0x61], rfl, List.prefix_refl _, fun j _ h => by omega⟩
  have h3 : Course [[0x61]] (.kept 0) [⟨1, 0, 1, 9, [], [⟨11, [0x62]⟩], some [5]⟩]
      (some [(0, .option 11 [0x62] true), (0, .payload [5] true), (0, .complete)]) := Course.kept (r := some []) .nil
  exact Course.served (m := ⟨1, 0, 1, 8, [], [⟨11, [0x61]⟩], none⟩) h2 h3

end Verif.Props
