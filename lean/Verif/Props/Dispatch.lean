import Verif.Model.Dispatch

/-! # C34, C35, C36: prefix matching, factories, message dispatch -/
namespace Verif.Props
open Verif.Model Verif.Model.Dispatch

/-! ## C34 -/

/-- A prefix that can be compared: all bytes below 0x80, or an unsigned `char`. -/
def Plain (cs : Bool) (ps : List UInt8) : Prop := cs = true → ∀ p ∈ ps, p < 128

theorem sameChar_iff {cs : Bool} {p b : UInt8} (h : cs = true → p < 128) : sameChar cs p b = true ↔ p = b := by
  simp only [sameChar, Bool.and_eq_true, beq_iff_eq, Bool.not_eq_true', Bool.and_eq_false_iff, decide_eq_false_iff_not,
    UInt8.not_le]
  constructor
  · exact fun h => h.1
  · intro hp
    refine ⟨hp, ?_⟩
    cases cs with
    | false => exact Or.inl rfl
    | true => exact Or.inr (h rfl)

/-- C34, C35: the comparison of the factories accepts exactly the segments that begin with the prefix. -/
theorem factory_prefix_iff (cs : Bool) : ∀ (s ps : List UInt8), Plain cs ps → (startsWith cs s ps = true ↔ ps <+: s)
  | s, [], _ => by cases s <;> simp [startsWith]
  | [], p :: ps, _ => by simp [startsWith]
  | b :: s, p :: ps, h => by
    have h1 : cs = true → p < 128 := fun hc => h hc p List.mem_cons_self
    have h2 : Plain cs ps := fun hc q hq => h hc q (List.mem_cons_of_mem _ hq)
    rw [startsWith, List.cons_prefix_cons, ← factory_prefix_iff cs s ps h2]
    by_cases hp : p = b
    · have hh := (sameChar_iff h1).mpr hp
      subst hp
      simp [hh]
    · have : sameChar cs p b = false := by
        rw [Bool.eq_false_iff]
        exact fun hc => hp ((sameChar_iff h1).mp hc)
      simp [this, hp]

/-- C34: what the comparison of the URI handlers accepts: the segment begins with the prefix, or the other way
round. -/
theorem uri_prefix_iff (cs : Bool) : ∀ (s ps : List UInt8), Plain cs ps →
    (startsWithUri cs s ps = true ↔ ps <+: s ∨ s <+: ps)
  | s, [], _ => by cases s <;> simp [startsWithUri]
  | [], p :: ps, _ => by simp [startsWithUri]
  | b :: s, p :: ps, h => by
    have h1 : cs = true → p < 128 := fun hc => h hc p List.mem_cons_self
    have h2 : Plain cs ps := fun hc q hq => h hc q (List.mem_cons_of_mem _ hq)
    rw [startsWithUri, List.cons_prefix_cons, List.cons_prefix_cons]
    have ih := uri_prefix_iff cs s ps h2
    by_cases hp : p = b
    · have hh := (sameChar_iff h1).mpr hp
      subst hp
      simp [hh, ih]
    · have : sameChar cs p b = false := by
        rw [Bool.eq_false_iff]
        exact fun hc => hp ((sameChar_iff h1).mp hc)
      have hb : ¬b = p := fun h => hp h.symm
      simp [this, hp, hb]

/-- C34 (partial: segments at least as long as the prefix): the URI handler accepts exactly the segments that begin with
the prefix. -/
theorem uri_prefix_partial (cs : Bool) (s ps : List UInt8) (h : Plain cs ps) (hl : ps.length ≤ s.length) :
    startsWithUri cs s ps = true ↔ ps <+: s := by
  rw [uri_prefix_iff cs s ps h]
  constructor
  · rintro (h1 | h1)
    · exact h1
    · rw [h1.eq_of_length (by have := h1.length_le; omega)]
      exact List.prefix_refl _
  · exact Or.inl

/-- C34 fails for shorter segments: every proper prefix of the prefix is accepted, the empty segment always. -/
theorem uri_short_segment_accepted (cs : Bool) (s ps : List UInt8) (h : Plain cs ps) (hs : s <+: ps) (hl : s.length < ps.length) :
    startsWithUri cs s ps = true ∧ ¬ps <+: s :=
  ⟨(uri_prefix_iff cs s ps h).mpr (Or.inr hs), fun hc => by have := hc.length_le; omega⟩

/-- C34: with a signed `char`, a prefix with a byte from 0x80 on, such as one in UTF-8, selects no segment. -/
theorem non_ascii_prefix_never (s ps : List UInt8) (h : ∃ p ∈ ps, 128 ≤ p) : startsWith true s ps = false := by
  induction ps generalizing s with
  | nil => simp at h
  | cons p ps ih =>
    cases s with
    | nil => rfl
    | cons b s =>
      rw [startsWith]
      by_cases hc : sameChar true p b = true
      · obtain ⟨q, hq, hq2⟩ := h
        rcases List.mem_cons.mp hq with rfl | hq
        · simp [sameChar, hq2] at hc
        · simp only [hc, Bool.not_true, Bool.false_eq_true, if_false]
          exact ih s ⟨q, hq, hq2⟩
      · simp [hc]

example : startsWithUri true [0x76, 0x31, 0x30] [0x76, 0x31] = true ∧ startsWithUri true [0x76, 0x32] [0x76, 0x31] = false ∧
    startsWithUri true [0x76] [0x76, 0x31] = true ∧ startsWith true [0x76] [0x76, 0x31] = false := by decide
example : Plain true [0x76, 0x31] := by intro _; decide
example : ∃ p ∈ [0xC3, 0xA4], (128 : UInt8) ≤ p := by decide

/-- Calls that a handler in pass-through mode hands on. -/
def handedOn : Call → Bool
  | .optionHead _ _ => true
  | .option _ _ _ => true
  | .payload _ _ => true
  | _ => false

/-- Not a header. -/
def notHeader : Call → Bool
  | .header _ => false
  | _ => true

theorem always_calls (cs : Bool) : ∀ (l : List Call) (u : UriHandler), u.interest = .always → (∀ c ∈ l, notHeader c = true) →
    (u.calls cs l).interest = .always ∧ (u.calls cs l).passed = u.passed ++ l.filter handedOn
  | [], u, hu, _ => ⟨hu, by simp [UriHandler.calls]⟩
  | c :: l, u, hu, h => by
    have h' : ∀ c ∈ l, notHeader c = true := fun x hx => h x (List.mem_cons_of_mem _ hx)
    have hc := h c List.mem_cons_self
    have key : (u.call cs c).interest = .always ∧ (u.call cs c).passed = u.passed ++ (if handedOn c then [c] else []) := by
      cases c <;> simp_all [UriHandler.call, handedOn, notHeader]
    obtain ⟨i1, i2⟩ := always_calls cs l (u.call cs c) key.1 h'
    refine ⟨i1, ?_⟩
    rw [UriHandler.calls, i2, key.2, List.filter_cons]
    cases handedOn c <;> simp

/-- Options other than Uri-Path, and option heads, before the first Uri-Path. -/
def otherOption : Call → Bool
  | .optionHead _ _ => true
  | .option n _ _ => n != 11
  | .token _ _ => true
  | _ => false

theorem undecided_calls (cs : Bool) : ∀ (l : List Call) (u : UriHandler), u.interest = .currently → (∀ c ∈ l, otherOption c = true) →
    u.calls cs l = u
  | [], u, _, _ => rfl
  | c :: l, u, hu, h => by
    have hc := h c List.mem_cons_self
    have : u.call cs c = u := by
      cases c <;> simp_all [UriHandler.call, otherOption]
    rw [UriHandler.calls, this]
    exact undecided_calls cs l u hu fun x hx => h x (List.mem_cons_of_mem _ hx)

theorem calls_append (cs : Bool) : ∀ (a b : List Call) (u : UriHandler), u.calls cs (a ++ b) = (u.calls cs a).calls cs b
  | [], _, _ => rfl
  | c :: a, b, u => calls_append cs a b (u.call cs c)

/-- C34: for a request, the first Uri-Path segment decides.  If it is accepted, the observer behind the handler gets all
later options and the payload, and nothing before. -/
theorem uri_handler_selected (cs : Bool) (pre : List UInt8) (h : Header) (hreq : h.isRequest = true) (before : List Call)
    (hb : ∀ c ∈ before, otherOption c = true) (seg : List UInt8) (last : Bool) (after : List Call)
    (ha : ∀ c ∈ after, notHeader c = true) (hm : startsWithUri cs seg pre = true) :
    ((UriHandler.init pre).calls cs (.header h :: before ++ .option 11 seg last :: after)).passed = after.filter handedOn := by
  have e1 : (UriHandler.init pre).call cs (.header h) = UriHandler.init pre := by simp [UriHandler.call, hreq]
  rw [List.cons_append, UriHandler.calls, e1, calls_append, undecided_calls cs before _ rfl hb, UriHandler.calls]
  have e2 : (UriHandler.init pre).call cs (.option 11 seg last) = ⟨pre, .always, []⟩ := by
    simp [UriHandler.call, UriHandler.init, hm]
  rw [e2, (always_calls cs after _ rfl ha).2]
  rfl

/-- C34 (partial: up to the payload, and with no further Uri-Path): if the first segment is not accepted, or the message
is a response, the observer gets none of the options. -/
theorem uri_handler_rejected_partial (cs : Bool) (pre : List UInt8) (before : List Call)
    (hb : ∀ c ∈ before, otherOption c = true) (seg : List UInt8) (last : Bool) (after : List Call)
    (ha : ∀ c ∈ after, otherOption c = true) (hm : startsWithUri cs seg pre = false) :
    ((UriHandler.init pre).calls cs (before ++ .option 11 seg last :: after)).passed = [] := by
  rw [calls_append, undecided_calls cs before _ rfl hb, UriHandler.calls]
  have e2 : (UriHandler.init pre).call cs (.option 11 seg last) = ⟨pre, .never, []⟩ := by
    simp [UriHandler.call, UriHandler.init, hm]
  rw [e2]
  have : ∀ (l : List Call), (∀ c ∈ l, otherOption c = true) → (⟨pre, .never, []⟩ : UriHandler).calls cs l = ⟨pre, .never, []⟩ := by
    intro l
    induction l with
    | nil => intro _; rfl
    | cons c l ih =>
      intro h
      have hc := h c List.mem_cons_self
      have : (⟨pre, .never, []⟩ : UriHandler).call cs c = ⟨pre, .never, []⟩ := by
        cases c <;> simp_all [UriHandler.call, otherOption]
      rw [UriHandler.calls, this]
      exact ih fun x hx => h x (List.mem_cons_of_mem _ hx)
  rw [this after ha]

/-- C34, what the dispatcher has to see to: a handler that rejected its segment still hands on the payload, and a later
segment that is accepted brings it back. -/
theorem uri_handler_rejected_payload (cs : Bool) (pre seg : List UInt8) (hm : startsWithUri cs seg pre = false)
    (p : List UInt8) (last : Bool) :
    ((UriHandler.init pre).calls cs [.option 11 seg true, .payload p last]).passed = [.payload p last] ∧
    ((UriHandler.init pre).calls cs [.option 11 seg true, .option 11 pre true]).interest =
      if startsWithUri cs pre pre then .always else .never := by
  constructor
  · simp [UriHandler.calls, UriHandler.call, UriHandler.init, hm]
  · simp [UriHandler.calls, UriHandler.call, UriHandler.init, hm]

example : ((UriHandler.init [0x76, 0x31]).calls true
    ([.header ⟨0x40, 1, 0, 0⟩, .option 3 [0x68] true] ++ [.option 11 [0x76, 0x31] true, .option 11 [0x61] true, .payload [1] true])).passed
    = [.option 11 [0x61] true, .payload [1] true] := by decide

/-! ## C35 -/

/-- The first item whose key matches. -/
def FirstMatch {K K' V : Type} (equals : K' → K → Bool) (key : K') (items : List (K × V)) (v : V) : Prop :=
  ∃ pre k post, items = pre ++ (k, v) :: post ∧ equals key k = true ∧ ∀ x ∈ pre, equals key x.1 = false

/-- C35: the lookup gives the value of the first item that matches. -/
theorem factory_find_first {K K' V : Type} (equals : K' → K → Bool) (nf : V) (key : K') (items : List (K × V)) (v : V)
    (h : FirstMatch equals key items v) : find equals nf key items = v := by
  obtain ⟨pre, k, post, rfl, hk, hpre⟩ := h
  induction pre with
  | nil => simp [find, hk]
  | cons x pre ih =>
    rw [List.cons_append, find, hpre x List.mem_cons_self]
    simp only [Bool.false_eq_true, if_false]
    exact ih fun y hy => hpre y (List.mem_cons_of_mem _ hy)

/-- C35: and the not-found value when none matches. -/
theorem factory_find_none {K K' V : Type} (equals : K' → K → Bool) (nf : V) (key : K') (items : List (K × V))
    (h : ∀ x ∈ items, equals key x.1 = false) : find equals nf key items = nf := by
  induction items with
  | nil => rfl
  | cons x items ih =>
    rw [find, h x List.mem_cons_self]
    simp only [Bool.false_eq_true, if_false]
    exact ih fun y hy => h y (List.mem_cons_of_mem _ hy)

/-- C35: a handler is created by the factory of the first item that matches. -/
theorem factory_create_first {K K' C V : Type} (equals : K' → K → Bool) (nf : V) (key : K') (items : List (K × Option (C → V)))
    (context : C) (f : C → V) (h : FirstMatch equals key items (some f)) : create equals nf items key context = f context := by
  rw [create, factory_find_first equals none key items (some f) h]

/-- C35: and the not-found handler is given when none matches. -/
theorem factory_create_none {K K' C V : Type} (equals : K' → K → Bool) (nf : V) (key : K') (items : List (K × Option (C → V)))
    (context : C) (h : ∀ x ∈ items, equals key x.1 = false) : create equals nf items key context = nf := by
  rw [create, factory_find_none equals none key items h]

/-- C35, C34: for Uri-Path segments the match is by prefix: an item is never reached behind one whose key is a prefix of
its own, not even for the very segment it is registered for. -/
theorem factory_shadowed {C V : Type} (cs : Bool) (nf : V) (p q : List UInt8) (hp : Plain cs p) (hpq : p <+: q)
    (f g : C → V) (context : C) (seg : List UInt8) (hseg : q <+: seg) :
    create (startsWith cs) nf [(p, some f), (q, some g)] seg context = f context := by
  apply factory_create_first
  exact ⟨[], p, [(q, some g)], rfl, (factory_prefix_iff cs seg p hp).mpr (hpq.trans hseg), by simp⟩

example : FirstMatch (startsWith true) [0x76, 0x32] [([0x76, 0x31], 10), ([0x76, 0x32], 20), ([0x76], 30)] 20 :=
  ⟨[([0x76, 0x31], 10)], [0x76, 0x32], [([0x76], 30)], rfl, by decide, by decide⟩
example : ∀ x ∈ [([0x76, 0x31], 10), ([0x76, 0x32], 20)], startsWith true [0x61] x.1 = false := by decide

/-! ## C36 -/

/-- Calls inside a message: neither its header nor its completion. -/
def inner : Call → Bool
  | .header _ => false
  | .complete => false
  | _ => true

/-- C36 (partial: not the completion): once a handler is chosen, it gets every further call inside the message, in
order and unchanged, and no other handler gets any, whatever the handlers answer. -/
theorem chosen_alone_partial (d : Disp) (f h : Nat) (hc : d.chosen = some (f, h)) (cs : List ((Nat → Interest) × Call))
    (hin : ∀ x ∈ cs, inner x.2 = true) : d.calls cs = (d, cs.map fun x => ⟨f, h, x.2⟩) := by
  induction cs with
  | nil => rfl
  | cons x cs ih =>
    obtain ⟨a, c⟩ := x
    have hx := hin (a, c) List.mem_cons_self
    have hcall : d.call a c = (d, [⟨f, h, c⟩]) := by
      cases c <;> simp_all [Disp.call, inner]
    rw [Disp.calls, hcall]
    simp only [ih fun y hy => hin y (List.mem_cons_of_mem _ hy), List.map_cons, List.singleton_append]

/-- What one pass delivers and how it leaves the states. -/
theorem pass_spec (answer : Nat → Interest) (c : Call) : ∀ (states : List (Option Interest)) (i made : Nat) (chosen : Option (Nat × Nat)),
    (pass answer c i states made chosen).1.length = states.length ∧
    (∀ k : Nat, states[k]? = some (some .never) → (pass answer c i states made chosen).1[k]? = some (some .never)) ∧
    (∀ k s, states[k]? = some s → s ≠ some .never → (pass answer c i states made chosen).1[k]? = some (some (answer (i + k)))) ∧
    (∀ x ∈ (pass answer c i states made chosen).2.2.2,
      ∃ k, x.factory = i + k ∧ k < states.length ∧ states[k]? ≠ some (some .never) ∧ x.call ∈ passCalls c ∧ made ≤ x.handler) ∧
    (∀ k s, states[k]? = some s → s ≠ some .never → ∀ c' ∈ passCalls c,
      ∃ h, (⟨i + k, h, c'⟩ : Delivered) ∈ (pass answer c i states made chosen).2.2.2) ∧
    (∀ f h, (pass answer c i states made chosen).2.2.1 = some (f, h) → chosen = some (f, h) ∨
      (answer f = .always ∧ made ≤ h ∧ ∃ k, f = i + k ∧ k < states.length ∧ states[k]? ≠ some (some .never))) ∧
    made ≤ (pass answer c i states made chosen).2.1
  | [], i, made, chosen => by
    refine ⟨rfl, ?_, ?_, ?_, ?_, ?_, Nat.le_refl _⟩
    · intro k h; simp at h
    · intro k s h; simp at h
    · intro x hx; simp [pass] at hx
    · intro k s h; simp at h
    · intro f h hc; exact Or.inl hc
  | s :: states, i, made, chosen => by
    by_cases hs : s = some .never
    · obtain ⟨h0, h1, h2, h3, h4, h5, h6⟩ := pass_spec answer c states (i + 1) made chosen
      simp only [pass, hs, beq_self_eq_true, if_true]
      refine ⟨by simp [h0], ?_, ?_, ?_, ?_, ?_, h6⟩
      · intro k hk
        cases k with
        | zero => rfl
        | succ k => simpa using h1 k (by simpa using hk)
      · intro k s' hk hn
        cases k with
        | zero => simp at hk; exact absurd hk.symm hn
        | succ k =>
          have := h2 k s' (by simpa using hk) hn
          rw [show i + (k + 1) = i + 1 + k by omega]
          simpa using this
      · intro x hx
        obtain ⟨k, e1, e2, e3, e4⟩ := h3 x hx
        exact ⟨k + 1, by omega, by simp; omega, by simpa using e3, e4⟩
      · intro k s' hk hn c' hc'
        cases k with
        | zero => simp at hk; exact absurd hk.symm hn
        | succ k =>
          rw [show i + (k + 1) = i + 1 + k by omega]
          exact h4 k s' (by simpa using hk) hn c' hc'
      · intro f h hc
        rcases h5 f h hc with h | ⟨a, b, k, e1, e2, e3⟩
        · exact Or.inl h
        · exact Or.inr ⟨a, b, k + 1, by omega, by simp; omega, by simpa using e3⟩
    · have hs' : (s == some .never) = false := by simpa using hs
      generalize hch : (if answer i == .always then some (i, made) else chosen) = chosen'
      obtain ⟨h0, h1, h2, h3, h4, h5, h6⟩ := pass_spec answer c states (i + 1) (made + 1) chosen'
      simp only [pass, hs', Bool.false_eq_true, if_false, hch]
      refine ⟨by simp [h0], ?_, ?_, ?_, ?_, ?_, by omega⟩
      · intro k hk
        cases k with
        | zero => simp at hk; exact absurd hk hs
        | succ k => simpa using h1 k (by simpa using hk)
      · intro k s' hk hn
        cases k with
        | zero => rfl
        | succ k =>
          have := h2 k s' (by simpa using hk) hn
          rw [show i + (k + 1) = i + 1 + k by omega]
          simpa using this
      · intro x hx
        rcases List.mem_append.mp hx with hx | hx
        · obtain ⟨c', hc', rfl⟩ := List.mem_map.mp hx
          exact ⟨0, rfl, by simp, by simpa using hs, hc', Nat.le_refl _⟩
        · obtain ⟨k, e1, e2, e3, e4, e5⟩ := h3 x hx
          exact ⟨k + 1, by omega, by simp; omega, by simpa using e3, e4, by omega⟩
      · intro k s' hk hn c' hc'
        cases k with
        | zero => exact ⟨made, List.mem_append_left _ (List.mem_map.mpr ⟨c', hc', rfl⟩)⟩
        | succ k =>
          rw [show i + (k + 1) = i + 1 + k by omega]
          obtain ⟨h, hh⟩ := h4 k s' (by simpa using hk) hn c' hc'
          exact ⟨h, List.mem_append_right _ hh⟩
      · intro f h hc
        rcases h5 f h hc with h' | ⟨a, b, k, e1, e2, e3⟩
        · by_cases ha : answer i = .always
          · rw [← hch] at h'
            simp only [ha, beq_self_eq_true, if_true, Option.some.injEq, Prod.mk.injEq] at h'
            obtain ⟨rfl, rfl⟩ := h'
            exact Or.inr ⟨ha, Nat.le_refl _, 0, rfl, by simp, by simpa using hs⟩
          · rw [← hch, if_neg (by simpa using ha)] at h'
            exact Or.inl h'
        · exact Or.inr ⟨a, by omega, k + 1, by omega, by simp; omega, by simpa using e3⟩

/-- Factory `i` has declared it is never interested and its handler is not the chosen one. -/
def Out (i : Nat) (d : Disp) : Prop := d.states[i]? = some (some .never) ∧ ∀ h, d.chosen ≠ some (i, h)

theorem out_passAll {i : Nat} {d : Disp} (ho : Out i d) (a : Nat → Interest) (c : Call) :
    Out i (d.passAll a c).1 ∧ ∀ x ∈ (d.passAll a c).2, x.factory ≠ i := by
  obtain ⟨h0, h1, h2, h3, h4, h5, h6⟩ := pass_spec a c d.states 0 d.made d.chosen
  refine ⟨⟨h1 i ho.1, ?_⟩, ?_⟩
  · intro h hc
    rcases h5 i h hc with h' | ⟨_, _, k, e1, e2, e3⟩
    · exact ho.2 h h'
    · rw [Nat.zero_add] at e1; subst e1; exact e3 ho.1
  · intro x hx he
    obtain ⟨k, e1, e2, e3, _⟩ := h3 x hx
    rw [Nat.zero_add] at e1
    rw [← e1, he] at e3
    exact e3 ho.1

theorem out_call {i : Nat} {d : Disp} (ho : Out i d) (a : Nat → Interest) (c : Call) :
    Out i (d.call a c).1 ∧ ∀ x ∈ (d.call a c).2, x.factory ≠ i := by
  have hp := out_passAll ho a c
  cases hc : d.chosen with
  | none => cases c <;> simp only [Disp.call, hc] <;> first | exact hp | exact ⟨ho, by simp⟩
  | some fh =>
    obtain ⟨f, h⟩ := fh
    have hf : f ≠ i := by rintro rfl; exact ho.2 h hc
    cases c <;> simp only [Disp.call, hc] <;> first | exact hp | exact ⟨ho, by simpa using hf⟩

theorem out_calls {i : Nat} : ∀ (cs : List ((Nat → Interest) × Call)) (d : Disp), Out i d → ∀ x ∈ (d.calls cs).2, x.factory ≠ i
  | [], _, _ => by simp [Disp.calls]
  | (a, c) :: cs, d, ho => by
    obtain ⟨h1, h2⟩ := out_call ho a c
    intro x hx
    rw [Disp.calls] at hx
    rcases List.mem_append.mp hx with hx | hx
    · exact h2 x hx
    · exact out_calls cs _ h1 x hx

/-- C36: a factory whose handler is given a call before any handler is chosen, and then declares that it is never
interested, gets no call ever after, whatever comes. -/
theorem never_interested_silent (d : Disp) (hc : d.chosen = none) (a : Nat → Interest) (c : Call) (i : Nat)
    (hdel : ∃ x ∈ (d.call a c).2, x.factory = i) (hnever : a i = .never) (cs : List ((Nat → Interest) × Call)) :
    ∀ x ∈ ((d.call a c).1.calls cs).2, x.factory ≠ i := by
  have hpass : d.call a c = d.passAll a c ∨ d.call a c = (d, []) := by
    cases c <;> simp [Disp.call, hc]
  rcases hpass with hp | hp
  · rw [hp] at hdel ⊢
    obtain ⟨h0, h1, h2, h3, h4, h5, h6⟩ := pass_spec a c d.states 0 d.made d.chosen
    obtain ⟨x, hx, hxi⟩ := hdel
    obtain ⟨k, e1, e2, e3, _⟩ := h3 x hx
    rw [Nat.zero_add, hxi] at e1
    subst e1
    refine out_calls cs _ ⟨?_, ?_⟩
    · have hk : d.states[i]? = some d.states[i] := List.getElem?_eq_getElem e2
      have := h2 i _ hk (by intro h; rw [hk, h] at e3; exact e3 rfl)
      rw [Nat.zero_add, hnever] at this
      exact this
    · intro h hch
      rcases h5 i h hch with h' | ⟨h', _⟩
      · rw [hc] at h'; simp at h'
      · rw [hnever] at h'; simp at h'
  · rw [hp] at hdel
    simp at hdel

/-- What an interested handler gets to see of a call while none is chosen: an option value is announced by its number
and length, and is always said to be complete. -/
def shown : Call → List Call
  | .header h => [.header h]
  | .token part last => [.token part last]
  | .optionHead _ _ => []
  | .option n part _ => [.optionHead n (UInt16.ofNat part.length), .option n part true]
  | .payload part last => [.payload part last]
  | .complete => [.complete]

theorem pass_filter (answer : Nat → Interest) (c : Call) : ∀ (states : List (Option Interest)) (i made : Nat) (chosen : Option (Nat × Nat)) (j : Nat),
    (j < i → (pass answer c i states made chosen).2.2.2.filter (fun x => x.factory == j) = []) ∧
    (∀ s, states[j]? = some s → s ≠ some .never → ∃ h,
      (pass answer c i states made chosen).2.2.2.filter (fun x => x.factory == i + j) = (passCalls c).map fun c' => ⟨i + j, h, c'⟩)
  | [], i, made, chosen, j => ⟨fun _ => rfl, fun s h => by simp at h⟩
  | s :: states, i, made, chosen, j => by
    by_cases hs : s = some .never
    · simp only [pass, hs, beq_self_eq_true, if_true]
      refine ⟨fun h => (pass_filter answer c states (i + 1) made chosen j).1 (by omega), fun s' h1 h2 => ?_⟩
      cases j with
      | zero => simp at h1; exact absurd h1.symm h2
      | succ j =>
        rw [show i + (j + 1) = i + 1 + j by omega]
        exact (pass_filter answer c states (i + 1) made chosen j).2 s' (by simpa using h1) h2
    · have hs' : (s == some .never) = false := by simpa using hs
      simp only [pass, hs', Bool.false_eq_true, if_false]
      generalize (if answer i == .always then some (i, made) else chosen) = chosen'
      have hmap : ∀ k, ((passCalls c).map fun c' => (⟨i, made, c'⟩ : Delivered)).filter (fun x => x.factory == k) =
          if i = k then (passCalls c).map fun c' => (⟨i, made, c'⟩ : Delivered) else [] := by
        intro k
        by_cases hk : i = k
        · simp [hk]
        · simp [hk]
      refine ⟨fun h => ?_, fun s' h1 h2 => ?_⟩
      · rw [List.filter_append, hmap, if_neg (by omega), (pass_filter answer c states (i + 1) (made + 1) chosen' j).1 (by omega)]
        rfl
      · cases j with
        | zero =>
          refine ⟨made, ?_⟩
          rw [Nat.add_zero, List.filter_append, hmap, if_pos rfl, (pass_filter answer c states (i + 1) (made + 1) chosen' i).1 (by omega)]
          simp
        | succ j =>
          obtain ⟨h, hh⟩ := (pass_filter answer c states (i + 1) (made + 1) chosen' j).2 s' (by simpa using h1) h2
          refine ⟨h, ?_⟩
          rw [List.filter_append, hmap, if_neg (by omega), show i + (j + 1) = i + 1 + j by omega, hh]
          rfl

/-- C36: until a handler is chosen, every factory not yet declared uninterested gets header, tokens, option values,
payload and completion, each once, on one handler made for the call. -/
theorem undecided_all_called (d : Disp) (hc : d.chosen = none) (a : Nat → Interest) (c : Call) (i : Nat) (s : Option Interest)
    (hi : d.states[i]? = some s) (hs : s ≠ some .never) :
    ∃ h, (d.call a c).2.filter (fun x => x.factory == i) = (shown c).map fun c' => ⟨i, h, c'⟩ := by
  have hp := (pass_filter a c d.states 0 d.made d.chosen i).2 s hi hs
  rw [Nat.zero_add] at hp
  cases c <;> first
    | (simp only [Disp.call, hc]; exact hp)
    | (simp only [Disp.call, hc]; exact ⟨0, rfl⟩)

/-- C36: a handler is chosen only by answering that it is always interested. -/
theorem chosen_asked (d : Disp) (hc : d.chosen = none) (a : Nat → Interest) (c : Call) (f h : Nat)
    (h1 : (d.call a c).1.chosen = some (f, h)) : a f = .always ∧ ∃ x ∈ (d.call a c).2, x.factory = f := by
  have hpass : d.call a c = d.passAll a c ∨ d.call a c = (d, []) := by
    cases c <;> simp [Disp.call, hc]
  rcases hpass with hp | hp
  · rw [hp] at h1 ⊢
    obtain ⟨_, _, _, _, h4, h5, _⟩ := pass_spec a c d.states 0 d.made d.chosen
    rcases h5 f h h1 with h' | ⟨h', _, k, e1, e2, e3⟩
    · rw [hc] at h'; simp at h'
    · rw [Nat.zero_add] at e1
      subst e1
      have hk : d.states[f]? = some d.states[f] := List.getElem?_eq_getElem e2
      have hne : passCalls c ≠ [] := by cases c <;> simp [passCalls]
      obtain ⟨c', hc'⟩ := List.exists_mem_of_ne_nil _ hne
      obtain ⟨hh, hd⟩ := h4 f _ hk (by intro hn; rw [hk, hn] at e3; exact e3 rfl) c' hc'
      rw [Nat.zero_add] at hd
      exact ⟨h', _, hd, rfl⟩
  · rw [hp, hc] at h1
    simp at h1

/-- C36 fails for the completion: it reaches every factory not declared uninterested, and never the chosen handler
itself (a handler newly made by its factory gets it instead). -/
theorem completion_misses_chosen (d : Disp) (f h : Nat) (_hc : d.chosen = some (f, h)) (hmade : h < d.made)
    (a : Nat → Interest) :
    (∀ x ∈ (d.call a .complete).2, x.handler ≠ h) ∧
    (∀ i s, d.states[i]? = some s → s ≠ some .never → ∃ n, (⟨i, n, .complete⟩ : Delivered) ∈ (d.call a .complete).2) := by
  obtain ⟨_, _, _, h3, h4, _, _⟩ := pass_spec a .complete d.states 0 d.made d.chosen
  refine ⟨?_, ?_⟩
  · intro x hx he
    obtain ⟨_, _, _, _, _, e5⟩ := h3 x hx
    omega
  · intro i s hi hs
    have := h4 i s hi hs .complete (by simp [passCalls])
    rwa [Nat.zero_add] at this

/-- C36: when several handlers of one pass want the message, the last of them is chosen, not the first as the comment
of the class says; and the first keeps getting nothing. -/
theorem last_asker_chosen : ∃ (d d' : Disp) (a : Nat → Interest) (c : Call), Disp.init 3 = some d ∧
    (d.call a c).1 = d' ∧ a 0 = .always ∧ a 1 = .always ∧ d'.chosen = some (1, 1) ∧
    ∀ (b : Nat → Interest) (p : List UInt8), (d'.call b (.payload p true)).2 = [⟨1, 1, .payload p true⟩] := by
  refine ⟨⟨[none, none, none], 0, none⟩, _, fun i => if i < 2 then .always else .currently, .token [1] true, rfl, rfl, rfl, rfl,
    rfl, fun b p => rfl⟩

theorem pass_chosen (answer : Nat → Interest) (c : Call) : ∀ (states : List (Option Interest)) (i made : Nat) (chosen : Option (Nat × Nat)),
    ((∀ k s, states[k]? = some s → s ≠ some .never → answer (i + k) ≠ .always) → (pass answer c i states made chosen).2.2.1 = chosen) ∧
    (∀ k s, states[k]? = some s → s ≠ some .never → answer (i + k) = .always →
      (∀ k' s', k < k' → states[k']? = some s' → s' ≠ some .never → answer (i + k') ≠ .always) →
      ∃ h, (pass answer c i states made chosen).2.2.1 = some (i + k, h))
  | [], i, made, chosen => ⟨fun _ => rfl, fun k s h => by simp at h⟩
  | s :: states, i, made, chosen => by
    by_cases hs : s = some .never
    · obtain ⟨h1, h2⟩ := pass_chosen answer c states (i + 1) made chosen
      simp only [pass, hs, beq_self_eq_true, if_true]
      refine ⟨fun h => h1 fun k s' hk hn => ?_, fun k s' hk hn ha hl => ?_⟩
      · rw [show i + 1 + k = i + (k + 1) by omega]; exact h (k + 1) s' (by simpa using hk) hn
      · cases k with
        | zero => simp at hk; exact absurd hk.symm hn
        | succ k =>
          rw [show i + (k + 1) = i + 1 + k by omega] at ha ⊢
          refine h2 k s' (by simpa using hk) hn ha fun k' s'' hlt hk' hn' => ?_
          rw [show i + 1 + k' = i + (k' + 1) by omega]
          exact hl (k' + 1) s'' (by omega) (by simpa using hk') hn'
    · have hs' : (s == some .never) = false := by simpa using hs
      generalize hch : (if answer i == .always then some (i, made) else chosen) = chosen'
      obtain ⟨h1, h2⟩ := pass_chosen answer c states (i + 1) (made + 1) chosen'
      simp only [pass, hs', Bool.false_eq_true, if_false, hch]
      refine ⟨fun h => ?_, fun k s' hk hn ha hl => ?_⟩
      · rw [h1 fun k s' hk hn => ?_, ← hch, if_neg (by simpa using h 0 s rfl hs)]
        rw [show i + 1 + k = i + (k + 1) by omega]; exact h (k + 1) s' (by simpa using hk) hn
      · cases k with
        | zero =>
          refine ⟨made, ?_⟩
          rw [h1 fun k' s'' hk' hn' => ?_, ← hch, if_pos (by simpa using ha)]
          · rfl
          · rw [show i + 1 + k' = i + (k' + 1) by omega]
            exact hl (k' + 1) s'' (by omega) (by simpa using hk') hn'
        | succ k =>
          rw [show i + (k + 1) = i + 1 + k by omega] at ha ⊢
          refine h2 k s' (by simpa using hk) hn ha fun k' s'' hlt hk' hn' => ?_
          rw [show i + 1 + k' = i + (k' + 1) by omega]
          exact hl (k' + 1) s'' (by omega) (by simpa using hk') hn'

/-- Factory `f` is in play and its handler asks for the message. -/
def Asks (d : Disp) (a : Nat → Interest) (f : Nat) : Prop := ∃ s, d.states[f]? = some s ∧ s ≠ some .never ∧ a f = .always

/-- C36, exactly who is chosen: as long as none is, every call but an option head chooses the handler of the last of the factories in
play that ask for the message, and none if nobody asks. -/
theorem last_asker_chosen_iff (d : Disp) (hc : d.chosen = none) (a : Nat → Interest) (c : Call) (hn : ∀ n l, c ≠ .optionHead n l) (f : Nat) :
    (∃ h, (d.call a c).1.chosen = some (f, h)) ↔ Asks d a f ∧ ∀ g, f < g → ¬Asks d a g := by
  have hp : d.call a c = d.passAll a c := by
    cases c with
    | optionHead n l => exact absurd rfl (hn n l)
    | _ => simp [Disp.call, hc]
  rw [hp]
  obtain ⟨h1, h2⟩ := pass_chosen a c d.states 0 d.made d.chosen
  have last : ∀ g, Asks d a g → (∀ g', g < g' → ¬Asks d a g') → ∃ h, (d.passAll a c).1.chosen = some (g, h) := by
    rintro g ⟨s, e1, e2, e3⟩ hl
    obtain ⟨h, hh⟩ := h2 g s e1 e2 (by simpa using e3) (fun k' s' hlt hk hne hal => hl k' hlt ⟨s', hk, hne, by simpa using hal⟩)
    refine ⟨h, ?_⟩
    have e : (d.passAll a c).1.chosen = (pass a c 0 d.states d.made d.chosen).2.2.1 := rfl
    rw [e, hh, Nat.zero_add]
  constructor
  · rintro ⟨h, hh⟩
    -- the last one asking
    have ex : ∀ n, (∃ g, Asks d a g ∧ g < n) → ∃ g, Asks d a g ∧ ∀ g', g < g' → g' < n → ¬Asks d a g' := by
      intro n
      induction n with
      | zero => rintro ⟨g, -, hg⟩; omega
      | succ n ih =>
        rintro ⟨g, hg, hlt⟩
        by_cases hn : Asks d a n
        · exact ⟨n, hn, fun g' _ _ => by omega⟩
        · have hgn : g ≠ n := by rintro rfl; exact hn hg
          obtain ⟨g0, a0, l0⟩ := ih ⟨g, hg, by omega⟩
          refine ⟨g0, a0, fun g' x y => ?_⟩
          by_cases he : g' = n
          · rw [he]; exact hn
          · exact l0 g' x (by omega)
    have bound : ∀ g, Asks d a g → g < d.states.length := by
      rintro g ⟨s, e, -⟩
      exact (List.getElem?_eq_some_iff.1 e).1
    by_cases hany : ∃ g, Asks d a g
    · obtain ⟨g, hg⟩ := hany
      obtain ⟨g0, a0, l0⟩ := ex d.states.length ⟨g, hg, bound g hg⟩
      have l1 : ∀ g', g0 < g' → ¬Asks d a g' := fun g' x y => l0 g' x (bound g' y) y
      obtain ⟨h', hh'⟩ := last g0 a0 l1
      rw [hh] at hh'
      simp only [Option.some.injEq, Prod.mk.injEq] at hh'
      rw [hh'.1]
      exact ⟨a0, l1⟩
    · have := h1 fun k s hk hne hal => hany ⟨k, s, hk, hne, by simpa using hal⟩
      have e : (d.passAll a c).1.chosen = d.chosen := this
      rw [e, hc] at hh; cases hh
  · rintro ⟨hf, hl⟩
    exact last f hf hl

example : Asks ⟨[none, some .never, some .currently], 0, none⟩ (fun _ => .always) 2 ∧
    ¬Asks ⟨[none, some .never, some .currently], 0, none⟩ (fun _ => .always) 1 := by
  simp [Asks]

/-- C36: constructing the dispatcher writes past its states with more than ten factories, and only then. -/
theorem too_many_factories (n : Nat) : Disp.init n = none ↔ 10 < n := by
  rw [Disp.init]
  split <;> simp <;> omega

-- three factories; the second is chosen by its answer to the first Uri-Path segment, the third drops out at the header
example : ((Disp.mk [none, none, none] 0 none).calls
    [(fun i => if i = 2 then .never else .currently, .header ⟨0x40, 1, 0, 0⟩),
     (fun i => if i = 1 then .always else .currently, .option 11 [0x61] true),
     (fun _ => .currently, .payload [7] true)]).2 =
    [⟨0, 0, .header ⟨0x40, 1, 0, 0⟩⟩, ⟨1, 1, .header ⟨0x40, 1, 0, 0⟩⟩, ⟨2, 2, .header ⟨0x40, 1, 0, 0⟩⟩,
     ⟨0, 3, .optionHead 11 1⟩, ⟨0, 3, .option 11 [0x61] true⟩, ⟨1, 4, .optionHead 11 1⟩, ⟨1, 4, .option 11 [0x61] true⟩,
     ⟨1, 4, .payload [7] true⟩] := by decide

end Verif.Props
