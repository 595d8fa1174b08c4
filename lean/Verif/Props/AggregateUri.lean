import Verif.Model.AggregateUri
import Verif.Spec.Aggregate
import Verif.Props.Route

/-! # Aggregates of handlers chosen by a path segment (C55) -/
namespace Verif.Props
open Verif.Model Verif.Model.Dispatch Verif.Proofs Verif.Proofs.Route Verif.Spec Dec

/-- Calls an aggregate does anything about. -/
def acted : Call → Bool
  | .option .. | .payload .. | .complete => true
  | _ => false

theorem aggCalls_acted (cs : Bool) (names : List (List UInt8)) : ∀ (l : List Call) (a : Agg),
    a.calls cs names l = a.calls cs names (l.filter acted)
  | [], a => rfl
  | c :: l, a => by
    cases c with
    | header | token | optionHead =>
      simp only [Agg.calls, Agg.call, Option.bind_some, List.filter_cons, acted, Bool.false_eq_true, if_false]
      exact aggCalls_acted cs names l a
    | option | payload | complete =>
      simp only [List.filter_cons, acted, if_true, Agg.calls]
      exact congrArg _ (funext fun a => aggCalls_acted cs names l a)

theorem aggCalls_append (cs : Bool) (names : List (List UInt8)) : ∀ (l k : List Call) (a : Agg),
    a.calls cs names (l ++ k) = (a.calls cs names l).bind fun a => a.calls cs names k
  | [], k, a => rfl
  | c :: l, k, a => by
    simp only [List.cons_append, Agg.calls]
    cases a.call cs names c with
    | none => rfl
    | some a => simp [aggCalls_append cs names l k a]

theorem optCalls_acted : ∀ (os : List Opt), (optCalls os).filter acted = told os none
  | [] => rfl
  | o :: os => by
    rw [optCalls_cons, List.filter_cons_of_neg (by simp [acted]), List.filter_append, optCalls_acted os]
    by_cases h : o.value = [] <;> simp [h, told, acted, List.filter_cons]

/-- What an aggregate sees of a message dispatched from one buffer. -/
theorem message_acted (m : Msg) :
    ((if m.payload = none then butTrailing (owedHead m) else owed m).map toCall).filter acted = told m.opts m.payload := by
  have hh : ((owedHead m).map toCall).filter acted = told m.opts none := by
    rw [← optCalls_acted]
    by_cases ht : m.token = [] <;> simp [owedHead, toCall, acted, ht, optCalls]
  cases hp : m.payload with
  | none =>
    rw [if_pos rfl, ← hh, butTrailing]
    have hdrop : ∀ l : List LEvent, (∀ n p b, l.getLast? ≠ some (.value n p b)) → (∀ x ∈ l, (acted (toCall x) = true → ∃ n p b, x = .value n p b)) →
        ((l.dropLast).map toCall).filter acted = (l.map toCall).filter acted := by
      intro l h1 h2
      rcases List.eq_nil_or_concat l with rfl | ⟨l', x, rfl⟩
      · rfl
      · rw [List.concat_eq_append] at h1 h2 ⊢
        rw [List.dropLast_concat, List.map_append, List.filter_append]
        have : acted (toCall x) = false := by
          cases hx : acted (toCall x) with
          | false => rfl
          | true =>
            obtain ⟨n, p, b, rfl⟩ := h2 x (by simp) hx
            exact absurd (by simp) (h1 n p b)
        simp [this]
    split
    · rfl
    · rename_i hne
      refine hdrop _ (fun n p b h => hne n p b h) ?_
      intro x hx hax
      simp only [owedHead, List.mem_cons, List.mem_append, List.mem_flatMap, owedOption] at hx
      rcases hx with rfl | hx | ⟨o, -, hx | hx⟩
      · simp [toCall, acted] at hax
      · split at hx
        · simp at hx
        · simp only [List.mem_cons, List.not_mem_nil, or_false] at hx; subst hx; simp [toCall, acted] at hax
      · subst hx; simp [toCall, acted] at hax
      · split at hx
        · simp at hx
        · simp only [List.mem_cons, List.not_mem_nil, or_false] at hx; subst hx; exact ⟨_, _, _, rfl⟩
  | some p =>
    rw [if_neg (by simp), owed, hp]
    simp only [List.map_append, List.filter_append, hh]
    simp [told, toCall, acted, List.filter_cons]

theorem find_zip (cs : Bool) (seg : List UInt8) : ∀ (names : List (List UInt8)) (k : Nat), (∀ n ∈ names, Plain cs n) →
    (∀ i, FirstPrefix names seg i →
      create (startsWith cs) none ((names.zipIdx k).map fun x => (x.1, some fun (_ : Unit) => some x.2)) seg () = some (k + i)) ∧
    ((∀ n ∈ names, ¬n <+: seg) →
      create (startsWith cs) none ((names.zipIdx k).map fun x => (x.1, some fun (_ : Unit) => some x.2)) seg () = none)
  | [], k, _ => ⟨fun i ⟨n, h, _⟩ => by simp at h, fun _ => rfl⟩
  | n :: names, k, hp => by
    have hn := factory_prefix_iff cs seg n (hp n List.mem_cons_self)
    obtain ⟨ih1, ih2⟩ := find_zip cs seg names (k + 1) fun x hx => hp x (List.mem_cons_of_mem _ hx)
    constructor
    · rintro i ⟨n', h1, h2, h3⟩
      cases i with
      | zero =>
        simp only [List.getElem?_cons_zero, Option.some.injEq] at h1
        subst h1
        simp [create, find, hn.2 h2]
      | succ i =>
        have hno : startsWith cs seg n = false := Bool.eq_false_iff.2 fun h => h3 0 n (by omega) rfl (hn.1 h)
        have := ih1 i ⟨n', by simpa using h1, h2, fun j x hj hx => h3 (j + 1) x (by omega) (by simpa using hx)⟩
        simp only [create, List.zipIdx_cons, List.map_cons, find, hno, Bool.false_eq_true, if_false] at this ⊢
        rw [this]; congr 1; omega
    · intro h
      have hno : startsWith cs seg n = false := Bool.eq_false_iff.2 fun h' => h n List.mem_cons_self (hn.1 h')
      have := ih2 fun x hx => h x (List.mem_cons_of_mem _ hx)
      simpa only [create, List.zipIdx_cons, List.map_cons, find, hno, Bool.false_eq_true, if_false] using this

theorem aggFind_first (cs : Bool) (names : List (List UInt8)) (hp : ∀ n ∈ names, Plain cs n) (seg : List UInt8) (i : Nat)
    (h : FirstPrefix names seg i) : aggFind cs names seg = some i := by
  have := (find_zip cs seg names 0 hp).1 i h
  rwa [Nat.zero_add] at this

theorem aggFind_none (cs : Bool) (names : List (List UInt8)) (hp : ∀ n ∈ names, Plain cs n) (seg : List UInt8)
    (h : ∀ n ∈ names, ¬n <+: seg) : aggFind cs names seg = none := (find_zip cs seg names 0 hp).2 h

/-- A handler that exists gets everything up to the end. -/
theorem hand_on (cs : Bool) (names : List (List UInt8)) (i : Nat) : ∀ (l : List Call) (a : Agg), a.handler = some (i, true) →
    (∀ c ∈ l, acted c = true ∧ c ≠ .complete) →
    a.calls cs names l = some { a with given := a.given ++ l.map fun c => (i, c) }
  | [], a, h, _ => by simp [Agg.calls]
  | c :: l, a, h, hl => by
    obtain ⟨h1, h2⟩ := hl c List.mem_cons_self
    have e : a.call cs names c = some { a with given := a.given ++ [(i, c)] } := by
      cases c with
      | option n p b =>
        have : (if (n == 11) = true then a.look cs names p else a) = a := by simp [Agg.look, h]
        rw [Agg.call, this, Agg.hand, h]
      | payload p b => simp [Agg.call, Agg.hand, h]
      | complete => exact absurd rfl h2
      | header | token | optionHead => simp [acted] at h1
    rw [Agg.calls, e]
    simp only [Option.bind_some]
    rw [hand_on cs names i l { a with given := a.given ++ [(i, c)] } h fun c hc => hl c (List.mem_cons_of_mem _ hc)]
    simp

theorem told_kind (os : List Opt) : ∀ c ∈ told os none, ∃ n v, c = .option n v true := by
  intro c hc
  simp only [told, List.append_nil, List.mem_map] at hc
  obtain ⟨o, -, rfl⟩ := hc
  exact ⟨_, _, rfl⟩

theorem told_split (os : List Opt) (payload : Option (List UInt8)) :
    told os payload = told os none ++ (match payload with | none => [] | some p => [.payload p true, .complete]) := by
  cases payload <;> simp [told]

/-- What is left of a handler after a message. -/
def alive (payload : Option (List UInt8)) : Bool := payload.isNone

/-- A handler that exists is told the whole message. -/
theorem hand_message (cs : Bool) (names : List (List UInt8)) (i : Nat) (a : Agg) (h : a.handler = some (i, true)) (os : List Opt)
    (payload : Option (List UInt8)) :
    a.calls cs names (told os payload) =
      some { a with handler := some (i, alive payload), given := a.given ++ (told os payload).map fun c => (i, c) } := by
  have hk : ∀ c ∈ told os none, acted c = true ∧ c ≠ .complete := by
    intro c hc
    obtain ⟨n, v, rfl⟩ := told_kind os c hc
    simp [acted]
  rw [told_split, aggCalls_append, hand_on cs names i _ a h hk]
  cases payload with
  | none => simp [Agg.calls, alive, ← h]
  | some p => simp [Agg.calls, Agg.call, Agg.hand, h, alive]

theorem told_cons (o : Opt) (os : List Opt) (payload : Option (List UInt8)) : told (o :: os) payload =
    (if o.value = [] then [] else [.option (UInt16.ofNat o.number) o.value true]) ++ told os payload := by
  by_cases h : o.value = [] <;> simp [told, h]

/-- An option that is no named path segment changes at most the interest. -/
theorem unnamed_option (cs : Bool) (names : List (List UInt8)) (hp : ∀ n ∈ names, Plain cs n) (a : Agg) (ha : a.handler = none)
    (o : Opt) (hn : o.number < 65536) (h : ¬Named names o) :
    ∃ b, a.calls cs names (if o.value = [] then [] else [.option (UInt16.ofNat o.number) o.value true]) =
      some { a with interest := b } := by
  by_cases hv : o.value = []
  · exact ⟨a.interest, by rw [if_pos hv]; rfl⟩
  · rw [if_neg hv]
    by_cases h11 : o.number = 11
    · have hno : ∀ n ∈ names, ¬n <+: o.value := fun n hn' hpre => h ⟨h11, hv, n, hn', hpre⟩
      refine ⟨.never, ?_⟩
      simp [Agg.calls, Agg.call, Agg.look, Agg.hand, ha, h11, aggFind_none cs names hp _ hno]
    · have : ¬UInt16.ofNat o.number = 11 := fun h' => h11 (uri_number hn |>.1 h')
      exact ⟨a.interest, by obtain ⟨x, y, z⟩ := a; subst ha; simp [Agg.calls, Agg.call, Agg.hand, this]⟩

theorem served_options (cs : Bool) (names : List (List UInt8)) (hp : ∀ n ∈ names, Plain cs n) (payload : Option (List UInt8)) (i : Nat)
    (os rest : List Opt) (h : Served names os i rest) : (∀ o ∈ os, o.number < 65536) → ∀ a : Agg, a.handler = none →
    a.calls cs names (told os payload) =
      some ⟨.always, some (i, alive payload), a.given ++ (told rest payload).map fun c => (i, c)⟩ := by
  induction h with
  | @here o os i h1 h2 =>
    intro hn a ha
    obtain ⟨h11, hv, -⟩ := h1
    have e := hand_message cs names i ⟨.always, some (i, true), a.given ++ [(i, .option 11 o.value true)]⟩ rfl os payload
    rw [told_cons, if_neg hv, h11]
    simp only [List.cons_append, List.nil_append, Agg.calls, show UInt16.ofNat 11 = 11 from rfl]
    have e1 : a.call cs names (.option 11 o.value true) = some ⟨.always, some (i, true), a.given ++ [(i, .option 11 o.value true)]⟩ := by
      simp [Agg.call, Agg.look, Agg.hand, ha, aggFind_first cs names hp _ _ h2]
    rw [e1, Option.bind_some, e]
    simp
  | @later o os i rest h1 h2 ih =>
    intro hn a ha
    obtain ⟨b, e⟩ := unnamed_option cs names hp a ha o (hn o List.mem_cons_self) h1
    rw [told_cons, aggCalls_append, e, Option.bind_some, ih (fun o ho => hn o (List.mem_cons_of_mem _ ho)) { a with interest := b } ha]

theorem unserved_options (cs : Bool) (names : List (List UInt8)) (hp : ∀ n ∈ names, Plain cs n) (payload : Option (List UInt8)) :
    ∀ (os : List Opt), (∀ o ∈ os, ¬Named names o) → (∀ o ∈ os, o.number < 65536) → ∀ a : Agg, a.handler = none →
    ∃ b, a.calls cs names (told os payload) = some { a with interest := b }
  | [], _, _, a, ha => by
    refine ⟨a.interest, ?_⟩
    obtain ⟨x, y, z⟩ := a
    subst ha
    cases payload <;> simp [told, Agg.calls, Agg.call, Agg.hand]
  | o :: os, h, hn, a, ha => by
    obtain ⟨b, e⟩ := unnamed_option cs names hp a ha o (hn o List.mem_cons_self) (h o List.mem_cons_self)
    obtain ⟨b', e'⟩ := unserved_options cs names hp payload os (fun o ho => h o (List.mem_cons_of_mem _ ho))
      (fun o ho => hn o (List.mem_cons_of_mem _ ho)) { a with interest := b } ha
    exact ⟨b', by rw [told_cons, aggCalls_append, e, Option.bind_some, e']⟩

/-- `Told a m ob a'`: dispatching `m`, encoded with the options `ob` and in one buffer, takes the aggregate from `a` to
`a'` (`none`: undefined). -/
def Told (cs : Bool) (names : List (List UInt8)) (a : Agg) (m : Msg) (ob : List UInt8) (a' : Option Agg) : Prop :=
  ∀ junk : Dec, junk.tbuf.length = 8 → ∃ N d' evs, (∀ fuel, N ≤ fuel → legacyChunks fuel (fresh junk) [] (wire m ob) = .ok (d', evs)) ∧
    a.calls cs names (evs.map toCall) = a'

theorem told_of (cs : Bool) (names : List (List UInt8)) (a : Agg) (m : Msg) (hm : m.Ok) (ob : List UInt8) (hob : IsOpts 0 m.opts ob)
    (a' : Option Agg) (h : a.calls cs names (told m.opts m.payload) = a') : Told cs names a m ob a' := by
  intro junk hj
  obtain ⟨N, d', h'⟩ := legacy_one_buffer m hm ob hob junk hj
  refine ⟨N, d', _, h', ?_⟩
  rw [aggCalls_acted, message_acted, h]

/-- C55 (partial: the first message that is served, and neither its header nor its token): the handler whose name comes first among
those the segment begins with is told the options from that segment on, the payload and the end, in order and once;
nobody else is told anything. -/
theorem aggregate_serves_partial (cs : Bool) (names : List (List UInt8)) (hp : ∀ n ∈ names, Plain cs n) (m : Msg) (hm : m.Ok) (ob : List UInt8)
    (hob : IsOpts 0 m.opts ob) (i : Nat) (rest : List Opt) (hs : Served names m.opts i rest) :
    ∀ a : Agg, a.handler = none → ∃ a', Told cs names a m ob (some a') ∧ a'.given = a.given ++ (told rest m.payload).map fun c => (i, c) :=
  fun a ha => ⟨_, told_of cs names a m hm ob hob _ (served_options cs names hp m.payload i m.opts rest hs
    (optsOk_numbers m.opts 0 hm.2.2.2.2.2.1) a ha), rfl⟩

/-- C55: when no path segment begins with a name, nobody is told anything; and the aggregate can take the next
message. -/
theorem aggregate_serves_nobody (cs : Bool) (names : List (List UInt8)) (hp : ∀ n ∈ names, Plain cs n) (m : Msg) (hm : m.Ok) (ob : List UInt8)
    (hob : IsOpts 0 m.opts ob) (hs : ∀ o ∈ m.opts, ¬Named names o) (a : Agg) (ha : a.handler = none) :
    ∃ a', Told cs names a m ob (some a') ∧ a'.given = a.given ∧ a'.handler = none := by
  obtain ⟨b, e⟩ := unserved_options cs names hp m.payload m.opts hs (optsOk_numbers m.opts 0 hm.2.2.2.2.2.1) a ha
  exact ⟨_, told_of cs names _ m hm ob hob _ e, rfl, ha⟩

/-- C55 fails for the path: `Served` may skip segments, so `/x/a` is given to the handler of `a` although no handler is
registered for `x`. -/
theorem aggregate_deeper_segment (cs : Bool) (names : List (List UInt8)) (hp : ∀ n ∈ names, Plain cs n) (m : Msg) (hm : m.Ok) (ob : List UInt8)
    (hob : IsOpts 0 m.opts ob) (x seg : List UInt8) (hseg : seg ≠ []) (i : Nat) (hx : ∀ n ∈ names, ¬n <+: x) (hi : FirstPrefix names seg i)
    (ho : m.opts = [⟨11, x⟩, ⟨11, seg⟩]) :
    ∃ a, Told cs names Agg.init m ob (some a) ∧ (i, .option 11 seg true) ∈ a.given := by
  obtain ⟨n, h1, h2, h3⟩ := hi
  obtain ⟨a, e, h⟩ := aggregate_serves_partial cs names hp m hm ob hob i [⟨11, seg⟩] (by
    rw [ho]
    exact .later (fun ⟨_, _, n, hn, h⟩ => hx n hn h)
      (.here ⟨rfl, hseg, n, List.mem_of_getElem? h1, h2⟩ ⟨n, h1, h2, h3⟩)) Agg.init rfl
  refine ⟨a, e, ?_⟩
  rw [h, told_cons]
  simp [hseg]

/-- C55 fails for the second message: after a message with a payload, the handler is destroyed but still called. -/
theorem aggregate_second_undefined (cs : Bool) (names : List (List UInt8)) (hp : ∀ n ∈ names, Plain cs n) (m : Msg) (hm : m.Ok) (ob : List UInt8)
    (hob : IsOpts 0 m.opts ob) (i : Nat) (rest : List Opt) (hs : Served names m.opts i rest) (hpay : m.payload ≠ none)
    (m2 : Msg) (hm2 : m2.Ok) (ob2 : List UInt8) (hob2 : IsOpts 0 m2.opts ob2) (hsome : m2.payload ≠ none ∨ ∃ o ∈ m2.opts, o.value ≠ []) :
    ∃ a, Told cs names Agg.init m ob (some a) ∧ Told cs names a m2 ob2 none := by
  refine ⟨_, told_of cs names _ m hm ob hob _ (served_options cs names hp m.payload i m.opts rest hs (optsOk_numbers m.opts 0 hm.2.2.2.2.2.1) _ rfl), ?_⟩
  refine told_of cs names _ m2 hm2 ob2 hob2 _ ?_
  have hal : alive m.payload = false := by cases h : m.payload <;> simp_all [alive]
  rw [hal]
  have hne : told m2.opts m2.payload ≠ [] := by
    rcases hsome with h | ⟨o, h1, h2⟩
    · cases h' : m2.payload <;> simp_all [told]
    · have : o ∈ m2.opts.filter fun o => o.value ≠ [] := by simp [h1, h2]
      intro h'
      simp only [told, List.append_eq_nil_iff, List.map_eq_nil_iff] at h'
      rw [h'.1] at this
      simp at this
  have hkind : ∀ c ∈ told m2.opts m2.payload, acted c = true := by
    intro c hc
    rw [told_split, List.mem_append] at hc
    rcases hc with hc | hc
    · obtain ⟨n, v, rfl⟩ := told_kind _ c hc
      rfl
    · cases h' : m2.payload with
      | none => simp [h'] at hc
      | some p =>
        simp only [h', List.mem_cons, List.not_mem_nil, or_false] at hc
        rcases hc with rfl | rfl <;> rfl
  cases hl : told m2.opts m2.payload with
  | nil => exact absurd hl hne
  | cons c l =>
    have hc := hkind c (by rw [hl]; exact List.mem_cons_self)
    cases c with
    | option n p b => simp [Agg.calls, Agg.call, Agg.look, Agg.hand]
    | payload p b => simp [Agg.calls, Agg.call, Agg.hand]
    | complete => simp [Agg.calls, Agg.call, Agg.hand]
    | header | token | optionHead => simp [acted] at hc

/-- C55 fails for the second message: after a message without payload, the same handler is told the next message,
whatever its path. -/
theorem aggregate_handler_kept (cs : Bool) (names : List (List UInt8)) (hp : ∀ n ∈ names, Plain cs n) (m : Msg) (hm : m.Ok) (ob : List UInt8)
    (hob : IsOpts 0 m.opts ob) (i : Nat) (rest : List Opt) (hs : Served names m.opts i rest) (hpay : m.payload = none)
    (m2 : Msg) (hm2 : m2.Ok) (ob2 : List UInt8) (hob2 : IsOpts 0 m2.opts ob2) :
    ∃ a a', Told cs names Agg.init m ob (some a) ∧ Told cs names a m2 ob2 (some a') ∧
      a'.given = a.given ++ (told m2.opts m2.payload).map fun c => (i, c) := by
  have h1 := told_of cs names _ m hm ob hob _
    (served_options cs names hp m.payload i m.opts rest hs (optsOk_numbers m.opts 0 hm.2.2.2.2.2.1) Agg.init rfl)
  have h2 := told_of cs names _ m2 hm2 ob2 hob2 _ (hand_message cs names i
    ⟨.always, some (i, alive m.payload), Agg.init.given ++ (told rest m.payload).map fun c => (i, c)⟩ (by simp [hpay, alive]) m2.opts m2.payload)
  exact ⟨_, _, h1, h2, rfl⟩

/-- C55 fails for a header and a token: no handler is ever told either, whatever the calls. -/
theorem aggregate_never_head (cs : Bool) (names : List (List UInt8)) : ∀ (l : List Call) (a a' : Agg), (∀ x ∈ a.given, acted x.2 = true) →
    a.calls cs names l = some a' → ∀ x ∈ a'.given, acted x.2 = true
  | [], a, a', h, e => by simp only [Agg.calls, Option.some.injEq] at e; exact e ▸ h
  | c :: l, a, a', h, e => by
    rw [Agg.calls, Option.bind_eq_some_iff] at e
    obtain ⟨b, e1, e2⟩ := e
    refine aggregate_never_head cs names l b a' ?_ e2
    have hand : ∀ (a b : Agg) (c : Call), (∀ x ∈ a.given, acted x.2 = true) → acted c = true → a.hand c = some b →
        ∀ x ∈ b.given, acted x.2 = true := by
      intro a b c h hc e
      unfold Agg.hand at e
      split at e
      · simp only [Option.some.injEq] at e; exact e ▸ h
      · simp at e
      · simp only [Option.some.injEq] at e
        subst e
        intro x hx
        rcases List.mem_append.1 hx with hx | hx
        · exact h x hx
        · simp only [List.mem_cons, List.not_mem_nil, or_false] at hx; subst hx; exact hc
    cases c with
    | header | token | optionHead => simp only [Agg.call, Option.some.injEq] at e1; exact e1 ▸ h
    | option n p b' =>
      refine hand _ _ _ ?_ rfl e1
      split
      · unfold Agg.look
        split
        · cases aggFind cs names p <;> exact h
        · exact h
      · exact h
    | payload p b' => exact hand _ _ _ h rfl e1
    | complete =>
      simp only [Agg.call, Option.map_eq_some_iff] at e1
      obtain ⟨b0, e1, rfl⟩ := e1
      exact hand a b0 .complete h rfl e1

/-- Among the calls is a path segment that begins with a name. -/
def NamedCall (names : List (List UInt8)) (l : List Call) : Prop := ∃ p b, Call.option 11 p b ∈ l ∧ ∃ n ∈ names, n <+: p

/-- Among the calls is a path segment. -/
def PathCall (l : List Call) : Prop := ∃ p b, Call.option 11 p b ∈ l

theorem firstPrefix_exists (seg : List UInt8) : ∀ names : List (List UInt8), (∃ n ∈ names, n <+: seg) → ∃ i, FirstPrefix names seg i
  | [], ⟨_, h, _⟩ => by simp at h
  | n :: names, h => by
    by_cases hn : n <+: seg
    · exact ⟨0, n, rfl, hn, fun j x hj => by omega⟩
    · obtain ⟨m, hm, hp⟩ := h
      rcases List.mem_cons.1 hm with rfl | hm
      · exact absurd hp hn
      · obtain ⟨i, x, h1, h2, h3⟩ := firstPrefix_exists seg names ⟨m, hm, hp⟩
        refine ⟨i + 1, x, by simpa using h1, h2, fun j y hj hy => ?_⟩
        cases j with
        | zero => simp only [List.getElem?_cons_zero, Option.some.injEq] at hy; subst hy; exact hn
        | succ j => exact h3 j y (by omega) (by simpa using hy)

/-- What the calls so far say about the aggregate. -/
def InterestOf (names : List (List UInt8)) (l : List Call) (a : Agg) : Prop :=
  (a.handler ≠ none ↔ NamedCall names l) ∧ (NamedCall names l → a.interest = .always) ∧
    (¬NamedCall names l → PathCall l → a.interest = .never) ∧ (¬PathCall l → a.interest = .currently)

theorem interest_same {names : List (List UInt8)} {l : List Call} {a b : Agg} {c : Call} (h : InterestOf names l a)
    (hc : ∀ p k, c ≠ .option 11 p k) (h1 : b.handler ≠ none ↔ a.handler ≠ none) (h2 : b.interest = a.interest) :
    InterestOf names (l ++ [c]) b := by
  have hn : NamedCall names (l ++ [c]) ↔ NamedCall names l := by
    constructor
    · rintro ⟨p, k, hm, h⟩
      rcases List.mem_append.1 hm with hm | hm
      · exact ⟨p, k, hm, h⟩
      · exact absurd (List.mem_singleton.1 hm).symm (hc p k)
    · rintro ⟨p, k, hm, h⟩; exact ⟨p, k, List.mem_append_left _ hm, h⟩
  have hp : PathCall (l ++ [c]) ↔ PathCall l := by
    constructor
    · rintro ⟨p, k, hm⟩
      rcases List.mem_append.1 hm with hm | hm
      · exact ⟨p, k, hm⟩
      · exact absurd (List.mem_singleton.1 hm).symm (hc p k)
    · rintro ⟨p, k, hm⟩; exact ⟨p, k, List.mem_append_left _ hm⟩
  rw [InterestOf, hn, hp, h1, h2]
  exact h

theorem hand_keeps {a b : Agg} {c : Call} (h : a.hand c = some b) : b.handler = a.handler ∧ b.interest = a.interest := by
  unfold Agg.hand at h
  split at h
  · cases h; exact ⟨rfl, rfl⟩
  · cases h
  · cases h; exact ⟨rfl, rfl⟩

theorem interest_call (cs : Bool) (names : List (List UInt8)) (hp : ∀ n ∈ names, Plain cs n) {l : List Call} {a b : Agg} {c : Call}
    (h : InterestOf names l a) (e : a.call cs names c = some b) : InterestOf names (l ++ [c]) b := by
  cases c with
  | header x => cases e; exact interest_same h (by simp) Iff.rfl rfl
  | token x y => cases e; exact interest_same h (by simp) Iff.rfl rfl
  | optionHead x y => cases e; exact interest_same h (by simp) Iff.rfl rfl
  | payload x y =>
    obtain ⟨h1, h2⟩ := hand_keeps e
    exact interest_same h (by simp) (by rw [h1]) h2
  | complete =>
    simp only [Agg.call, Option.map_eq_some_iff] at e
    obtain ⟨a', e, rfl⟩ := e
    obtain ⟨h1, h2⟩ := hand_keeps e
    exact interest_same h (by simp) (by simp [h1]) h2
  | option n p k =>
    by_cases h11 : n = 11
    · subst h11
      simp only [Agg.call, beq_self_eq_true, if_true] at e
      obtain ⟨h1, h2⟩ := hand_keeps e
      obtain ⟨g1, g2, g3, g4⟩ := h
      have hpath : PathCall (l ++ [.option 11 p k]) := ⟨p, k, by simp⟩
      by_cases hh : a.handler = none
      · have hno : ¬NamedCall names l := fun h => g1.2 h hh
        by_cases hx : ∃ n ∈ names, n <+: p
        · obtain ⟨i, hi⟩ := firstPrefix_exists p names hx
          have hyes : NamedCall names (l ++ [.option 11 p k]) := ⟨p, k, by simp, hx⟩
          simp only [Agg.look, hh, if_true, aggFind_first cs names hp p i hi] at h1 h2
          exact ⟨⟨fun _ => hyes, fun _ => by simp [h1]⟩, fun _ => h2, fun h => absurd hyes h, fun h => absurd hpath h⟩
        · have hnone : ¬NamedCall names (l ++ [.option 11 p k]) := by
            rintro ⟨p', k', hm, hn'⟩
            rcases List.mem_append.1 hm with hm | hm
            · exact hno ⟨p', k', hm, hn'⟩
            · cases List.mem_singleton.1 hm; exact hx hn'
          have hx' : ∀ n ∈ names, ¬n <+: p := fun n hn hpre => hx ⟨n, hn, hpre⟩
          simp only [Agg.look, hh, if_true, aggFind_none cs names hp p hx'] at h1 h2
          exact ⟨⟨fun h => absurd h1 h, fun h => absurd h hnone⟩, fun h => absurd h hnone, fun _ _ => h2,
            fun h => absurd hpath h⟩
      · obtain ⟨p', k', hm, hn'⟩ := g1.1 hh
        have hyes : NamedCall names (l ++ [.option 11 p k]) := ⟨p', k', List.mem_append_left _ hm, hn'⟩
        simp only [Agg.look, hh, if_false] at h1 h2
        exact ⟨⟨fun _ => hyes, fun _ => by rw [h1]; exact hh⟩, fun _ => h2.trans (g2 ⟨p', k', hm, hn'⟩), fun h => absurd hyes h,
          fun h => absurd hpath h⟩
    · have : (n == 11) = false := by simp [h11]
      simp only [Agg.call, this, Bool.false_eq_true, if_false] at e
      obtain ⟨h1, h2⟩ := hand_keeps e
      exact interest_same h (fun p' k' => by simp only [ne_eq, Call.option.injEq]; rintro ⟨rfl, -⟩; exact h11 rfl) (by rw [h1]) h2

theorem interest_calls (cs : Bool) (names : List (List UInt8)) (hp : ∀ n ∈ names, Plain cs n) : ∀ (k l : List Call) (a b : Agg),
    InterestOf names l a → a.calls cs names k = some b → InterestOf names (l ++ k) b
  | [], l, a, b, h, e => by cases e; simpa using h
  | c :: k, l, a, b, h, e => by
    rw [Agg.calls, Option.bind_eq_some_iff] at e
    obtain ⟨a', e1, e2⟩ := e
    have := interest_calls cs names hp k (l ++ [c]) a' b (interest_call cs names hp h e1) e2
    simpa using this

/-- C55 (what the aggregate asks of a dispatcher above it).  After any calls, in any order and of any messages, it wants the message
always once a path segment began with a name; never, if there was a path segment and none did; and otherwise it has not decided. -/
theorem aggregate_interest (cs : Bool) (names : List (List UInt8)) (hp : ∀ n ∈ names, Plain cs n) (l : List Call) (a : Agg)
    (h : Agg.init.calls cs names l = some a) :
    ((∃ p b, .option 11 p b ∈ l ∧ ∃ n ∈ names, n <+: p) → a.interest = .always) ∧
    (¬(∃ p b, .option 11 p b ∈ l ∧ ∃ n ∈ names, n <+: p) → (∃ p b, .option 11 p b ∈ l) → a.interest = .never) ∧
    (¬(∃ p b, Call.option 11 p b ∈ l) → a.interest = .currently) := by
  have := interest_calls cs names hp l [] Agg.init a
    ⟨⟨fun h => absurd rfl h, fun ⟨_, _, h, _⟩ => by simp at h⟩, fun ⟨_, _, h, _⟩ => by simp at h, fun _ ⟨_, _, h⟩ => by simp at h, fun _ => rfl⟩ h
  rw [List.nil_append] at this
  exact this.2

-- nothing decided at the host, `x` fits no name, `ab` does
example : (Agg.init.calls true [[0x61]] [.header ⟨0x40, 1, 0, 0⟩, .option 3 [0x61] true]).map Agg.interest = some .currently ∧
    (Agg.init.calls true [[0x61]] [.option 11 [0x78] true]).map Agg.interest = some .never ∧
    (Agg.init.calls true [[0x61]] [.option 11 [0x78] true, .option 11 [0x61, 0x62] true]).map Agg.interest = some .always := by decide

/-- C55 fails for a segment cut between two buffers: `/ab`, cut behind the `a`, is given to the handler of `b`. -/
theorem aggregate_cut_segment : ∃ d evs, legacyChunks 60 (fresh Dec.zero) [[0x40, 1, 0, 7, 0xB2, 0x61]] [0x62, 0xFF, 1] = .ok (d, evs) ∧
    (Agg.calls true [[0x61, 0x62], [0x62]] Agg.init (evs.map toCall)).map Agg.given =
      some [(1, .option 11 [0x62] true), (1, .payload [1] true), (1, .complete)] := by
  refine ⟨_, _, rfl, ?_⟩
  decide

-- /ab with names "b", "a", "ab": the second is chosen
example : Served [[0x62], [0x61], [0x61, 0x62]] [⟨3, [0x68]⟩, ⟨11, [0x61, 0x62]⟩, ⟨12, []⟩] 1 [⟨11, [0x61, 0x62]⟩, ⟨12, []⟩] := by
  refine .later (fun h => by simpa using h.1) (.here ⟨rfl, by simp, [0x61], by simp, ⟨[0x62], rfl⟩⟩ ⟨[0x61], rfl, ⟨[0x62], rfl⟩, ?_⟩)
  intro j n' hj h
  have : j = 0 := by omega
  subst this
  simp only [List.getElem?_cons_zero, Option.some.injEq] at h
  subst h
  decide
example : (Agg.calls true [[0x62], [0x61], [0x61, 0x62]] Agg.init
    (told [⟨3, [0x68]⟩, ⟨11, [0x61, 0x62]⟩, ⟨12, []⟩] (some [1]))).map Agg.given =
      some [(1, .option 11 [0x61, 0x62] true), (1, .payload [1] true), (1, .complete)] := by decide
example : ∀ o ∈ [(⟨11, [0x63]⟩ : Opt), ⟨12, [0x61]⟩], ¬Named [[0x61], [0x62]] o := by
  intro o ho
  simp only [List.mem_cons, List.not_mem_nil, or_false] at ho
  rcases ho with rfl | rfl
  · rintro ⟨-, -, n, hn, h⟩
    simp only [List.mem_cons, List.not_mem_nil, or_false] at hn
    rcases hn with rfl | rfl <;> revert h <;> decide
  · rintro ⟨h, -⟩; simp at h

end Verif.Props
