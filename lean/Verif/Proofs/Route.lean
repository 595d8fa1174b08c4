import Verif.Spec.Route

/-! # Nested dispatchers, call by call -/
namespace Verif.Proofs.Route
open Verif.Model Verif.Model.Dispatch Verif.Spec

/-- Calls about options and payload. -/
def Body : Call → Prop
  | .optionHead _ _ => True
  | .option _ _ _ => True
  | .payload _ _ => True
  | _ => False

/-- The dispatcher is still asking all its factories. -/
structure Asking (kids : List Route) (d : DState') : Prop where
  len : d.states.length = kids.length
  open_ : ∀ s ∈ d.states, s ≠ some .never
  none_ : d.chosen = none

/-- The routes that agree, last one first. -/
def lastAgree (cs : Bool) : List Route → List UInt8 → Option Route
  | [], _ => none
  | k :: kids, seg =>
    match lastAgree cs kids seg with
    | some r => some r
    | none => if startsWithUri cs seg k.pre then some k else none

/-- What observers of the user get from calls about options and payload. -/
def goes (cs : Bool) : List Route → List Call → List (Nat × Call)
  | _, [] => []
  | kids, .option n part _ :: r =>
    if n = 11 then
      match lastAgree cs kids part with
      | none => []
      | some (.leaf _ id) => r.map (id, ·)
      | some (.node _ below) => goes cs below r
    else goes cs kids r
  | kids, _ :: r => goes cs kids r

theorem fresh_mk (k : Route) : ∃ st, k.fresh = .mk .currently st none ∧
    (∀ p id, k = .leaf p id → st = []) ∧ ∀ p below, k = .node p below → st = (DState'.init below).states := by
  cases k with
  | leaf p id => exact ⟨_, rfl, fun _ _ _ => rfl, fun _ _ h => by cases h⟩
  | node p below => exact ⟨_, rfl, (fun _ _ h => by cases h), fun _ _ h => by cases h; rfl⟩

/-- A call that is not handed on only changes the interest. -/
theorem call_kept (cs : Bool) (k : Route) (i : Interest) (st ch) (c : Call)
    (h : (UriHandler.call cs ⟨k.pre, i, []⟩ c).passed = []) :
    Route.call cs k (.mk i st ch) c = (.mk (UriHandler.call cs ⟨k.pre, i, []⟩ c).interest st ch, []) := by
  cases k with
  | leaf p id => simp only [Route.pre] at h ⊢; simp only [Route.call, h, List.map_nil]
  | node p below => simp only [Route.pre] at h ⊢; simp only [Route.call, h]

/-- The first call to a new handler is never handed on. -/
theorem first_call (cs : Bool) (k : Route) (st ch) (c : Call) :
    Route.call cs k (.mk .currently st ch) c =
      (.mk (UriHandler.call cs ⟨k.pre, .currently, []⟩ c).interest st ch, []) := by
  apply call_kept
  cases c <;> simp [UriHandler.call]
  · split <;> rfl
  · split <;> rfl

/-- What a new handler answers. -/
def firstAnswer (cs : Bool) (k : Route) (c : Call) : Interest := (UriHandler.call cs ⟨k.pre, .currently, []⟩ c).interest

theorem pass_cons (cs : Bool) (k : Route) (kids : List Route) (n : Nat) (c : Call) (s : Option Interest)
    (states : List (Option Interest)) (chosen : Option (Nat × Live)) (hs : s ≠ some .never) :
    passKids cs (k :: kids) n c (s :: states) chosen =
      (let ch := if firstAnswer cs k c == .always then some (n, match k.fresh with | .mk _ st c' => .mk .always st c') else chosen
       let r := passKids cs kids (n + 1) c states ch
       (⟨some (firstAnswer cs k c) :: r.1.states, r.1.chosen⟩, r.2)) := by
  obtain ⟨st, e, -⟩ := fresh_mk k
  have h2 : ∀ c, Route.call cs k k.fresh c = (.mk (firstAnswer cs k c) st none, []) := by
    intro c; rw [e, first_call]; rfl
  have hopt : ∀ num part l, firstAnswer cs k (.option num part l) = firstAnswer cs k (.option num part true) := by
    intro num part l; simp [firstAnswer, UriHandler.call]
  have hhead : ∀ num l, firstAnswer cs k (.optionHead num l) = .currently := by
    intro num l; simp [firstAnswer, UriHandler.call]
  have hin : inPass (Route.call cs k) k.fresh c = (.mk (firstAnswer cs k c) st none, []) := by
    cases c with
    | option num part l =>
      simp only [inPass, passCalls, List.foldl_cons, List.foldl_nil, h2, hhead, first_call, List.append_nil]
      rw [hopt num part l]; rfl
    | _ => simp only [inPass, passCalls, List.foldl_cons, List.foldl_nil, h2, List.append_nil]
  rw [passKids]
  simp only [beq_iff_eq, hs, if_false, hin, Live.interest, List.nil_append]
  simp only [e]
  by_cases ha : firstAnswer cs k c = .always
  · simp [ha]
  · simp [ha]

/-- A pass over factories none of which answers "always". -/
theorem pass_none (cs : Bool) (c : Call) : ∀ (kids : List Route) (n : Nat) (states : List (Option Interest)) (chosen),
    states.length = kids.length → (∀ s ∈ states, s ≠ some .never) → (∀ k ∈ kids, firstAnswer cs k c ≠ .always) →
    passKids cs kids n c states chosen = (⟨kids.map fun k => some (firstAnswer cs k c), chosen⟩, [])
  | [], n, states, chosen, hl, _, _ => by
    have : states = [] := List.length_eq_zero_iff.1 hl
    subst this; rfl
  | k :: kids, n, [], chosen, hl, _, _ => by simp at hl
  | k :: kids, n, s :: states, chosen, hl, ho, ha => by
    rw [pass_cons cs k kids n c s states chosen (ho s List.mem_cons_self)]
    have h1 := ha k List.mem_cons_self
    simp only [beq_iff_eq, h1, if_false]
    rw [pass_none cs c kids (n + 1) states chosen (by simpa using hl) (fun x hx => ho x (List.mem_cons_of_mem _ hx))
      (fun x hx => ha x (List.mem_cons_of_mem _ hx))]
    rfl

/-- A pass over factories that have all said "never". -/
theorem pass_never (cs : Bool) (c : Call) : ∀ (kids : List Route) (n : Nat) (states : List (Option Interest)) (chosen),
    states.length = kids.length → (∀ s ∈ states, s = some .never) →
    passKids cs kids n c states chosen = (⟨states, chosen⟩, [])
  | [], n, states, chosen, hl, _ => by
    have : states = [] := List.length_eq_zero_iff.1 hl
    subst this; rfl
  | k :: kids, n, [], chosen, hl, _ => by simp at hl
  | k :: kids, n, s :: states, chosen, hl, ho => by
    have h1 := ho s List.mem_cons_self
    subst h1
    rw [passKids, if_pos (by simp), pass_never cs c kids (n + 1) states chosen (by simpa using hl) (fun x hx => ho x (List.mem_cons_of_mem _ hx))]

/-- A new handler that has found its name. -/
def started : Route → Live
  | .leaf _ _ => .mk .always [] none
  | .node _ kids => .mk .always (DState'.init kids).states none

theorem started_eq (k : Route) : (match k.fresh with | .mk _ st c' => Live.mk .always st c') = started k := by
  cases k <;> rfl

/-- A pass with a Uri-Path option: the last route that agrees is chosen. -/
theorem pass_uri (cs : Bool) (seg : List UInt8) (l : Bool) : ∀ (kids : List Route) (n : Nat) (states : List (Option Interest)) (chosen),
    states.length = kids.length → (∀ s ∈ states, s ≠ some .never) →
    (passKids cs kids n (.option 11 seg l) states chosen).2 = [] ∧
    (passKids cs kids n (.option 11 seg l) states chosen).1.states.length = kids.length ∧
    match lastAgree cs kids seg with
    | none => (passKids cs kids n (.option 11 seg l) states chosen).1.chosen = chosen ∧
        ∀ s ∈ (passKids cs kids n (.option 11 seg l) states chosen).1.states, s = some .never
    | some k => ∃ i, kids[i]? = some k ∧
        (passKids cs kids n (.option 11 seg l) states chosen).1.chosen = some (n + i, started k)
  | [], n, states, chosen, hl, _ => by
    have : states = [] := List.length_eq_zero_iff.1 hl
    subst this; exact ⟨rfl, rfl, rfl, by simp [passKids]⟩
  | k :: kids, n, [], chosen, hl, _ => by simp at hl
  | k :: kids, n, s :: states, chosen, hl, ho => by
    rw [pass_cons cs k kids n _ s states chosen (ho s List.mem_cons_self)]
    simp only [started_eq, lastAgree]
    have hans : firstAnswer cs k (.option 11 seg l) = if startsWithUri cs seg k.pre then .always else .never := by
      simp [firstAnswer, UriHandler.call]
    obtain ⟨h1, h2, h3⟩ := pass_uri cs seg l kids (n + 1) states
      (if firstAnswer cs k (.option 11 seg l) == .always then some (n, started k) else chosen)
      (by simpa using hl) (fun x hx => ho x (List.mem_cons_of_mem _ hx))
    refine ⟨h1, by rw [List.length_cons, h2, List.length_cons], ?_⟩
    cases hk : lastAgree cs kids seg with
    | some r =>
      rw [hk] at h3
      obtain ⟨i, e1, e2⟩ := h3
      exact ⟨i + 1, by simpa using e1, by simp only [e2]; rw [show n + 1 + i = n + (i + 1) by omega]⟩
    | none =>
      rw [hk] at h3
      obtain ⟨e1, e2⟩ := h3
      by_cases hb : startsWithUri cs seg k.pre = true
      · simp only [hb, if_true]
        exact ⟨0, rfl, by rw [e1, hans]; simp [hb]⟩
      · rw [Bool.not_eq_true] at hb
        simp only [hb, Bool.false_eq_true, if_false]
        refine ⟨by rw [e1, hans]; simp [hb], fun x hx => ?_⟩
        rcases List.mem_cons.1 hx with rfl | hx
        · rw [hans]; simp [hb]
        · exact e2 x hx

theorem callNth_get (cs : Bool) : ∀ (kids : List Route) (i : Nat) (k : Route) (l : Live) (c : Call), kids[i]? = some k →
    callNth cs kids i l c = Route.call cs k l c
  | [], i, k, l, c, h => by simp at h
  | k' :: kids, 0, k, l, c, h => by simp at h; subst h; rw [callNth]
  | k' :: kids, i + 1, k, l, c, h => by rw [callNth]; exact callNth_get cs kids i k l c (by simpa using h)

/-- A chosen observer of the user gets everything about options and payload. -/
theorem chosen_leaf (cs : Bool) (kids : List Route) (p : List UInt8) (id : Nat) : ∀ (calls : List Call) (d : DState') (i : Nat)
    (st ch), (∀ c ∈ calls, Body c) → kids[i]? = some (.leaf p id) → d.chosen = some (i, .mk .always st ch) →
    (dispCalls cs kids d calls).2 = calls.map (id, ·)
  | [], d, i, st, ch, _, _, _ => rfl
  | c :: calls, d, i, st, ch, hb, hk, hd => by
    have hc := hb c List.mem_cons_self
    have hcall : Route.call cs (.leaf p id) (.mk .always st ch) c = (.mk .always st ch, [(id, c)]) := by
      cases c <;> simp [Body] at hc <;> simp [Route.call, UriHandler.call]
    have h1 : dispCall cs kids d c = (⟨d.states, some (i, .mk .always st ch)⟩, [(id, c)]) := by
      cases c <;> simp [Body] at hc <;> simp only [dispCall, dispatch, hd, callNth_get cs kids i _ _ _ hk, hcall]
    simp only [dispCalls, h1]
    rw [chosen_leaf cs kids p id calls _ i st ch (fun x hx => hb x (List.mem_cons_of_mem _ hx)) hk rfl]
    rfl

/-- A chosen inner dispatcher gets everything about options and payload. -/
theorem chosen_node (cs : Bool) (kids : List Route) (p : List UInt8) (below : List Route) : ∀ (calls : List Call) (d : DState') (i : Nat)
    (d' : DState'), (∀ c ∈ calls, Body c) → kids[i]? = some (.node p below) →
    d.chosen = some (i, .mk .always d'.states d'.chosen) →
    (dispCalls cs kids d calls).2 = (dispCalls cs below d' calls).2
  | [], d, i, d', _, _, _ => rfl
  | c :: calls, d, i, d', hb, hk, hd => by
    have hc := hb c List.mem_cons_self
    have hcall : Route.call cs (.node p below) (.mk .always d'.states d'.chosen) c =
        (.mk .always (dispCall cs below d' c).1.states (dispCall cs below d' c).1.chosen, (dispCall cs below d' c).2) := by
      cases c <;> simp [Body] at hc <;> simp [Route.call, UriHandler.call, dispCall]
    have h1 : dispCall cs kids d c = (⟨d.states, some (i, .mk .always (dispCall cs below d' c).1.states (dispCall cs below d' c).1.chosen)⟩,
        (dispCall cs below d' c).2) := by
      rw [dispCall]
      cases c <;> simp [Body] at hc <;> simp only [dispatch, hd, callNth_get cs kids i _ _ _ hk, hcall]
    simp only [dispCalls, h1]
    rw [chosen_node cs kids p below calls _ i _ (fun x hx => hb x (List.mem_cons_of_mem _ hx)) hk rfl]

/-- When all factories have said "never", nobody gets anything. -/
theorem all_never (cs : Bool) (kids : List Route) : ∀ (calls : List Call) (d : DState'), d.states.length = kids.length →
    (∀ s ∈ d.states, s = some .never) → d.chosen = none → dispCalls cs kids d calls = (d, [])
  | [], d, _, _, _ => rfl
  | c :: calls, ⟨st, ch⟩, hl, hn, hc => by
    simp only at hc hl hn
    subst hc
    have h1 : dispCall cs kids ⟨st, none⟩ c = (⟨st, none⟩, []) := by
      have hp : ∀ c, passKids cs kids 0 c st none = (⟨st, none⟩, []) := fun c => pass_never cs c kids 0 st none hl hn
      cases c <;> simp only [dispCall, dispatch, hp]
    simp only [dispCalls, h1]
    rw [all_never cs kids calls ⟨st, none⟩ hl hn rfl]
    rfl

theorem asking_pass {cs : Bool} {kids : List Route} {d : DState'} (h : Asking kids d) (c : Call)
    (ha : ∀ k ∈ kids, firstAnswer cs k c = .currently) :
    (passKids cs kids 0 c d.states d.chosen).2 = [] ∧ Asking kids (passKids cs kids 0 c d.states d.chosen).1 := by
  rw [pass_none cs c kids 0 d.states d.chosen h.len h.open_ (fun k hk => by rw [ha k hk]; simp)]
  refine ⟨rfl, by simp, ?_, h.none_⟩
  intro s hs
  obtain ⟨k, hk, rfl⟩ := List.mem_map.1 hs
  rw [ha k hk]; simp

theorem init_asking (kids : List Route) : Asking kids (DState'.init kids) := by
  refine ⟨by simp [DState'.init], ?_, rfl⟩
  intro s hs
  obtain ⟨k, hk, rfl⟩ := List.mem_map.1 hs
  simp

/-- Everything about options and payload, from a dispatcher that is still asking. -/
theorem body_goes (cs : Bool) : ∀ (calls : List Call) (kids : List Route) (d : DState'), Asking kids d → (∀ c ∈ calls, Body c) →
    (dispCalls cs kids d calls).2 = goes cs kids calls
  | [], kids, d, h, hb => by rw [goes]; rfl
  | c :: calls, kids, d, h, hb => by
    have hc := hb c List.mem_cons_self
    have hb' : ∀ x ∈ calls, Body x := fun x hx => hb x (List.mem_cons_of_mem _ hx)
    have keep : ∀ c, dispCall cs kids d c = passKids cs kids 0 c d.states d.chosen → (∀ k ∈ kids, firstAnswer cs k c = .currently) →
        goes cs kids (c :: calls) = goes cs kids calls → (dispCalls cs kids d (c :: calls)).2 = goes cs kids (c :: calls) := by
      intro c h1 h2 h3
      obtain ⟨e1, e2⟩ := asking_pass h c h2
      simp only [dispCalls, h1, e1, h3, List.nil_append]
      exact body_goes cs calls kids _ e2 hb'
    cases c with
    | header | token | complete => simp [Body] at hc
    | optionHead n l =>
      simp only [dispCalls, dispCall, dispatch, h.none_, goes, List.nil_append]
      exact body_goes cs calls kids d h hb'
    | payload p l =>
      exact keep _ (by simp only [dispCall, dispatch, h.none_]) (fun k _ => by simp [firstAnswer, UriHandler.call]) (by simp [goes])
    | option n part l =>
      by_cases hn : n = 11
      · subst hn
        have h1 : dispCall cs kids d (.option 11 part l) = passKids cs kids 0 (.option 11 part l) d.states d.chosen := by
          simp only [dispCall, dispatch, h.none_]
        obtain ⟨g1, g2, g3⟩ := pass_uri cs part l kids 0 d.states d.chosen h.len h.open_
        simp only [dispCalls, h1, g1, List.nil_append, goes, if_true]
        cases hk : lastAgree cs kids part with
        | none =>
          rw [hk] at g3
          rw [all_never cs kids calls _ g2 g3.2 (g3.1.trans h.none_)]
        | some k =>
          rw [hk] at g3
          obtain ⟨i, e1, e2⟩ := g3
          rw [Nat.zero_add] at e2
          cases k with
          | leaf p id => exact chosen_leaf cs kids p id calls _ i _ _ hb' e1 e2
          | node p below =>
            rw [chosen_node cs kids p below calls _ i (DState'.init below) hb' e1 e2]
            exact body_goes cs calls below _ (init_asking below) hb'
      · exact keep _ (by simp only [dispCall, dispatch, h.none_]) (fun k _ => by simp [firstAnswer, UriHandler.call, hn])
          (by simp [goes, hn])

theorem dispCalls_append (cs : Bool) (kids : List Route) : ∀ (a b : List Call) (d : DState'),
    dispCalls cs kids d (a ++ b) =
      ((dispCalls cs kids (dispCalls cs kids d a).1 b).1, (dispCalls cs kids d a).2 ++ (dispCalls cs kids (dispCalls cs kids d a).1 b).2)
  | [], b, d => by simp [dispCalls]
  | c :: a, b, d => by simp only [List.cons_append, dispCalls, dispCalls_append cs kids a b]; simp

/-- Completion reaches no observer of the user. -/
theorem complete_silent (cs : Bool) : ∀ (kids : List Route) (n : Nat) (states) (chosen),
    (passKids cs kids n .complete states chosen).2 = []
  | [], n, states, chosen => by simp [passKids]
  | k :: kids, n, [], chosen => by simp [passKids]
  | k :: kids, n, s :: states, chosen => by
    by_cases hs : s = some .never
    · subst hs
      rw [passKids, if_pos (by simp)]
      exact complete_silent cs kids (n + 1) states chosen
    · rw [pass_cons cs k kids n _ s states chosen hs]
      exact complete_silent cs kids (n + 1) states _

end Verif.Proofs.Route
