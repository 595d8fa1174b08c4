import Verif.Model.DispatchContext
import Verif.Props.Route

/-! # Contexts of dispatched handlers (C54) -/
namespace Verif.Props
open Verif.Model Verif.Model.Dispatch Verif.Proofs Verif.Spec Dec

/-- The states of all handlers that wait for a path. -/
def Waiting (P : Option Interest → Prop) : List Kind → List (Option Interest) → Prop
  | [], [] => True
  | .store :: ks, _ :: ss => Waiting P ks ss
  | .answer _ :: ks, s :: ss => P s ∧ Waiting P ks ss
  | _, _ => False

/-- Calls which leave all handlers undecided. -/
def Early : Call → Prop
  | .header h => h.isRequest = true
  | .token t _ => t.length ≤ 8
  | .option n _ _ => n ≠ 11
  | .payload _ _ => True
  | .complete => True
  | .optionHead _ _ => False

theorem store_pass (cs : Bool) (m : HCtx) (hm : m.token.length = 8) (c : Call) (hc : ∀ t l, c = .token t l → t.length ≤ 8) :
    ∃ h x, Kind.calls cs .store Handler.new (some m) (passCalls c) = some (h, some x) ∧ Kind.interest .store h x ≠ .always := by
  have hi : ∀ h x, Kind.interest .store h x ≠ .always := by
    intro h x; simp only [Kind.interest]; split
    · simp
    · split
      · split <;> simp
      · simp
  cases c with
  | token t l =>
    have := hc t l rfl
    refine ⟨Handler.new, { m with token := t ++ m.token.drop t.length, present := true }, ?_, hi _ _⟩
    simp [Kind.calls, passCalls, Kind.call, HCtx.setToken, hm, this]
  | header h => exact ⟨_, _, rfl, hi _ _⟩
  | optionHead n l => exact ⟨_, _, rfl, hi _ _⟩
  | option n p l => exact ⟨_, _, rfl, hi _ _⟩
  | payload p l => exact ⟨_, _, rfl, hi _ _⟩
  | complete => exact ⟨_, _, rfl, hi _ _⟩

theorem answer_early (cs : Bool) (pre : List UInt8) (m : HCtx) (c : Call) (hc : Early c) :
    Kind.calls cs (.answer pre) Handler.new (some m) (passCalls c) = some (Handler.new, some m) := by
  cases c with
  | optionHead n l => exact absurd hc (by simp [Early])
  | header h => simp only [Early] at hc; simp [Kind.calls, passCalls, Kind.call, UriHandler.call, Handler.new, hc]
  | option n p l => simp only [Early] at hc; simp [Kind.calls, passCalls, Kind.call, UriHandler.call, Handler.new, hc]
  | token t l => simp [Kind.calls, passCalls, Kind.call, UriHandler.call, Handler.new]
  | payload p l => simp [Kind.calls, passCalls, Kind.call, UriHandler.call, Handler.new]
  | complete => simp [Kind.calls, passCalls, Kind.call, UriHandler.call, Handler.new]

theorem early_pass (cs : Bool) (m : HCtx) (hm : m.token.length = 8) (c : Call) (hc : Early c) :
    ∀ (kinds : List Kind) (n : Nat) (states : List (Option Interest)) (chosen : Option (Nat × Handler)),
    Waiting (· ≠ some .never) kinds states →
    ∃ states', fdPass cs m c kinds n states chosen = some (states', chosen) ∧ Waiting (· ≠ some .never) kinds states'
  | [], n, [], chosen, _ => ⟨[], rfl, trivial⟩
  | [], n, _ :: _, chosen, h => h.elim
  | .store :: ks, n, [], chosen, h => h.elim
  | .answer _ :: ks, n, [], chosen, h => h.elim
  | .store :: ks, n, s :: ss, chosen, h => by
    obtain ⟨st, e, hw⟩ := early_pass cs m hm c hc ks (n + 1) ss chosen h
    by_cases hs : s = some .never
    · exact ⟨s :: st, by rw [fdPass, if_pos (by simp [hs]), e]; rfl, hw⟩
    · obtain ⟨h', x, e1, e2⟩ := store_pass cs m hm c (fun t l h => by subst h; exact hc)
      refine ⟨some (Kind.interest .store h' x) :: st, ?_, hw⟩
      rw [fdPass, if_neg (by simp [hs]), e1]
      simp [e2, e]
  | .answer p :: ks, n, s :: ss, chosen, h => by
    obtain ⟨st, e, hw⟩ := early_pass cs m hm c hc ks (n + 1) ss chosen h.2
    refine ⟨some .currently :: st, ?_, by simp, hw⟩
    rw [fdPass, if_neg (by simpa using h.1), answer_early cs p m c hc]
    simp [Kind.interest, Handler.new, e]

/-- Some handler has a name that agrees with the segment. -/
def SomeAgrees (cs : Bool) (kinds : List Kind) (seg : List UInt8) : Prop := ∃ pre, Kind.answer pre ∈ kinds ∧ Agree cs seg pre

/-- An observer has been chosen. -/
def Chosen (kinds : List Kind) (chosen : Option (Nat × Handler)) : Prop :=
  ∃ i h pre, chosen = some (i, h) ∧ kinds[i]? = some (.answer pre) ∧ h.interest = .always

theorem answer_uri (cs : Bool) (pre : List UInt8) (m : HCtx) (seg : List UInt8) (l : Bool) :
    Kind.calls cs (.answer pre) Handler.new (some m) (passCalls (.option 11 seg l)) =
      some (⟨if startsWithUri cs seg pre then .always else .never, []⟩, some m) := by
  simp [Kind.calls, passCalls, Kind.call, UriHandler.call, Handler.new]

theorem uri_pass (cs : Bool) (m : HCtx) (hm : m.token.length = 8) (seg : List UInt8) (l : Bool) (all : List Kind) :
    ∀ (kinds : List Kind) (n : Nat) (states : List (Option Interest)) (chosen : Option (Nat × Handler)),
    (∀ i k, kinds[i]? = some k → all[n + i]? = some k) → Waiting (· ≠ some .never) kinds states →
    ∃ states' chosen', fdPass cs m (.option 11 seg l) kinds n states chosen = some (states', chosen') ∧
      ((SomeAgrees cs kinds seg ∨ Chosen all chosen) → Chosen all chosen') ∧
      (¬SomeAgrees cs kinds seg → chosen' = chosen ∧ Waiting (· = some .never) kinds states')
  | [], n, [], chosen, _, _ => ⟨[], chosen, rfl, fun h => by
      rcases h with ⟨p, h, -⟩ | h
      · simp at h
      · exact h, fun _ => ⟨rfl, trivial⟩⟩
  | [], n, _ :: _, chosen, _, h => h.elim
  | .store :: ks, n, [], chosen, _, h => h.elim
  | .answer _ :: ks, n, [], chosen, _, h => h.elim
  | .store :: ks, n, s :: ss, chosen, ha, h => by
    obtain ⟨st, ch, e, h1, h2⟩ := uri_pass cs m hm seg l all ks (n + 1) ss chosen
      (fun i k hk => by have := ha (i + 1) k (by simpa using hk); rwa [show n + (i + 1) = n + 1 + i by omega] at this) h
    have hag : SomeAgrees cs (.store :: ks) seg ↔ SomeAgrees cs ks seg := by simp [SomeAgrees]
    rw [hag]
    by_cases hs : s = some .never
    · exact ⟨s :: st, ch, by rw [fdPass, if_pos (by simp [hs]), e]; rfl, h1, h2⟩
    · obtain ⟨h', x, e1, e2⟩ := store_pass cs m hm (.option 11 seg l) (by simp)
      refine ⟨some (Kind.interest .store h' x) :: st, ch, ?_, h1, h2⟩
      rw [fdPass, if_neg (by simp [hs]), e1]
      simp [e2, e]
  | .answer p :: ks, n, s :: ss, chosen, ha, h => by
    have ha0 := ha 0 _ rfl
    have hrec := fun chosen => uri_pass cs m hm seg l all ks (n + 1) ss chosen
      (fun i k hk => by have := ha (i + 1) k (by simpa using hk); rwa [show n + (i + 1) = n + 1 + i by omega] at this) h.2
    have hag : SomeAgrees cs (.answer p :: ks) seg ↔ Agree cs seg p ∨ SomeAgrees cs ks seg := by
      constructor
      · rintro ⟨q, hq, h⟩
        rcases List.mem_cons.1 hq with hq | hq
        · cases hq; exact Or.inl h
        · exact Or.inr ⟨q, hq, h⟩
      · rintro (h | ⟨q, hq, h⟩)
        · exact ⟨p, List.mem_cons_self, h⟩
        · exact ⟨q, List.mem_cons_of_mem _ hq, h⟩
    rw [hag]
    rw [fdPass, if_neg (by simpa using h.1), answer_uri]
    by_cases hb : startsWithUri cs seg p = true
    · obtain ⟨st, ch, e, h1, h2⟩ := hrec (some (n, ⟨.always, []⟩))
      refine ⟨some .always :: st, ch, ?_, fun _ => h1 (Or.inr ⟨n, ⟨.always, []⟩, p, rfl, ha0, rfl⟩), fun h' => ?_⟩
      · simp [Kind.interest, hb, e]
      · exact absurd (Or.inl ((startsWithUri_agree cs seg p).1 hb)) h'
    · have hb' : startsWithUri cs seg p = false := by simpa using hb
      obtain ⟨st, ch, e, h1, h2⟩ := hrec chosen
      refine ⟨some .never :: st, ch, ?_, fun h' => h1 ?_, fun h' => ?_⟩
      · simp [Kind.interest, hb', e]
      · rcases h' with (h' | h') | h'
        · exact absurd ((startsWithUri_agree cs seg p).2 h') hb
        · exact Or.inl h'
        · exact Or.inr h'
      · obtain ⟨k1, k2⟩ := h2 (fun h'' => h' (Or.inr h''))
        exact ⟨k1, rfl, k2⟩

theorem fdCalls_append (cs : Bool) (kinds : List Kind) : ∀ (a b : List Call) (d : FD),
    FD.calls cs kinds d (a ++ b) = (FD.calls cs kinds d a).bind fun d => FD.calls cs kinds d b
  | [], b, d => rfl
  | c :: a, b, d => by
    simp only [List.cons_append, FD.calls]
    cases d.call cs kinds c with
    | none => rfl
    | some d => simp only [Option.bind_some]; exact fdCalls_append cs kinds a b d

/-- Still asking. -/
def FDAsking (kinds : List Kind) (d : FD) : Prop :=
  d.chosen = none ∧ d.ctx.token.length = 8 ∧ Waiting (· ≠ some .never) kinds d.states

theorem init_waiting (P : Option Interest → Prop) (hP : P none) : ∀ kinds : List Kind, Waiting P kinds (kinds.map fun _ => none)
  | [] => trivial
  | .store :: ks => init_waiting P hP ks
  | .answer _ :: ks => ⟨hP, init_waiting P hP ks⟩

theorem asking_early (cs : Bool) (kinds : List Kind) (c : Call) (hc : Early c ∨ ∃ n l, c = .optionHead n l) (d : FD) (h : FDAsking kinds d) :
    ∃ d', d.call cs kinds c = some d' ∧ FDAsking kinds d' := by
  obtain ⟨h1, h2, h3⟩ := h
  rcases hc with hc | ⟨n, l, rfl⟩
  · obtain ⟨st, e, hw⟩ := early_pass cs d.ctx h2 c hc kinds 0 d.states d.chosen h3
    refine ⟨{ d with states := st }, ?_, h1, h2, hw⟩
    cases c <;> simp [Early] at hc <;> simp [FD.call, h1] <;> simp [h1] at e <;> simp [e, h1]
  · exact ⟨d, by simp [FD.call, h1], h1, h2, h3⟩

theorem asking_earlies (cs : Bool) (kinds : List Kind) : ∀ (calls : List Call), (∀ c ∈ calls, Early c ∨ ∃ n l, c = .optionHead n l) →
    ∀ d, FDAsking kinds d → ∃ d', FD.calls cs kinds d calls = some d' ∧ FDAsking kinds d'
  | [], _, d, h => ⟨d, rfl, h⟩
  | c :: calls, hc, d, h => by
    obtain ⟨d1, e1, h1⟩ := asking_early cs kinds c (hc c List.mem_cons_self) d h
    obtain ⟨d2, e2, h2⟩ := asking_earlies cs kinds calls (fun x hx => hc x (List.mem_cons_of_mem _ hx)) d1 h1
    exact ⟨d2, by simp [FD.calls, e1, e2], h2⟩

/-- Once an observer is chosen, the calls up to the payload are fine and the payload is not. -/
theorem chosen_payload (cs : Bool) (kinds : List Kind) (p : List UInt8) (l : Bool) (rest : List Call) :
    ∀ (calls : List Call), (∀ c ∈ calls, (∃ n l, c = .optionHead n l) ∨ ∃ n v l, c = .option n v l) →
    ∀ d : FD, Chosen kinds d.chosen → FD.calls cs kinds d (calls ++ .payload p l :: rest) = none
  | [], _, d, ⟨i, h, pre, e1, e2, e3⟩ => by
    simp [FD.calls, FD.call, e1, e2, Kind.call, UriHandler.call, e3]
  | c :: calls, hc, d, ⟨i, h, pre, e1, e2, e3⟩ => by
    have key : ∃ h', d.call cs kinds c = some { d with chosen := some (i, h') } ∧ h'.interest = .always := by
      rcases hc c List.mem_cons_self with ⟨n, l, rfl⟩ | ⟨n, v, l, rfl⟩ <;>
        simp [FD.call, e1, e2, Kind.call, UriHandler.call, e3]
    obtain ⟨h', k1, k2⟩ := key
    simp only [List.cons_append, FD.calls, k1, Option.bind_some]
    exact chosen_payload cs kinds p l rest calls (fun x hx => hc x (List.mem_cons_of_mem _ hx)) _ ⟨i, h', pre, rfl, e2, k2⟩

/-- The first non-empty Uri-Path option. -/
inductive FirstSegment : List Opt → List UInt8 → Prop
  | here {o os} : o.number = 11 → o.value ≠ [] → FirstSegment (o :: os) o.value
  | later {o os seg} : (o.number ≠ 11 ∨ o.value = []) → FirstSegment os seg → FirstSegment (o :: os) seg

theorem optCalls_kind (os : List Opt) : ∀ c ∈ optCalls os, (∃ n l, c = .optionHead n l) ∨ ∃ n v l, c = .option n v l := by
  intro c hc
  have := optCalls_body os c hc
  simp only [optCalls, List.mem_map, List.mem_flatMap] at hc
  obtain ⟨e, ⟨o, -, he⟩, rfl⟩ := hc
  simp only [owedOption, List.mem_cons] at he
  rcases he with rfl | he
  · exact Or.inl ⟨_, _, rfl⟩
  · split at he
    · simp at he
    · simp only [List.mem_cons, List.not_mem_nil, or_false] at he; subst he; exact Or.inr ⟨_, _, _, rfl⟩

theorem pass_option (cs : Bool) (kinds : List Kind) (o : Opt) (ho : o.number < 65536) (h : o.number ≠ 11 ∨ o.value = []) :
    ∀ c ∈ optCalls [o], Early c ∨ ∃ n l, c = .optionHead n l := by
  intro c hc
  rw [optCalls_cons] at hc
  simp only [List.mem_cons, List.mem_append] at hc
  rcases hc with rfl | hc | hc
  · exact Or.inr ⟨_, _, rfl⟩
  · split at hc
    · simp at hc
    · simp only [List.mem_cons, List.not_mem_nil, or_false] at hc
      subst hc
      rename_i hv
      refine Or.inl fun h' => ?_
      rcases h with h | h
      · exact h ((uri_number ho).1 h')
      · exact hv h
  · simp [optCalls] at hc

theorem optCalls_split (o : Opt) (os : List Opt) : optCalls (o :: os) = optCalls [o] ++ optCalls os := by
  simp [optCalls]

theorem options_then_payload (cs : Bool) (kinds : List Kind) (p : List UInt8) (l : Bool) (rest : List Call) (seg : List UInt8)
    (hag : SomeAgrees cs kinds seg) : ∀ (os : List Opt), (∀ o ∈ os, o.number < 65536) → FirstSegment os seg →
    ∀ d, FDAsking kinds d → FD.calls cs kinds d (optCalls os ++ .payload p l :: rest) = none := by
  intro os hn hf
  induction hf with
  | here h1 h2 =>
    intro d ⟨a1, a2, a3⟩
    obtain ⟨st, ch, e, k1, -⟩ := uri_pass cs d.ctx a2 _ true kinds kinds 0 d.states d.chosen (fun i k h => by simpa using h) a3
    rw [optCalls_cons, h1, if_neg h2]
    simp only [List.cons_append, List.nil_append, FD.calls, FD.call, a1, Option.bind_some, show UInt16.ofNat 11 = 11 from rfl]
    rw [a1] at e k1
    rw [e]
    simp only [Option.map_some, Option.bind_some]
    exact chosen_payload cs kinds p l rest _ (optCalls_kind _) _ (k1 (Or.inl hag))
  | later h1 h2 ih =>
    intro d hd
    rw [optCalls_split, List.append_assoc, fdCalls_append]
    obtain ⟨d', e, hd'⟩ := asking_earlies cs kinds _ (pass_option cs kinds _ (hn _ List.mem_cons_self) h1) d hd
    rw [e]
    exact ih hag (fun o ho => hn o (List.mem_cons_of_mem _ ho)) d' hd'

/-- The calls for the beginning of a request. -/
theorem opening_calls (m : Msg) (hm : m.Ok) (hreq : m.code < 32) (p : List UInt8) (hp : m.payload = some p) :
    ∃ pre : List Call, (owed m).map toCall = pre ++ (optCalls m.opts ++ .payload p true :: [.complete]) ∧
      ∀ c ∈ pre, Early c ∨ ∃ n l, c = .optionHead n l := by
  refine ⟨.header ⟨UInt8.ofNat (64 * m.version + 16 * m.type + m.token.length), UInt8.ofNat m.code,
    UInt8.ofNat (m.mid / 256), UInt8.ofNat (m.mid % 256)⟩ :: (if m.token = [] then [] else [.token m.token true]), ?_, ?_⟩
  · by_cases ht : m.token = [] <;> simp [owed, owedHead, hp, optCalls, toCall, ht]
  · intro c hc
    rcases List.mem_cons.1 hc with rfl | hc
    · exact Or.inl (request_header m hreq _)
    · split at hc
      · simp at hc
      · simp only [List.mem_cons, List.not_mem_nil, or_false] at hc
        subst hc
        exact Or.inl hm.2.2.2.2.1

/-- C54 fails, for all messages and handlers: when a request with a payload selects an observer by its path, the context the
observer looks into is one that no longer exists - whether or not handlers that store header and token stand before
it. -/
theorem chosen_observer_context_gone (cs : Bool) (kinds : List Kind) (ctx : HCtx) (hctx : ctx.token.length = 8) (m : Msg) (hm : m.Ok)
    (hreq : m.code < 32) (p : List UInt8) (hp : m.payload = some p) (seg : List UInt8) (hseg : FirstSegment m.opts seg)
    (hag : SomeAgrees cs kinds seg) (ob : List UInt8) (hob : IsOpts 0 m.opts ob) (junk : Dec) (hj : junk.tbuf.length = 8) :
    ∃ N d' evs, (∀ fuel, N ≤ fuel → legacyChunks fuel (fresh junk) [] (wire m ob) = .ok (d', evs)) ∧
      FD.calls cs kinds (FD.init ctx kinds) (evs.map toCall) = none := by
  obtain ⟨N, d', h⟩ := legacy_one_buffer m hm ob hob junk hj
  refine ⟨N, d', _, h, ?_⟩
  obtain ⟨pre, e, he⟩ := opening_calls m hm hreq p hp
  rw [if_neg (by simp [hp]), e, fdCalls_append]
  have h0 : FDAsking kinds (FD.init ctx kinds) := ⟨rfl, hctx, init_waiting _ (by simp) kinds⟩
  obtain ⟨d1, e1, h1⟩ := asking_earlies cs kinds pre he _ h0
  rw [e1]
  exact options_then_payload cs kinds p true _ seg hag m.opts (optsOk_numbers m.opts 0 hm.2.2.2.2.2.1) hseg d1 h1

theorem never_pass (cs : Bool) (m : HCtx) (hm : m.token.length = 8) (c : Call) (hc : ∀ t l, c = .token t l → t.length ≤ 8) :
    ∀ (kinds : List Kind) (n : Nat) (states : List (Option Interest)) (chosen : Option (Nat × Handler)),
    Waiting (· = some .never) kinds states →
    ∃ states', fdPass cs m c kinds n states chosen = some (states', chosen) ∧ Waiting (· = some .never) kinds states'
  | [], n, [], chosen, _ => ⟨[], rfl, trivial⟩
  | [], n, _ :: _, chosen, h => h.elim
  | .store :: ks, n, [], chosen, h => h.elim
  | .answer _ :: ks, n, [], chosen, h => h.elim
  | .store :: ks, n, s :: ss, chosen, h => by
    obtain ⟨st, e, hw⟩ := never_pass cs m hm c hc ks (n + 1) ss chosen h
    by_cases hs : s = some .never
    · exact ⟨s :: st, by rw [fdPass, if_pos (by simp [hs]), e]; rfl, hw⟩
    · obtain ⟨h', x, e1, e2⟩ := store_pass cs m hm c hc
      refine ⟨some (Kind.interest .store h' x) :: st, ?_, hw⟩
      rw [fdPass, if_neg (by simp [hs]), e1]
      simp [e2, e]
  | .answer p :: ks, n, s :: ss, chosen, h => by
    obtain ⟨st, e, hw⟩ := never_pass cs m hm c hc ks (n + 1) ss chosen h.2
    exact ⟨s :: st, by rw [fdPass, if_pos (by simp [h.1]), e]; rfl, h.1, hw⟩

theorem never_calls (cs : Bool) (kinds : List Kind) : ∀ (calls : List Call), (∀ c ∈ calls, ∀ t l, c = .token t l → t.length ≤ 8) →
    ∀ d : FD, d.chosen = none → d.ctx.token.length = 8 → Waiting (· = some .never) kinds d.states →
    ∃ d', FD.calls cs kinds d calls = some d' ∧ d'.chosen = none
  | [], _, d, h, _, _ => ⟨d, rfl, h⟩
  | c :: calls, hc, d, h1, h2, h3 => by
    obtain ⟨st, e, hw⟩ := never_pass cs d.ctx h2 c (hc c List.mem_cons_self) kinds 0 d.states d.chosen h3
    have : ∃ st, d.call cs kinds c = some { d with states := st } ∧ Waiting (· = some .never) kinds st := by
      obtain ⟨x, y, z⟩ := d
      subst h1
      cases c with
      | optionHead n l => exact ⟨y, by simp [FD.call], h3⟩
      | header | token | option | payload | complete =>
        refine ⟨st, ?_, hw⟩
        simp only at e
        simp only [FD.call, e, Option.map_some]
    obtain ⟨st, e, hw⟩ := this
    obtain ⟨d', e', h'⟩ := never_calls cs kinds calls (fun x hx => hc x (List.mem_cons_of_mem _ hx)) { d with states := st } h1 h2 hw
    exact ⟨d', by simp [FD.calls, e, e'], h'⟩

theorem options_unselected (cs : Bool) (kinds : List Kind) (rest : List Call) (hrest : ∀ c ∈ rest, Early c) : ∀ (os : List Opt), (∀ o ∈ os, o.number < 65536) →
    (∀ seg, FirstSegment os seg → ¬SomeAgrees cs kinds seg) →
    ∀ d, FDAsking kinds d → ∃ d', FD.calls cs kinds d (optCalls os ++ rest) = some d' ∧ d'.chosen = none
  | [], _, _, d, hd => by
    obtain ⟨d', e, h, -⟩ := asking_earlies cs kinds rest (fun c hc => Or.inl (hrest c hc)) d hd
    exact ⟨d', by simpa [optCalls] using e, h⟩
  | o :: os, hn, hs, d, hd => by
    by_cases ho : o.number ≠ 11 ∨ o.value = []
    · rw [optCalls_split, List.append_assoc, fdCalls_append]
      obtain ⟨d', e, hd'⟩ := asking_earlies cs kinds _ (pass_option cs kinds _ (hn _ List.mem_cons_self) ho) d hd
      rw [e]
      exact options_unselected cs kinds rest hrest os (fun o ho => hn o (List.mem_cons_of_mem _ ho)) (fun seg h => hs seg (.later ho h)) d' hd'
    · have h1 : o.number = 11 := by
        by_cases h' : o.number = 11
        · exact h'
        · exact absurd (Or.inl h') ho
      have h2 : o.value ≠ [] := fun h' => ho (Or.inr h')
      obtain ⟨a1, a2, a3⟩ := hd
      obtain ⟨st, ch, e, -, k1⟩ := uri_pass cs d.ctx a2 o.value true kinds kinds 0 d.states d.chosen (fun i k h => by simpa using h) a3
      obtain ⟨k2, k3⟩ := k1 (hs _ (.here h1 h2))
      rw [optCalls_cons, h1, if_neg h2]
      simp only [List.cons_append, List.nil_append, FD.calls, FD.call, a1, Option.bind_some, show UInt16.ofNat 11 = 11 from rfl]
      rw [a1] at e k2
      rw [e]
      simp only [Option.map_some, Option.bind_some]
      refine never_calls cs kinds _ ?_ _ k2 a2 k3
      intro c hc t l h
      subst h
      rcases List.mem_append.1 hc with hc | hc
      · rcases optCalls_kind os _ hc with ⟨_, _, h⟩ | ⟨_, _, _, h⟩ <;> cases h
      · exact hrest _ hc

/-- C54 (partial: nobody is selected): a request with a payload whose path selects no observer is handled without touching
a context that is gone. -/
theorem unselected_context_fine_partial (cs : Bool) (kinds : List Kind) (ctx : HCtx) (hctx : ctx.token.length = 8) (m : Msg) (hm : m.Ok)
    (hreq : m.code < 32) (p : List UInt8) (hp : m.payload = some p) (hseg : ∀ seg, FirstSegment m.opts seg → ¬SomeAgrees cs kinds seg)
    (ob : List UInt8) (hob : IsOpts 0 m.opts ob) (junk : Dec) (hj : junk.tbuf.length = 8) :
    ∃ N d' evs, (∀ fuel, N ≤ fuel → legacyChunks fuel (fresh junk) [] (wire m ob) = .ok (d', evs)) ∧
      ∃ d, FD.calls cs kinds (FD.init ctx kinds) (evs.map toCall) = some d ∧ d.chosen = none := by
  obtain ⟨N, d', h⟩ := legacy_one_buffer m hm ob hob junk hj
  refine ⟨N, d', _, h, ?_⟩
  obtain ⟨pre, e, he⟩ := opening_calls m hm hreq p hp
  rw [if_neg (by simp [hp]), e, fdCalls_append]
  have h0 : FDAsking kinds (FD.init ctx kinds) := ⟨rfl, hctx, init_waiting _ (by simp) kinds⟩
  obtain ⟨d1, e1, h1⟩ := asking_earlies cs kinds pre he _ h0
  rw [e1]
  exact options_unselected cs kinds _ (by simp [Early]) m.opts (optsOk_numbers m.opts 0 hm.2.2.2.2.2.1) hseg d1 h1

/-- C54, exactly when a request with a payload is handled without touching a context that is gone: when the first path segment, if there
is one, agrees with the name of no observer. -/
theorem context_gone_iff (cs : Bool) (kinds : List Kind) (ctx : HCtx) (hctx : ctx.token.length = 8) (m : Msg) (hm : m.Ok)
    (hreq : m.code < 32) (p : List UInt8) (hp : m.payload = some p) (ob : List UInt8) (hob : IsOpts 0 m.opts ob) (junk : Dec)
    (hj : junk.tbuf.length = 8) :
    ∃ N d' evs, (∀ fuel, N ≤ fuel → legacyChunks fuel (fresh junk) [] (wire m ob) = .ok (d', evs)) ∧
      (FD.calls cs kinds (FD.init ctx kinds) (evs.map toCall) = none ↔ ∃ seg, FirstSegment m.opts seg ∧ SomeAgrees cs kinds seg) := by
  by_cases h : ∃ seg, FirstSegment m.opts seg ∧ SomeAgrees cs kinds seg
  · obtain ⟨seg, h1, h2⟩ := h
    obtain ⟨N, d', evs, e1, e2⟩ := chosen_observer_context_gone cs kinds ctx hctx m hm hreq p hp seg h1 h2 ob hob junk hj
    exact ⟨N, d', evs, e1, by simp only [e2, true_iff]; exact ⟨seg, h1, h2⟩⟩
  · obtain ⟨N, d', evs, e1, d, e2, -⟩ := unselected_context_fine_partial cs kinds ctx hctx m hm hreq p hp (fun seg h1 h2 => h ⟨seg, h1, h2⟩)
      ob hob junk hj
    exact ⟨N, d', evs, e1, by simp [e2, h]⟩

/-- C54 fails already before that: whatever is called, the context that later handlers are made with is the one given to the
dispatcher in the beginning; header and token stored by a handler are lost. -/
theorem dispatcher_context_never_filled (cs : Bool) (kinds : List Kind) (ctx : HCtx) (calls : List Call) (d : FD)
    (h : FD.calls cs kinds (FD.init ctx kinds) calls = some d) : d.ctx = ctx := by
  have key : ∀ (calls : List Call) (d0 d : FD), FD.calls cs kinds d0 calls = some d → d.ctx = d0.ctx := by
    intro calls
    induction calls with
    | nil => intro d0 d h; simp only [FD.calls, Option.some.injEq] at h; rw [h]
    | cons c calls ih =>
      intro d0 d h
      simp only [FD.calls] at h
      cases hc : d0.call cs kinds c with
      | none => rw [hc] at h; simp at h
      | some d1 =>
        rw [hc] at h
        rw [ih d1 d h]
        have hall : ∀ d2, ((fdPass cs d0.ctx c kinds 0 d0.states d0.chosen).map fun r => { d0 with states := r.1, chosen := r.2 }) = some d2 →
            d2.ctx = d0.ctx := by
          intro d2 h2
          cases hp : fdPass cs d0.ctx c kinds 0 d0.states d0.chosen with
          | none => rw [hp] at h2; simp at h2
          | some r => rw [hp] at h2; simp only [Option.map_some, Option.some.injEq] at h2; rw [← h2]
        have hone : ∀ (i : Nat) (h0 : Handler) (d2 : FD), (match (kinds[i]? : Option Kind) with | none => (none : Option FD) | some k => (k.call cs h0 none c).map fun r => { d0 with chosen := some (i, r.1) }) = some d2 →
            d2.ctx = d0.ctx := by
          intro i h0 d2 h2
          split at h2
          · simp at h2
          · simp only [Option.map_eq_some_iff] at h2
            obtain ⟨r, -, rfl⟩ := h2
            rfl
        cases hch : d0.chosen with
        | none =>
          cases c <;> simp only [FD.call, hch] at hc <;> rw [hch] at hall <;>
            first | exact hall d1 hc | (simp only [Option.some.injEq] at hc; rw [hc])
        | some ih' =>
          obtain ⟨i, h0⟩ := ih'
          cases c <;> simp only [FD.call, hch] at hc <;> rw [hch] at hall <;>
            first | exact hall d1 hc | exact hone i h0 d1 hc
  exact key calls _ d h

-- a handler that stores header and token, and an observer for "a"
example : FD.calls true [.store, .answer [0x61]] (FD.init (HCtx.init [1, 2, 3, 4, 5, 6, 7, 8]) [.store, .answer [0x61]])
    [.header ⟨0x41, 1, 0, 7⟩, .token [0xAA] true, .optionHead 11 1, .option 11 [0x61] true] =
      some ⟨HCtx.init [1, 2, 3, 4, 5, 6, 7, 8], [some .currently, some .always], some (1, ⟨.always, []⟩)⟩ := by decide

example : FirstSegment askY.opts [0x61] ∧ SomeAgrees true [.store, .answer [0x61]] [0x61] :=
  ⟨.later (Or.inl (by decide)) (.here (o := ⟨11, [0x61]⟩) rfl (by decide)), [0x61], by simp,
    (startsWithUri_agree true _ _).1 (by decide)⟩

theorem store_other (cs : Bool) (h : Handler) (x : HCtx) : ∀ calls : List Call,
    (∀ c ∈ calls, (∀ hd, c ≠ .header hd) ∧ ∀ t l, c ≠ .token t l) → Kind.calls cs .store h (some x) calls = some (h, some x)
  | [], _ => rfl
  | c :: calls, hc => by
    have h1 := hc c List.mem_cons_self
    have : Kind.call cs .store h (some x) c = some (h, some x) := by
      cases c with
      | header hd => exact absurd rfl (h1.1 hd)
      | token t l => exact absurd rfl (h1.2 t l)
      | _ => rfl
    rw [Kind.calls, this]
    exact store_other cs h x calls fun c hc' => hc c (List.mem_cons_of_mem _ hc')

/-- The header an observer is told of. -/
def headerOf (m : Msg) : Header := ⟨UInt8.ofNat (64 * m.version + 16 * m.type + m.token.length), UInt8.ofNat m.code,
  UInt8.ofNat (m.mid / 256), UInt8.ofNat (m.mid % 256)⟩

/-- C54: the handler that stores header and token does so: told all of a message while its context exists, it leaves
there the header and the token of this message whatever was there before, and is done exactly when it has both: after
the header if there is no token, after the token otherwise. -/
theorem storing_handler_stores (cs : Bool) (m : Msg) (hm : m.Ok) (hv : 0 < m.version) (h : Handler) (junk : List UInt8)
    (hj : junk.length = 8) :
    (∃ x, Kind.calls cs .store h (some (HCtx.init junk)) ((owed m).map toCall) = some (h, some x) ∧ x.header = headerOf m ∧
      x.token.take x.header.tokenLength.toNat = m.token ∧ x.token.length = 8 ∧ Kind.interest .store h x = .never) ∧
    (Kind.interest .store h (HCtx.init junk) = .currently) ∧
    ∃ x, Kind.calls cs .store h (some (HCtx.init junk)) [.header (headerOf m)] = some (h, some x) ∧
      (Kind.interest .store h x = .never ↔ m.token = []) := by
  obtain ⟨h1, h2, h3, h4, h5, -, -⟩ := hm
  have htl : (headerOf m).tokenLength.toNat = m.token.length := by
    rw [Header.tokenLength, show (15 : UInt8) = 0x0F from rfl, tkl_toNat, headerOf]; simp; omega
  have hver : (headerOf m).version > 0 := by
    rw [gt_iff_lt, UInt8.lt_iff_toNat_lt, Header.version, headerOf]
    simp [Nat.shiftRight_eq_div_pow]; omega
  have hpos : ((headerOf m).tokenLength > 0) ↔ m.token ≠ [] := by
    rw [gt_iff_lt, UInt8.lt_iff_toNat_lt, htl, ← List.length_pos_iff]; simp
  have hcalls : ∃ rest, (owed m).map toCall = .header (headerOf m) :: ((if m.token = [] then [] else [.token m.token true]) ++ rest) ∧
      ∀ c ∈ rest, (∀ hd, c ≠ .header hd) ∧ ∀ t l, c ≠ .token t l := by
    refine ⟨optCalls m.opts ++ ((match m.payload with | none => [] | some p => [.payload p true]) ++ [.complete]), ?_, ?_⟩
    · by_cases ht : m.token = [] <;> cases hp : m.payload <;> simp [owed, owedHead, hp, optCalls, toCall, ht, headerOf]
    · intro c hc
      rcases List.mem_append.1 hc with hc | hc
      · rcases optCalls_kind _ c hc with ⟨_, _, rfl⟩ | ⟨_, _, _, rfl⟩ <;> simp
      · cases hp : m.payload <;> rw [hp] at hc <;> simp at hc <;> rcases hc with rfl | rfl <;> simp
  obtain ⟨rest, e, hr⟩ := hcalls
  refine ⟨?_, by simp [Kind.interest, HCtx.haveHeader, HCtx.init, Header.version], ?_⟩
  · rw [e]
    by_cases ht : m.token = []
    · refine ⟨⟨headerOf m, junk, false⟩, ?_, rfl, ?_, hj, ?_⟩
      · rw [if_pos ht, Kind.calls]
        simp only [Kind.call, Option.bind_some, HCtx.init, List.nil_append]
        exact store_other cs h _ rest hr
      · simp [htl, ht]
      · have := mt hpos.1 (by simp [ht])
        simp [Kind.interest, HCtx.haveHeader, hver, this]
    · refine ⟨⟨headerOf m, m.token ++ junk.drop m.token.length, true⟩, ?_, rfl, ?_, ?_, ?_⟩
      · rw [if_neg ht, Kind.calls]
        simp only [Kind.call, Option.bind_some, HCtx.init, List.cons_append, List.nil_append, Kind.calls, HCtx.setToken]
        rw [if_pos (by rw [hj]; exact h5)]
        simp only [Option.map_some, Option.bind_some]
        exact store_other cs h _ rest hr
      · simp [htl]
      · simp [hj]; omega
      · simp [Kind.interest, HCtx.haveHeader, hver]
  · refine ⟨⟨headerOf m, junk, false⟩, rfl, ?_⟩
    by_cases ht : m.token = []
    · have := mt hpos.1 (by simp [ht])
      simp [Kind.interest, HCtx.haveHeader, hver, this, ht]
    · simp [Kind.interest, HCtx.haveHeader, hver, hpos.2 ht, ht]

example : Kind.calls true .store Handler.new (some (HCtx.init [1, 2, 3, 4, 5, 6, 7, 8])) ((owed askY).map toCall) =
    some (Handler.new, some ⟨headerOf askY, askY.token ++ [1, 2, 3, 4, 5, 6, 7, 8].drop askY.token.length, decide (askY.token ≠ [])⟩) := by
  decide

end Verif.Props
