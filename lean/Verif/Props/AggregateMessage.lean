import Verif.Spec.AggregateMessage
import Verif.Props.Legacy

/-! # C70: aggregates of message observers; C71: aggregates of factories -/
namespace Verif.Props
open Verif.Model Verif.Spec Verif.Proofs Dec

variable {χ : Type}

theorem aggCall_head (os : List (MObs χ)) (a : AggCtx χ) (e : LEvent) :
    aggCall os a e = if isHead e then invokeAll os a e else a := by
  cases e <;> rfl

theorem invokeAll_used (os : List (MObs χ)) (a : AggCtx χ) (e : LEvent) :
    (invokeAll os a e).used = a.used + (os.map (·.size)).sum := by
  induction os generalizing a with
  | nil => rfl
  | cons o os ih =>
    have := ih (o.invoke a e)
    simp only [invokeAll, List.foldl_cons] at this ⊢
    rw [this]
    simp only [MObs.invoke, List.map_cons, List.sum_cons]
    omega

theorem tellAll_classes (ws : List (Living χ)) (x : χ) (e : LEvent) : (tellAll ws x e).1.map (·.1) = ws.map (·.1) := by
  induction ws generalizing x with
  | nil => rfl
  | cons w ws ih => simp [tellAll, ih]

theorem invokeAll_together (ws : List (Living χ)) (h : ∀ w ∈ ws, Forgetful w.1) (a : AggCtx χ) (e : LEvent) :
    (invokeAll (ws.map (·.1)) a e).ctx = (tellAll ws a.ctx e).2 := by
  induction ws generalizing a with
  | nil => rfl
  | cons w ws ih =>
    have := ih (fun w hw => h w (by simp [hw])) (w.1.invoke a e)
    simp only [invokeAll, List.map_cons, List.foldl_cons, tellAll] at this ⊢
    rw [this]
    simp only [MObs.invoke, h w (by simp) a.ctx (w.1.fresh a.used) w.2 e]

theorem tellAll_quiet (ws : List (Living χ)) (h : ∀ w ∈ ws, HeadOnly w.1) (x : χ) (e : LEvent) (he : isHead e = false) :
    (tellAll ws x e).2 = x := by
  induction ws generalizing x with
  | nil => rfl
  | cons w ws ih =>
    simp only [tellAll]
    rw [ih (fun w hw => h w (by simp [hw])), h w (by simp) x w.2 e he]

/-- C70, for any calls: observers that keep nothing and need neither payload nor completion do in an aggregate what they
do together. -/
theorem aggregate_run_together (ws : List (Living χ)) (hf : ∀ w ∈ ws, Forgetful w.1) (hh : ∀ w ∈ ws, HeadOnly w.1)
    (a : AggCtx χ) (es : List LEvent) :
    (aggRun (ws.map (·.1)) a es).ctx = (together ws a.ctx es).2 := by
  induction es generalizing ws a with
  | nil => rfl
  | cons e es ih =>
    have hc := tellAll_classes ws a.ctx e
    have hm : ∀ (P : MObs χ → Prop), (∀ w ∈ ws, P w.1) → ∀ w ∈ (tellAll ws a.ctx e).1, P w.1 := by
      intro P hP w hw
      have : w.1 ∈ (tellAll ws a.ctx e).1.map (·.1) := List.mem_map_of_mem hw
      rw [hc] at this
      obtain ⟨v, hv, hvw⟩ := List.mem_map.1 this
      rw [← hvw]
      exact hP v hv
    have := ih (tellAll ws a.ctx e).1 (hm _ hf) (hm _ hh) (aggCall (ws.map (·.1)) a e)
    rw [hc] at this
    simp only [aggRun, List.foldl_cons, together] at this ⊢
    rw [this]
    congr 2
    rw [aggCall_head]
    split
    · exact invokeAll_together ws hf a e
    · exact (tellAll_quiet ws hh a.ctx e (by simp_all)).symm

/-- C70: what the calls do is independent of the payload and of completion, which no observer is told. -/
theorem aggregate_untold (os : List (MObs χ)) (a : AggCtx χ) (es : List LEvent) :
    aggRun os a es = aggRun os a (es.filter isHead) := by
  induction es generalizing a with
  | nil => rfl
  | cons e es ih =>
    simp only [aggRun, List.foldl_cons, List.filter_cons] at ih ⊢
    rw [aggCall_head]
    split
    · rename_i h
      simp only [h, if_true, List.foldl_cons, aggCall_head]
      exact ih _
    · exact ih a

/-- C70: a call does what it does to a new object, whatever the object told before it was. -/
theorem aggregate_new_object (o : MObs χ) (a : AggCtx χ) (es : List LEvent) (e : LEvent) (he : isHead e = true) :
    (aggRun [o] a (es ++ [e])).ctx = (o.call (aggRun [o] a es).ctx (o.fresh (aggRun [o] a es).used) e).1 := by
  simp only [aggRun, List.foldl_append, List.foldl_cons, List.foldl_nil, aggCall_head, he, if_true, invokeAll, MObs.invoke]

/-- The memory taken by any calls. -/
theorem aggregate_used (os : List (MObs χ)) (a : AggCtx χ) (es : List LEvent) :
    (aggRun os a es).used = a.used + (es.filter isHead).length * (os.map (·.size)).sum := by
  induction es generalizing a with
  | nil => simp [aggRun]
  | cons e es ih =>
    have := ih (aggCall os a e)
    simp only [aggRun, List.foldl_cons] at this ⊢
    rw [this, aggCall_head]
    cases h : isHead e
    · simp [h]
    · simp only [if_true, List.filter_cons, h, List.length_cons, invokeAll_used, Nat.add_mul]
      omega

theorem owedHead_head (m : Msg) : (owedHead m).filter isHead = owedHead m := by
  rw [List.filter_eq_self]
  intro e he
  simp only [owedHead, owedOption, List.mem_cons, List.mem_append, List.mem_flatMap] at he
  rcases he with rfl | he | ⟨o, -, rfl | he⟩
  · rfl
  · split at he
    · simp at he
    · simp only [List.mem_singleton] at he; subst he; rfl
  · rfl
  · split at he
    · simp at he
    · simp only [List.mem_singleton] at he; subst he; rfl

theorem owed_head (m : Msg) : (owed m).filter isHead = owedHead m := by
  simp only [owed, List.filter_append, owedHead_head]
  cases m.payload <;> simp [isHead]

/-- What a message does to an aggregate. -/
theorem aggregate_message (m : Msg) (hm : m.Ok) (hp : m.payload ≠ none) (ob : List UInt8) (hob : IsOpts 0 m.opts ob)
    (junk : Dec) (hj : junk.tbuf.length = 8) (os : List (MObs χ)) (a : AggCtx χ) :
    ∃ N d', ∀ fuel, N ≤ fuel → aggDispatch fuel (fresh junk) os a [] (wire m ob) = .ok (d', aggRun os a (owedHead m)) := by
  obtain ⟨N, d', h⟩ := legacy_one_buffer m hm ob hob junk hj
  refine ⟨N, d', fun fuel hf => ?_⟩
  simp only [aggDispatch, h fuel hf, if_neg hp]
  rw [aggregate_untold, owed_head]

/-- C70 (partial: observers that keep nothing and need neither payload nor completion, and messages with a payload, in one
buffer): the observers of an aggregate do with a well-formed message what they do together, each told everything in order,
whatever their members held.  Missing: all other observers, for which the property is false (see below). -/
theorem aggregate_together_partial (m : Msg) (hm : m.Ok) (hp : m.payload ≠ none) (ob : List UInt8)
    (hob : IsOpts 0 m.opts ob) (junk : Dec) (hj : junk.tbuf.length = 8) (ws : List (Living χ))
    (hf : ∀ w ∈ ws, Forgetful w.1) (hh : ∀ w ∈ ws, HeadOnly w.1) (a : AggCtx χ) :
    ∃ N d' a', a'.ctx = (together ws a.ctx (owed m)).2 ∧
      ∀ fuel, N ≤ fuel → aggDispatch fuel (fresh junk) (ws.map (·.1)) a [] (wire m ob) = .ok (d', a') := by
  obtain ⟨N, d', h⟩ := aggregate_message m hm hp ob hob junk hj (ws.map (·.1)) a
  refine ⟨N, d', _, ?_, h⟩
  rw [← aggregate_run_together ws hf hh a (owed m), aggregate_untold _ _ (owed m), owed_head]

/-- An observer that writes down the numbers of the options, and one that writes down the token. -/
def noteNumbers : MObs (List UInt8) :=
  ⟨Unit, fun _ => (), fun x _ e => (match e with | .option n _ => x ++ [n.toUInt8] | _ => x, ()), 4⟩

def noteToken : MObs (List UInt8) :=
  ⟨Unit, fun _ => (), fun x _ e => (match e with | .token t _ => x ++ t | _ => x, ()), 4⟩

-- the hypotheses hold for two observers, and both are told
example : (∀ w ∈ ([⟨noteNumbers, ()⟩, ⟨noteToken, ()⟩] : List (Living (List UInt8))), Forgetful w.1 ∧ HeadOnly w.1) ∧
    (together [⟨noteNumbers, ()⟩, ⟨noteToken, ()⟩] [] (owed ⟨1, 0, 1, 7, [0xAA], [⟨11, [0x61]⟩], some [1]⟩)).2 = [0xAA, 11] ∧
    (aggRun [noteNumbers, noteToken] ⟨[], 0⟩ (owed ⟨1, 0, 1, 7, [0xAA], [⟨11, [0x61]⟩], some [1]⟩)).ctx = [0xAA, 11] := by
  refine ⟨?_, by decide, by decide⟩
  intro w hw
  simp only [List.mem_cons, List.not_mem_nil, or_false] at hw
  rcases hw with rfl | rfl
  · refine ⟨fun x s t e => rfl, fun x s e he => ?_⟩
    cases e <;> simp_all [isHead, noteNumbers]
  · refine ⟨fun x s t e => rfl, fun x s e he => ?_⟩
    cases e <;> simp_all [isHead, noteToken]

/-- An observer that puts the payload into the context. -/
def takePayload : MObs (List UInt8) :=
  ⟨Unit, fun _ => (), fun x _ e => (match e with | .payload p _ => x ++ p | _ => x, ()), 4⟩

theorem together_append (ws : List (Living χ)) (x : χ) (as bs : List LEvent) :
    together ws x (as ++ bs) = together (together ws x as).1 (together ws x as).2 bs := by
  induction as generalizing ws x with
  | nil => rfl
  | cons e as ih => simp only [List.cons_append, together, ih]

theorem takePayload_head (es : List LEvent) (h : es.filter isHead = es) (x : List UInt8) :
    together [⟨takePayload, ()⟩] x es = ([⟨takePayload, ()⟩], x) := by
  induction es with
  | nil => rfl
  | cons e es ih =>
    rw [List.filter_eq_self] at h ih
    have he := h e (by simp)
    have ih := ih (fun e h' => h e (by simp [h']))
    cases e <;> first | (simp [isHead] at he; done) | exact ih

/-- C70 is false for observers of the payload: for every message with a payload, the observer by itself gets the payload and
in an aggregate gets nothing. -/
theorem aggregate_loses_payload (m : Msg) (hm : m.Ok) (p : List UInt8) (hp : m.payload = some p) (ob : List UInt8)
    (hob : IsOpts 0 m.opts ob) (junk : Dec) (hj : junk.tbuf.length = 8) (x : List UInt8) (used : Nat) :
    (together [⟨takePayload, ()⟩] x (owed m)).2 = x ++ p ∧ p ≠ [] ∧
    ∃ N d' a', a'.ctx = x ∧
      ∀ fuel, N ≤ fuel → aggDispatch fuel (fresh junk) [takePayload] ⟨x, used⟩ [] (wire m ob) = .ok (d', a') := by
  refine ⟨?_, ?_, ?_⟩
  · rw [owed, List.append_assoc, together_append, takePayload_head _ (owedHead_head m), hp]
    rfl
  · have := hm.2.2.2.2.2.2
    simp_all
  · obtain ⟨N, d', h⟩ := aggregate_message m hm (by simp [hp]) ob hob junk hj [takePayload] ⟨x, used⟩
    refine ⟨N, d', _, ?_, h⟩
    generalize owedHead m = es
    generalize used = u
    induction es generalizing u with
    | nil => rfl
    | cons e es ih =>
      simp only [aggRun, List.foldl_cons] at ih ⊢
      cases e
      case payload => exact ih u
      case complete => exact ih u
      all_goals exact ih (u + 4)

/-- An observer that counts the options it is told of, and writes each count into the context. -/
def countOptions : MObs (List Nat) :=
  ⟨Nat, fun _ => 0, fun x n e => match e with | .option _ _ => (x ++ [n], n + 1) | _ => (x, n), 4⟩

theorem countOptions_together (es : List LEvent) (x : List Nat) (n : Nat) :
    (together [⟨countOptions, n⟩] x es).2 =
      x ++ List.range' n (es.filter fun e => match e with | .option _ _ => true | _ => false).length := by
  induction es generalizing x n with
  | nil => simp [together]
  | cons e es ih =>
    cases e <;> simp only [together, tellAll, countOptions, List.filter_cons, if_true, Bool.false_eq_true, if_false]
      <;> first | exact ih _ _ | skip
    refine (ih (x ++ [n]) (n + 1)).trans ?_
    simp [List.range'_succ]

theorem countOptions_aggregate (es : List LEvent) (x : List Nat) (u : Nat) :
    (aggRun [countOptions] ⟨x, u⟩ es).ctx =
      x ++ List.replicate (es.filter fun e => match e with | .option _ _ => true | _ => false).length 0 := by
  induction es generalizing x u with
  | nil => simp [aggRun]
  | cons e es ih =>
    simp only [aggRun, List.foldl_cons] at ih ⊢
    cases e <;> simp only [List.filter_cons, if_true, Bool.false_eq_true, if_false]
    case option =>
      refine (ih (x ++ [0]) (u + 4)).trans ?_
      simp [List.replicate_succ]
    case payload => exact ih x u
    case complete => exact ih x u
    all_goals exact ih x (u + 4)

theorem owedHead_options (m : Msg) :
    ((owedHead m).filter fun e => match e with | .option _ _ => true | _ => false).length = m.opts.length := by
  have : ∀ os : List Opt, ((os.flatMap owedOption).filter fun e => match e with | .option _ _ => true | _ => false).length =
      os.length := by
    intro os
    induction os with
    | nil => rfl
    | cons o os ih =>
      rw [List.flatMap_cons, List.filter_append, List.length_append, ih, owedOption]
      split <;> simp <;> omega
  simp only [owedHead, List.filter_cons, Bool.false_eq_true, if_false, List.filter_append, List.length_append, this]
  split <;> simp

theorem owed_options (m : Msg) :
    ((owed m).filter fun e => match e with | .option _ _ => true | _ => false).length = m.opts.length := by
  simp only [owed, List.filter_append, List.length_append, owedHead_options]
  cases m.payload <;> simp

/-- C70 is false for observers that remember: for every message with a payload, an observer that counts the options by
itself counts them, and in an aggregate takes every one for the first.  So the two differ for every message with two
options. -/
theorem aggregate_forgets (m : Msg) (hm : m.Ok) (hp : m.payload ≠ none) (ob : List UInt8)
    (hob : IsOpts 0 m.opts ob) (junk : Dec) (hj : junk.tbuf.length = 8) (used : Nat) :
    (together [⟨countOptions, (0 : Nat)⟩] [] (owed m)).2 = List.range m.opts.length ∧
    ∃ N d' a', a'.ctx = List.replicate m.opts.length 0 ∧
      ∀ fuel, N ≤ fuel → aggDispatch fuel (fresh junk) [countOptions] ⟨[], used⟩ [] (wire m ob) = .ok (d', a') := by
  refine ⟨?_, ?_⟩
  · rw [countOptions_together, owed_options, List.nil_append, List.range_eq_range']
  · obtain ⟨N, d', h⟩ := aggregate_message m hm hp ob hob junk hj [countOptions] ⟨[], used⟩
    exact ⟨N, d', _, by rw [countOptions_aggregate, owedHead_options, List.nil_append], h⟩

example : (⟨1, 0, 1, 7, [0xAA], [⟨11, [0x61]⟩, ⟨11, []⟩], some [1, 2, 3]⟩ : Msg).Ok := by decide

/-- A message dispatched again and again, each time by a new decoder. -/
def aggRepeat (os : List (MObs χ)) (m : Msg) : Nat → AggCtx χ → AggCtx χ
  | 0, a => a
  | n + 1, a => aggRepeat os m n (aggRun os a (owedHead m))

/-- C70: the memory an aggregate takes is never given back: every message takes the size of all observers once for its
header, and again for its token and for each announcement and value of an option. -/
theorem aggregate_memory (m : Msg) (hm : m.Ok) (hp : m.payload ≠ none) (ob : List UInt8) (hob : IsOpts 0 m.opts ob)
    (junk : Dec) (hj : junk.tbuf.length = 8) (os : List (MObs χ)) (a : AggCtx χ) :
    ∃ N d' a', a'.used = a.used + (1 + (if m.token = [] then 0 else 1) + m.opts.length +
        (m.opts.filter fun o => o.value ≠ []).length) * (os.map (·.size)).sum ∧
      ∀ fuel, N ≤ fuel → aggDispatch fuel (fresh junk) os a [] (wire m ob) = .ok (d', a') := by
  obtain ⟨N, d', h⟩ := aggregate_message m hm hp ob hob junk hj os a
  refine ⟨N, d', _, ?_, h⟩
  rw [aggregate_used, owedHead_head]
  congr 2
  have : ∀ os : List Opt, (os.flatMap owedOption).length = os.length + (os.filter fun o => o.value ≠ []).length := by
    intro os
    induction os with
    | nil => rfl
    | cons o os ih =>
      rw [List.flatMap_cons, List.length_append, ih, owedOption, List.filter_cons]
      by_cases hv : o.value = [] <;> simp [hv] <;> omega
  simp only [owedHead, List.length_cons, List.length_append, this]
  split <;> simp <;> omega

/-- C70: so any object stack is used up by enough messages, unless all observers have no size. -/
theorem aggregate_exhausts (m : Msg) (os : List (MObs χ)) (hs : 0 < (os.map (·.size)).sum) (room : Nat) (a : AggCtx χ) :
    room < (aggRepeat os m (room + 1) a).used := by
  have : ∀ n a, n + a.used ≤ (aggRepeat os m n a).used := by
    intro n
    induction n with
    | zero => intro a; simp [aggRepeat]
    | succ n ih =>
      intro a
      have := ih (aggRun os a (owedHead m))
      rw [aggregate_used, owedHead_head] at this
      have h1 : 1 ≤ (owedHead m).length := by simp [owedHead]
      have := Nat.mul_le_mul h1 hs
      simp only [aggRepeat]
      omega
  have := this (room + 1) a
  omega

/-! ## Factories -/

variable {κ ω : Type}

/-- C71: made is one object by each factory that can, the last factory first. -/
theorem aggregator_makes (key : κ) (fs : List (AFactory κ ω)) :
    (aggregatorCreate key fs).2 = (fs.reverse.filter (canMake · key)).map (makes · key) := by
  simp only [aggregatorCreate]
  generalize fs.reverse = gs
  induction gs with
  | nil => rfl
  | cons f gs ih =>
    simp only [createHelper, ih, AFactory.ask, List.filter_cons, canMake]
    split <;> simp [makes]

/-- C71, exactly: one object is made precisely if one factory can make it. -/
theorem aggregator_one_iff (key : κ) (fs : List (AFactory κ ω)) :
    (aggregatorCreate key fs).2.length = 1 ↔ (fs.filter (canMake · key)).length = 1 := by
  rw [aggregator_makes, List.length_map, List.filter_reverse, List.length_reverse]

/-- C71 (partial: keys that exactly one factory can make): exactly that object is made. -/
theorem aggregator_exact_partial (key : κ) (as bs : List (AFactory κ ω)) (f : AFactory κ ω)
    (hf : canMake f key = true) (ho : ∀ g ∈ as ++ bs, canMake g key = false) :
    (aggregatorCreate key (as ++ f :: bs)).2 = [makes f key] := by
  rw [aggregator_makes]
  have h1 : bs.reverse.filter (canMake · key) = [] := by
    rw [List.filter_eq_nil_iff]; intro g hg; simp [ho g (by simp at hg; simp [hg])]
  have h2 : as.reverse.filter (canMake · key) = [] := by
    rw [List.filter_eq_nil_iff]; intro g hg; simp [ho g (by simp at hg; simp [hg])]
  simp [h1, h2, hf]

/-- C71: every factory is asked exactly once, keeps its place, and makes something only if it can. -/
theorem aggregator_asks (key : κ) (fs : List (AFactory κ ω)) :
    (aggregatorCreate key fs).1 = fs.map (asked · key) := by
  have : ∀ gs : List (AFactory κ ω), (createHelper key gs).1 = gs.map (asked · key) := by
    intro gs
    induction gs with
    | nil => rfl
    | cons f gs ih =>
      simp only [createHelper, ih, AFactory.ask, List.map_cons, asked]
      rcases h : f.canCreate f.state key with ⟨s, b⟩
      cases b <;> simp
  simp only [aggregatorCreate, this, List.map_reverse, List.reverse_reverse]

/-- The factory of the unit test: it can make what it is for, and counts what it makes. -/
def keyFactory (k : Nat) (name : String) : AFactory Nat String :=
  ⟨Nat, 0, fun n key => (n, key == k), fun n _ => (n + 1, name)⟩

/-- C71 is false when two factories can: both objects are made, so the first match is not the only one. -/
theorem aggregator_both :
    (aggregatorCreate 1 [keyFactory 1 "a", keyFactory 2 "b", keyFactory 1 "c"]).2 = ["c", "a"] := by decide

example : (aggregatorCreate 2 [keyFactory 1 "a", keyFactory 2 "b", keyFactory 1 "c"]).2 = ["b"] := by decide

end Verif.Props
