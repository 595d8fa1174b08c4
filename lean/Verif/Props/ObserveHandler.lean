import Verif.Model.ObserveHandler
import Verif.Spec.ObserveHandler
import Verif.Props.Legacy

/-! # C67: the message observer for observation -/
namespace Verif.Props
open Verif.Model Verif.Spec Verif.Proofs Dec ObserveHandler

/-- Whether the handler stands at "always interested" behind the options of a message. -/
def awake (h : ObserveHandler) (m : Msg) : Bool :=
  match lastObserve m with
  | some b => b == 0 || b == 1
  | none => h.interest == .always

theorem handle_append (token : List UInt8) (a b : List LEvent) (h : ObserveHandler) :
    handle token h (a ++ b) =
      match handle token h a with
      | .error e => .error e
      | .ok h => handle token h b := by
  induction a generalizing h with
  | nil => rfl
  | cons e a ih =>
    cases e <;> simp only [List.cons_append, handle, ih]
    split <;> simp only [ih]

theorem observeOptions_cons (m : Msg) (o : Opt) (os : List Opt) :
    observeOptions { m with opts := o :: os } =
      if o.number = 6 then o.value :: observeOptions { m with opts := os } else observeOptions { m with opts := os } := by
  simp only [observeOptions, List.filter_cons]
  split <;> simp_all

/-- The options of a message, one call after the other. -/
theorem handle_options (token : List UInt8) (m : Msg) (os : List Opt) (h : ObserveHandler) (hos : ∀ o ∈ os, o.number < 65536) :
    ∃ i, handle token h (os.flatMap owedOption) = .ok { h with interest := i } ∧ (i == .always) = awake h { m with opts := os } := by
  induction os generalizing h with
  | nil => exact ⟨h.interest, rfl, rfl⟩
  | cons o os ih =>
    have hn := hos o (by simp)
    have key : ∃ i, handle token h (owedOption o) = .ok { h with interest := i } ∧
        (i == .always) = (if o.number = 6 then (match o.value with | [] => h.interest == .always | b :: _ => b == 0 || b == 1)
          else h.interest == .always) := by
      obtain ⟨n, v⟩ := o
      simp only at hn
      have hb : ∀ k, k < 65536 → (UInt16.ofNat n == UInt16.ofNat k) = decide (n = k) := by
        intro k hk
        by_cases h : n = k
        · simp [h]
        · have : UInt16.ofNat n ≠ UInt16.ofNat k := by
            intro hc
            have := congrArg UInt16.toNat hc
            simp at this
            omega
          simp [h, this]
      have h6 := hb 6 (by omega)
      have h11 := hb 11 (by omega)
      simp only [owedOption]
      cases v with
      | nil => exact ⟨h.interest, by simp [handle], by simp⟩
      | cons b v =>
        simp only [reduceCtorEq, if_false, handle, onValue]
        by_cases e6 : n = 6
        · subst e6
          refine ⟨if b == 0 || b == 1 then .always else .never, by simp, ?_⟩
          simp only [if_true]
          cases hb : (b == 0 || b == 1) <;> simp
        · have e6' : (UInt16.ofNat n == 6) = false := by
            have := h6; simp only [e6, decide_false] at this; exact this
          by_cases e11 : n = 11
          · subst e11
            refine ⟨if h.interest == .always then .always else .never, by simp, ?_⟩
            simp only [if_neg e6]
            cases hb : (h.interest == .always) <;> simp
          · have e11' : (UInt16.ofNat n == 11) = false := by
              have := h11; simp only [e11, decide_false] at this; exact this
            exact ⟨h.interest, by simp [e6', e11'], by simp [e6]⟩
    obtain ⟨i, e, hi⟩ := key
    obtain ⟨j, e2, hj⟩ := ih { h with interest := i } (fun o ho => hos o (by simp [ho]))
    refine ⟨j, by rw [List.flatMap_cons, handle_append, e]; exact e2, ?_⟩
    rw [hj]
    unfold awake lastObserve
    rw [observeOptions_cons]
    by_cases e6 : o.number = 6
    · rw [if_pos e6]
      rw [if_pos e6] at hi
      cases hv : o.value with
      | nil => rw [hv] at hi; simp [hi]
      | cons b v =>
        rw [hv] at hi
        simp only [List.filterMap_cons, List.head?_cons, List.getLast?_cons]
        cases hl : ((observeOptions { m with opts := os }).filterMap (·.head?)).getLast? with
        | none => simp [hi]
        | some x => simp
    · rw [if_neg e6]
      rw [if_neg e6] at hi
      simp [hi]

theorem optsOk_lt {p : Nat} {os : List Opt} (h : OptsOk p os) : ∀ o ∈ os, o.number < 65536 := by
  induction os generalizing p with
  | nil => simp
  | cons o os ih =>
    intro x hx
    rcases List.mem_cons.1 hx with rfl | hx
    · exact h.2.1
    · exact ih h.2.2.2 x hx

/-- All calls owed for a message. -/
theorem handle_owed (token : List UInt8) (m : Msg) (hm : m.Ok) (h : ObserveHandler) :
    ∃ i, (i == .always) = awake h m ∧
      handle token h (owed m) = .ok ⟨i, h.isRegistering, if awake h m && h.isRegistering then token :: h.sessions else h.sessions⟩ := by
  obtain ⟨i, e, hi⟩ := handle_options token m m.opts h (optsOk_lt hm.2.2.2.2.2.1)
  have hi' : (i == .always) = awake h m := hi
  refine ⟨i, hi', ?_⟩
  have ht : handle token h (if m.token = [] then [] else [.token m.token true]) = .ok h := by split <;> rfl
  have e1 : handle token h (owedHead m) = .ok { h with interest := i } := by
    simp only [owedHead, handle, handle_append, ht, e]
  unfold owed
  rw [List.append_assoc, handle_append, e1]
  cases m.payload <;> simp only [handle, List.nil_append, List.cons_append, onComplete, hi'] <;>
    cases ha : (awake h m && h.isRegistering) <;> simp

/-- C67, exactly what happens: for every message with a payload in one buffer, the token is registered if the last
Observe option with a value begins with 0 or 1 - or there is none and the handler was awake - and memory held "true"
where the handler keeps its flag.  Nothing is ever taken back. -/
theorem observe_handler_effect (m : Msg) (hm : m.Ok) (ob : List UInt8) (hob : IsOpts 0 m.opts ob) (junk : Dec)
    (hj : junk.tbuf.length = 8) (hp : m.payload ≠ none) (token : List UInt8) (h : ObserveHandler) :
    ∃ N d' i, (i == .always) = awake h m ∧ ∀ fuel, N ≤ fuel → dispatch fuel (fresh junk) token h [] (wire m ob) =
      .ok (d', ⟨i, h.isRegistering, if awake h m && h.isRegistering then token :: h.sessions else h.sessions⟩) := by
  obtain ⟨N, d', e⟩ := legacy_one_buffer m hm ob hob junk hj
  obtain ⟨i, hi, e2⟩ := handle_owed token m hm h
  refine ⟨N, d', i, hi, fun fuel hf => ?_⟩
  have := e fuel hf
  rw [if_neg hp] at this
  simp only [dispatch, this, e2]

/-- C67 (partial: the request has a payload, memory happens to hold "true" and nothing that makes the handler awake,
0 is sent as a byte, and the token is not registered yet): a request with Observe 0 registers, one without Observe
changes nothing. -/
theorem observe_handler_registers_partial (m : Msg) (hm : m.Ok) (ob : List UInt8) (hob : IsOpts 0 m.opts ob) (junk : Dec)
    (hj : junk.tbuf.length = 8) (hp : m.payload ≠ none) (token : List UInt8) (i : Interest) (hi : i ≠ .always)
    (sessions : List (List UInt8)) (hs : token ∉ sessions) (ho : observeOptions m = [[0]] ∨ observeOptions m = []) :
    ∃ N d' i', ∀ fuel, N ≤ fuel → dispatch fuel (fresh junk) token ⟨i, true, sessions⟩ [] (wire m ob) =
      .ok (d', ⟨i', true, observeWanted m token sessions⟩) := by
  obtain ⟨N, d', i', -, e⟩ := observe_handler_effect m hm ob hob junk hj hp token ⟨i, true, sessions⟩
  refine ⟨N, d', i', fun fuel hf => ?_⟩
  rw [e fuel hf]
  rcases ho with ho | ho
  · have : sessions.filter (fun x => decide (x ≠ token)) = sessions :=
      List.filter_eq_self.2 fun x hx => by
        have : x ≠ token := fun h => hs (h ▸ hx)
        simpa using this
    simp only [awake, lastObserve, observeWanted, ho]
    simp only [beValue, this]
    simp
  · simp [awake, lastObserve, observeWanted, ho, hi]

/-- C67 fails for a request that comes again, a retransmission for example: the token is registered a second time. -/
theorem observe_handler_registers_again (m : Msg) (hm : m.Ok) (ob : List UInt8) (hob : IsOpts 0 m.opts ob) (junk : Dec)
    (hj : junk.tbuf.length = 8) (hp : m.payload ≠ none) (token : List UInt8) (i : Interest)
    (sessions : List (List UInt8)) (hs : token ∈ sessions) (ho : observeOptions m = [[0]]) :
    ∃ N d' i', (∀ fuel, N ≤ fuel → dispatch fuel (fresh junk) token ⟨i, true, sessions⟩ [] (wire m ob) =
      .ok (d', ⟨i', true, token :: sessions⟩)) ∧ token :: sessions ≠ observeWanted m token sessions := by
  obtain ⟨N, d', i', -, e⟩ := observe_handler_effect m hm ob hob junk hj hp token ⟨i, true, sessions⟩
  refine ⟨N, d', i', fun fuel hf => ?_, ?_⟩
  · rw [e fuel hf]
    simp [awake, lastObserve, ho]
  · intro h
    have h2 : token ∈ sessions.filter (fun x => decide (x ≠ token)) := by
      have : sessions = sessions.filter (fun x => decide (x ≠ token)) := by
        simp only [observeWanted, ho] at h
        simpa [beValue] using h
      exact this ▸ hs
    simp at h2

/-- C67 fails for taking back: a request with Observe 1 does what one with Observe 0 does. -/
theorem observe_handler_end_registers (m : Msg) (hm : m.Ok) (ob : List UInt8) (hob : IsOpts 0 m.opts ob) (junk : Dec)
    (hj : junk.tbuf.length = 8) (hp : m.payload ≠ none) (token : List UInt8) (i : Interest) (sessions : List (List UInt8))
    (ho : observeOptions m = [[1]]) :
    ∃ N d' i', (∀ fuel, N ≤ fuel → dispatch fuel (fresh junk) token ⟨i, true, sessions⟩ [] (wire m ob) =
      .ok (d', ⟨i', true, token :: sessions⟩)) ∧ token :: sessions ≠ observeWanted m token sessions := by
  obtain ⟨N, d', i', -, e⟩ := observe_handler_effect m hm ob hob junk hj hp token ⟨i, true, sessions⟩
  refine ⟨N, d', i', fun fuel hf => ?_, ?_⟩
  · rw [e fuel hf]
    simp [awake, lastObserve, ho]
  · intro h
    simp only [observeWanted, ho, beValue] at h
    have := congrArg List.length h
    have h2 := List.length_filter_le (fun x => decide (x ≠ token)) sessions
    simp at this h2
    omega

/-- C67 fails for the shortest form of 0, which is what RFC 7252 section 3.2 asks a client to send: an Observe option
without a value is not seen. -/
theorem observe_handler_empty_unseen (m : Msg) (hm : m.Ok) (ob : List UInt8) (hob : IsOpts 0 m.opts ob) (junk : Dec)
    (hj : junk.tbuf.length = 8) (hp : m.payload ≠ none) (token : List UInt8) (h : ObserveHandler) (hi : h.interest ≠ .always)
    (ho : observeOptions m = [[]]) :
    ∃ N d' i, (∀ fuel, N ≤ fuel → dispatch fuel (fresh junk) token h [] (wire m ob) =
      .ok (d', ⟨i, h.isRegistering, h.sessions⟩)) ∧ token ∈ observeWanted m token h.sessions := by
  obtain ⟨N, d', i, -, e⟩ := observe_handler_effect m hm ob hob junk hj hp token h
  refine ⟨N, d', i, fun fuel hf => ?_, by simp [observeWanted, ho, beValue]⟩
  rw [e fuel hf]
  simp [awake, lastObserve, ho, hi]

theorem handle_quiet (token : List UInt8) (es : List LEvent) (h h' : ObserveHandler)
    (hq : LEvent.complete ∉ es ∨ h.isRegistering = false) (e : handle token h es = .ok h') : h'.sessions = h.sessions := by
  induction es generalizing h with
  | nil => simp only [handle, Except.ok.injEq] at e; rw [e]
  | cons x es ih =>
    have hq' : LEvent.complete ∉ es ∨ h.isRegistering = false := by
      rcases hq with hq | hq
      · left; exact fun hx => hq (by simp [hx])
      · right; exact hq
    cases x <;> simp only [handle] at e
    case value number chunk last =>
      split at e
      · cases e
      · rename_i h1 e1
        have : h1.sessions = h.sessions ∧ h1.isRegistering = h.isRegistering := by
          unfold onValue at e1
          repeat' split at e1
          all_goals first
            | (cases e1; done)
            | (cases e1; exact ⟨rfl, rfl⟩)
        rw [ih h1 (by rw [this.2]; exact hq') e, this.1]
    case complete =>
      rcases hq with hq | hq
      · simp at hq
      · have : h.onComplete token = h := by simp [onComplete, hq]
        rw [this] at e
        exact ih h hq' e
    all_goals exact ih h hq' e

/-- C67 fails for every request without a payload - which is what a request to observe is -, in whatever buffers it
comes: the registrations stay as they were. -/
theorem observe_handler_get_ignored (m : Msg) (hm : m.Ok) (ob : List UInt8) (hob : IsOpts 0 m.opts ob) (junk : Dec)
    (hj : junk.tbuf.length = 8) (hp : m.payload = none) (cs : List (List UInt8)) (l : List UInt8) (hw : cs.flatten ++ l = wire m ob)
    (hl : l ≠ []) (token : List UInt8) (h : ObserveHandler) :
    ∃ N, ∀ fuel, N ≤ fuel → ∀ d' h', dispatch fuel (fresh junk) token h cs l = .ok (d', h') → h'.sessions = h.sessions := by
  obtain ⟨N, d1, evs, h1, -, h3⟩ := legacy_no_payload_incomplete m hm ob hob junk hj hp cs l hw hl
  refine ⟨N, fun fuel hf d' h' e => ?_⟩
  simp only [dispatch, h1 fuel hf] at e
  split at e
  · cases e
  · rename_i h2 e2
    simp only [Except.ok.injEq, Prod.mk.injEq] at e
    obtain ⟨-, rfl⟩ := e
    exact handle_quiet token evs h _ (Or.inl h3) e2

/-- C67 fails for every request if memory happens to hold "false" where the handler keeps its flag: nothing is ever
registered, whatever is received in whatever buffers. -/
theorem observe_handler_memory_decides (fuel : Nat) (d : Dec) (cs : List (List UInt8)) (l token : List UInt8) (h : ObserveHandler)
    (hm : h.isRegistering = false) (d' : Dec) (h' : ObserveHandler) (e : dispatch fuel d token h cs l = .ok (d', h')) :
    h'.sessions = h.sessions := by
  unfold dispatch at e
  split at e
  · cases e
  · split at e
    · cases e
    · rename_i e2
      simp only [Except.ok.injEq, Prod.mk.injEq] at e
      obtain ⟨-, rfl⟩ := e
      exact handle_quiet token _ h _ (Or.inr hm) e2

/-- C67 fails for a handler that is used again: after a request with Observe 0 or 1, a request without any Observe option
is registered as well. -/
theorem observe_handler_stays_awake (m1 m2 : Msg) (h1 : m1.Ok) (h2 : m2.Ok) (ob1 ob2 : List UInt8) (hob1 : IsOpts 0 m1.opts ob1)
    (hob2 : IsOpts 0 m2.opts ob2) (junk1 junk2 : Dec) (hj1 : junk1.tbuf.length = 8) (hj2 : junk2.tbuf.length = 8)
    (hp1 : m1.payload ≠ none) (hp2 : m2.payload ≠ none) (t1 t2 : List UInt8) (i : Interest) (sessions : List (List UInt8))
    (ho1 : observeOptions m1 = [[0]]) (ho2 : observeOptions m2 = []) :
    ∃ N d1 d2 h1 i2, ∀ fuel, N ≤ fuel → dispatch fuel (fresh junk1) t1 ⟨i, true, sessions⟩ [] (wire m1 ob1) = .ok (d1, h1) ∧
      dispatch fuel (fresh junk2) t2 h1 [] (wire m2 ob2) = .ok (d2, ⟨i2, true, t2 :: t1 :: sessions⟩) := by
  obtain ⟨N1, d1, i1, hi1, e1⟩ := observe_handler_effect m1 h1 ob1 hob1 junk1 hj1 hp1 t1 ⟨i, true, sessions⟩
  have ha : awake ⟨i, true, sessions⟩ m1 = true := by simp [awake, lastObserve, ho1]
  obtain ⟨N2, d2, i2, -, e2⟩ := observe_handler_effect m2 h2 ob2 hob2 junk2 hj2 hp2 t2 ⟨i1, true, t1 :: sessions⟩
  refine ⟨max N1 N2, d1, d2, ⟨i1, true, t1 :: sessions⟩, i2, fun fuel hf => ⟨?_, ?_⟩⟩
  · rw [e1 fuel (by omega)]; simp [ha]
  · rw [e2 fuel (by omega)]
    rw [ha] at hi1
    simp [awake, lastObserve, ho2, hi1]

/-- A request with Observe 0 sent as a byte, a path and a payload: registered, if memory held "true". -/
example : ∃ d, dispatch 60 (fresh Dec.zero) [0xAA] ⟨.currently, true, []⟩ [] [0x41, 1, 0, 7, 0xAA, 0x61, 0, 0x51, 0x61, 0xFF, 1] =
    .ok (d, ⟨.always, true, [[0xAA]]⟩) := ⟨_, rfl⟩

example : (⟨1, 0, 1, 7, [0xAA], [⟨6, [0]⟩, ⟨11, [0x61]⟩], some [1]⟩ : Msg).Ok ∧
    observeOptions ⟨1, 0, 1, 7, [0xAA], [⟨6, [0]⟩, ⟨11, [0x61]⟩], some [1]⟩ = [[0]] ∧
    encMsg ⟨1, 0, 1, 7, [0xAA], [⟨6, [0]⟩, ⟨11, [0x61]⟩], some [1]⟩ = [0x41, 1, 0, 7, 0xAA, 0x61, 0, 0x51, 0x61, 0xFF, 1] := by decide

/-- The same as a GET usually is, without a payload: not registered. -/
example : ∃ d, dispatch 60 (fresh Dec.zero) [0xAA] ⟨.currently, true, []⟩ [] [0x41, 1, 0, 7, 0xAA, 0x61, 0, 0x51, 0x61] =
    .ok (d, ⟨.always, true, []⟩) := ⟨_, rfl⟩

end Verif.Props
