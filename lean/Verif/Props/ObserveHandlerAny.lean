import Verif.Props.ObserveHandler
import Verif.Props.LegacyAny
import Verif.Props.LegacyCut
import Verif.Spec.ObserveAny

/-! # C67 for arbitrary bytes, and for a request that comes in two buffers -/
namespace Verif.Props
open Verif.Model Verif.Spec Verif.Proofs Dec ObserveHandler

/-- Whether the handler stands at "always interested" behind these first bytes of Observe options. -/
def awakeBehind (was : Bool) (firsts : List UInt8) : Bool :=
  match firsts.getLast? with
  | some b => b == 0 || b == 1
  | none => was

theorem awakeBehind_cons (was : Bool) (b : UInt8) (fs : List UInt8) :
    awakeBehind was (b :: fs) = awakeBehind (b == 0 || b == 1) fs := by
  unfold awakeBehind
  rw [List.getLast?_cons]
  cases fs.getLast? <;> rfl

theorem num16_eq (n k : Nat) (hk : k < 65536) : (UInt16.ofNat n == UInt16.ofNat k) = decide (n % 65536 = k) := by
  by_cases h : n % 65536 = k
  · have : UInt16.ofNat n = UInt16.ofNat k := by apply UInt16.toNat_inj.1; simp [h]; omega
    simp [h, this]
  · have : UInt16.ofNat n ≠ UInt16.ofNat k := by
      intro hc
      have := congrArg UInt16.toNat hc
      simp at this
      omega
    simp [h, this]

/-- One value with at least one byte. -/
theorem handle_value (token : List UInt8) (h : ObserveHandler) (n : Nat) (v : List UInt8) (l : Bool) (hv : v ≠ []) :
    ∃ i, handle token h [.value (UInt16.ofNat n) v l] = .ok { h with interest := i } ∧
      (i == .always) = awakeBehind (h.interest == .always) (if n % 65536 = 6 then v.head?.toList else []) := by
  obtain ⟨b, bs, rfl⟩ := List.exists_cons_of_ne_nil hv
  have h6 := num16_eq n 6 (by omega)
  have h11 := num16_eq n 11 (by omega)
  simp only [handle, onValue]
  by_cases e6 : n % 65536 = 6
  · simp only [e6, decide_true] at h6
    refine ⟨if b == 0 || b == 1 then .always else .never, ?_, ?_⟩
    · rw [show ((UInt16.ofNat n == 6) = true) from h6]; rfl
    · simp only [e6, if_true, List.head?_cons, Option.toList_some]
      simp only [awakeBehind, List.getLast?_singleton]
      cases (b == 0 || b == 1) <;> rfl
  · simp only [e6, decide_false] at h6
    have h6' : (UInt16.ofNat n == 6) = false := h6
    by_cases e11 : n % 65536 = 11
    · simp only [e11, decide_true] at h11
      refine ⟨if h.interest == .always then .always else .never, ?_, ?_⟩
      · rw [h6', show ((UInt16.ofNat n == 11) = true) from h11]; rfl
      · simp only [e6, if_false, awakeBehind, List.getLast?_nil]
        cases (h.interest == .always) <;> rfl
    · simp only [e11, decide_false] at h11
      refine ⟨h.interest, ?_, ?_⟩
      · rw [h6', show ((UInt16.ofNat n == 11) = false) from h11]; rfl
      · simp [e6, awakeBehind]

/-- The options in arbitrary bytes. -/
theorem handle_told (token : List UInt8) (S : Nat) (r : List UInt8) (pl : Nat) (h : ObserveHandler) :
    ∃ i, handle token h (toldOpts S r) = .ok { h with interest := i } ∧
      (i == .always) = awakeBehind (h.interest == .always) (observeFirsts (readRest S pl r).1) := by
  fun_induction toldOpts S r generalizing h pl with
  | case1 => exact ⟨h.interest, rfl, by simp [readRest_nil, observeFirsts, awakeBehind]⟩
  | case2 => exact ⟨h.interest, rfl, by simp [readRest_marker, observeFirsts, awakeBehind]⟩
  | case3 S b bs hb h1 => exact ⟨h.interest, rfl, by simp [readRest_cut_delta hb h1, observeFirsts, awakeBehind]⟩
  | case4 S b bs hb delta bs1 h1 h2 => exact ⟨h.interest, rfl, by simp [readRest_cut_length hb h1 h2, observeFirsts, awakeBehind]⟩
  | case5 S b bs hb delta bs1 h1 len h2 =>
    exact ⟨h.interest, rfl, by simp [readRest_option hb h1 h2, readRest_nil, observeFirsts, awakeBehind]⟩
  | case6 S b bs hb delta bs1 h1 len bs2 h2 hne ih =>
    rw [readRest_option hb h1 h2]
    have step : ∃ i, handle token h (if len % 65536 = 0 then [] else
          [LEvent.value (UInt16.ofNat (S + delta)) (bs2.take (len % 65536)) (decide (len % 65536 ≤ bs2.length))]) =
            .ok { h with interest := i } ∧
        (i == .always) = awakeBehind (h.interest == .always)
          (if (S + delta) % 65536 = 6 then (bs2.take (len % 65536)).head?.toList else []) := by
      by_cases h0 : len % 65536 = 0
      · rw [if_pos h0, h0]
        exact ⟨h.interest, rfl, by simp [awakeBehind]⟩
      · rw [if_neg h0]
        exact handle_value token h (S + delta) _ _ (by simp [h0, hne])
    obtain ⟨i, e, hi⟩ := step
    obtain ⟨j, e2, hj⟩ := ih (len % 65536) { h with interest := i }
    refine ⟨j, ?_, ?_⟩
    · simp only [handle]
      rw [handle_append, e]
      exact e2
    · rw [hj]
      simp only
      rw [hi]
      simp only [observeFirsts, List.filterMap_cons]
      by_cases e6 : (S + delta) % 65536 = 6
      · simp only [e6, if_true]
        cases (bs2.take (len % 65536)).head? with
        | none => simp [awakeBehind]
        | some x =>
          simp only [Option.toList_some]
          rw [awakeBehind_cons, awakeBehind_cons]
          rfl
      · simp [e6, awakeBehind]

/-- C67, exactly what happens for header, token and arbitrary bytes in one buffer: the token is registered if at least one
byte follows a payload marker, the last Observe option that has a byte begins with 0 or 1 - or there is none and the
handler was awake -, and memory held "true" where the handler keeps its flag.  Nothing is ever taken back. -/
theorem observe_handler_any (junk : Dec) (hj : junk.tbuf.length = 8) (b0 b1 b2 b3 : UInt8) (tok rest : List UInt8)
    (ht : tok.length = (b0 &&& 0x0F).toNat) (h8 : tok.length ≤ 8) (token : List UInt8) (h : ObserveHandler) :
    ∃ N d' i, (i == .always) = awakeBehind (h.interest == .always) (observeFirsts (readRest 0 0 rest).1) ∧
      ∀ fuel, N ≤ fuel → dispatch fuel (fresh junk) token h [] (b0 :: b1 :: b2 :: b3 :: (tok ++ rest)) =
        .ok (d', ⟨i, h.isRegistering,
          if (readRest 0 0 rest).2 ≠ none ∧ (readRest 0 0 rest).2 ≠ some [] ∧
              awakeBehind (h.interest == .always) (observeFirsts (readRest 0 0 rest).1) = true ∧ h.isRegistering = true
          then token :: h.sessions else h.sessions⟩) := by
  obtain ⟨N, d', hd⟩ := legacy_any_one junk hj b0 b1 b2 b3 tok rest ht h8
  obtain ⟨i, e, hi⟩ := handle_told token 0 rest 0 h
  refine ⟨N, d', i, hi, fun fuel hf => ?_⟩
  simp only [dispatch, hd fuel hf, toldAny]
  have q1 : handle token h (if tok = [] ∧ rest = [] then [] else [LEvent.header ⟨b0, b1, b2, b3⟩]) = .ok h := by split <;> rfl
  have q2 : handle token h (if tok = [] ∨ rest = [] then [] else [LEvent.token tok true]) = .ok h := by split <;> rfl
  rw [handle_append, q1]
  simp only
  rw [handle_append, q2]
  simp only
  rw [handle_append, e]
  simp only
  rw [← hi]
  cases hp : (readRest 0 0 rest).2 with
  | none => simp [toldPayload, handle]
  | some p =>
    cases p with
    | nil => simp [toldPayload, handle]
    | cons x xs =>
      simp only [toldPayload, handle, onComplete]
      cases hA : (i == Interest.always) <;> cases hR : h.isRegistering <;> simp [hA, hR]

-- Observe 0, a path, a payload: registered; the same with the header of a further option at the end instead: not
example : observeFirsts (readRest 0 0 [0x61, 0, 0x51, 0x61, 0xFF, 1]).1 = [0] ∧
    (readRest 0 0 [0x61, 0, 0x51, 0x61, 0xFF, 1]).2 = some [1] ∧ (readRest 0 0 [0x61, 0, 0x51]).2 = none := by
  simp [observeFirsts, readRest, readExt]

/-- Options without an Observe option that has a byte leave it awake or not. -/
theorem handle_unobserved (token : List UInt8) (m : Msg) (os : List Opt) (h : ObserveHandler) (hos : ∀ o ∈ os, o.number < 65536)
    (hno : ∀ o ∈ os, o.number = 6 → o.value = []) :
    ∃ i, handle token h (os.flatMap owedOption) = .ok { h with interest := i } ∧ (i == .always) = (h.interest == .always) := by
  obtain ⟨i, e, hi⟩ := handle_options token m os h hos
  refine ⟨i, e, ?_⟩
  have : lastObserve { m with opts := os } = none := by
    simp only [lastObserve, List.getLast?_eq_none_iff, List.filterMap_eq_nil_iff, observeOptions, List.mem_map, List.mem_filter]
    rintro v ⟨o, ⟨ho, h6⟩, rfl⟩
    rw [hno o ho (by simpa using h6)]; rfl
  rw [hi, awake, this]

/-- C67 in two buffers, the first of which ends inside the last Observe option that has a byte: whether the request is
registered is decided by the first byte in the second buffer, whatever the option began with. -/
theorem observe_handler_cut_value (m : Msg) (hm : m.Ok) (os0 os1 : List Opt) (a b : List UInt8) (x y : UInt8)
    (ho : m.opts = os0 ++ ⟨6, x :: a ++ y :: b⟩ :: os1) (ob0 hdr ob1 : List UInt8) (h0 : IsOpts 0 os0 ob0)
    (hn : countedFrom 0 os0 ≤ 6) (hlen : (x :: a ++ y :: b).length < 65536)
    (hh : HdrOf hdr (6 - countedFrom 0 os0) (x :: a ++ y :: b).length)
    (h1 : IsOpts 6 os1 ob1) (hno : ∀ o ∈ os1, o.number = 6 → o.value = []) (hp : m.payload ≠ none) (junk : Dec)
    (hj : junk.tbuf.length = 8) (token : List UInt8) (i : Interest) (sessions : List (List UInt8)) :
    ∃ N d' j, ∀ fuel, N ≤ fuel →
      dispatch fuel (fresh junk) token ⟨i, true, sessions⟩ [uptoPart m ob0 hdr (x :: a)] (y :: b ++ ob1 ++ encPayload m.payload) =
        .ok (d', ⟨j, true, if y = 0 ∨ y = 1 then token :: sessions else sessions⟩) := by
  obtain ⟨N, d', hd⟩ := legacy_cut_value m hm os0 os1 6 (x :: a) (y :: b) (by simp) (by simp) ho ob0 hdr ob1 h0 hn (by omega) hlen hh h1
    junk hj
  have hlt : ∀ o ∈ m.opts, o.number < 65536 := optsOk_lt hm.2.2.2.2.2.1
  obtain ⟨i0, e0, -⟩ := handle_options token m os0 ⟨i, true, sessions⟩ (fun o h => hlt o (by rw [ho]; simp [h]))
  obtain ⟨i1, e1, hi1⟩ := handle_value token ⟨i0, true, sessions⟩ 6 (x :: a) false (by simp)
  obtain ⟨i2, e2, hi2⟩ := handle_value token ⟨i1, true, sessions⟩ 6 (y :: b) true (by simp)
  obtain ⟨i3, e3, hi3⟩ := handle_unobserved token m os1 ⟨i2, true, sessions⟩ (fun o h => hlt o (by rw [ho]; simp [h])) hno
  obtain ⟨p, hp⟩ := Option.ne_none_iff_exists'.1 hp
  have hy : (i3 == .always) = (y == 0 || y == 1) := by
    rw [hi3, hi2]; simp [awakeBehind]
  refine ⟨N, d', i3, fun fuel hf => ?_⟩
  unfold dispatch
  rw [hd fuel hf]
  simp only [headCalls, tailCalls, hp]
  have q2 : handle token ⟨i, true, sessions⟩ (if m.token = [] then [] else [LEvent.token m.token true]) = .ok ⟨i, true, sessions⟩ := by
    split <;> rfl
  simp only [List.cons_append, List.append_assoc, handle]
  rw [handle_append, q2]
  simp only
  rw [handle_append, e0]
  simp only [handle]
  have r1 : ObserveHandler.onValue ⟨i0, true, sessions⟩ 6 (x :: a) = .ok ⟨i1, true, sessions⟩ := by
    have := e1
    simp only [handle] at this
    cases hv : ObserveHandler.onValue ⟨i0, true, sessions⟩ 6 (x :: a) with
    | error e => rw [show UInt16.ofNat 6 = 6 from rfl, hv] at this; cases this
    | ok h => rw [show UInt16.ofNat 6 = 6 from rfl, hv] at this; exact this
  have r2 : ObserveHandler.onValue ⟨i1, true, sessions⟩ 6 (y :: b) = .ok ⟨i2, true, sessions⟩ := by
    have := e2
    simp only [handle] at this
    cases hv : ObserveHandler.onValue ⟨i1, true, sessions⟩ 6 (y :: b) with
    | error e => rw [show UInt16.ofNat 6 = 6 from rfl, hv] at this; cases this
    | ok h => rw [show UInt16.ofNat 6 = 6 from rfl, hv] at this; exact this
  rw [show UInt16.ofNat 6 = 6 from rfl, r1]
  simp only
  rw [r2]
  simp only
  rw [handle_append, e3]
  simp only [handle, onComplete, hy, Bool.and_true]
  by_cases hc : y = 0 ∨ y = 1
  · have : (y == 0 || y == 1) = true := by simpa using hc
    rw [if_pos this, if_pos hc]
  · have : ¬ (y == 0 || y == 1) = true := by simpa using hc
    rw [if_neg this, if_neg hc]

/-- C67 fails for a request in two buffers: Observe with value 512 is registered when the buffer ends behind its first
byte, and not when it does not; and the other way round for value 2. -/
theorem observe_handler_cut_wrong (m : Msg) (hm : m.Ok) (os0 os1 : List Opt) (x y : UInt8) (hx : ¬ (x = 0 ∨ x = 1)) (hy : y = 0 ∨ y = 1)
    (ho : m.opts = os0 ++ ⟨6, [x, y]⟩ :: os1) (ob0 hdr ob1 : List UInt8) (h0 : IsOpts 0 os0 ob0)
    (hn : countedFrom 0 os0 ≤ 6) (hh : HdrOf hdr (6 - countedFrom 0 os0) 2) (hob : IsOpts 0 m.opts (ob0 ++ (hdr ++ [x, y] ++ ob1)))
    (h1 : IsOpts 6 os1 ob1) (hno : ∀ o ∈ os1, o.number = 6 → o.value = []) (hp : m.payload ≠ none) (junk : Dec)
    (hj : junk.tbuf.length = 8) (token : List UInt8) (i : Interest) (sessions : List (List UInt8)) :
    ∃ N d1 d2 j1 j2, ∀ fuel, N ≤ fuel →
      dispatch fuel (fresh junk) token ⟨i, true, sessions⟩ [uptoPart m ob0 hdr [x]] ([y] ++ ob1 ++ encPayload m.payload) =
        .ok (d1, ⟨j1, true, token :: sessions⟩) ∧
      dispatch fuel (fresh junk) token ⟨i, true, sessions⟩ [] (wire m (ob0 ++ (hdr ++ [x, y] ++ ob1))) =
        .ok (d2, ⟨j2, true, sessions⟩) := by
  obtain ⟨N1, d1, j1, e1⟩ := observe_handler_cut_value m hm os0 os1 [] [] x y ho ob0 hdr ob1 h0 hn (by simp) hh h1 hno hp junk hj token i sessions
  obtain ⟨N2, d2, j2, -, e2⟩ := observe_handler_effect m hm _ hob junk hj hp token ⟨i, true, sessions⟩
  refine ⟨max N1 N2, d1, d2, j1, j2, fun fuel hf => ⟨?_, ?_⟩⟩
  · have := e1 fuel (by omega)
    rw [if_pos hy] at this
    exact this
  · have := e2 fuel (by omega)
    have hl : lastObserve m = some x := by
      have : (observeOptions { m with opts := os1 }).filterMap (·.head?) = [] := by
        simp only [List.filterMap_eq_nil_iff, observeOptions, List.mem_map, List.mem_filter]
        rintro v ⟨o, ⟨ho, h6⟩, rfl⟩
        rw [hno o ho (by simpa using h6)]; rfl
      simp only [lastObserve, observeOptions, ho, List.filter_append, List.filter_cons, List.map_append, List.filterMap_append] at this ⊢
      simp [this]
    have ha : awake ⟨i, true, sessions⟩ m = false := by
      simp only [awake, hl]
      simpa using hx
    rw [ha] at this
    exact this

/-- Calls of which the first one hands over no byte of an Observe option. -/
theorem handle_no_byte (token : List UInt8) (h : ObserveHandler) (es : List LEvent) :
    handle token h (.value 6 [] false :: es) = .error .chunkOverread := rfl

/-- C67: a buffer without bytes, handed over while the value of an Observe option is not complete, makes the handler read a byte that is
not there, whatever has come before and whatever follows. -/
theorem observe_handler_empty_buffer (d : Dec) (hd : d.st = .options) (ho : d.opt.st = .optionValue) (hn : d.holder.number = 6)
    (hl : d.holder.length ≠ 0) (cs : List (List UInt8)) (l token : List UInt8) (h : ObserveHandler) (fuel : Nat) (r : Dec × List LEvent)
    (hr : legacyChunks fuel d ([] :: cs) l = .ok r) : dispatch fuel d token h ([] :: cs) l = .error .chunkOverread := by
  have key : ∃ es, r.2 = .value 6 [] false :: es := by
    cases fuel with
    | zero => simp [legacyChunks, legacyRun] at hr
    | succ f =>
      have hlen : 0 < d.holder.length.toNat := by
        rcases Nat.eq_zero_or_pos d.holder.length.toNat with h0 | h0
        · exact absurd (UInt16.toNat_inj.1 (by simpa using h0)) hl
        · exact h0
      have hD : d.legacyDispatch ⟨[], 0, false⟩ = .ok ([.value 6 [] false],
          { d with holder := { d.holder with length := d.holder.length - UInt16.ofNat 0 } }) := by
        simp [legacyDispatch, hd, legacyOption, ho, legacyValue, Ctx.remainder, hlen, hn]
      simp only [legacyChunks, legacyRun, legacyIterate, hD] at hr
      split at hr
      · cases hr
      · rename_i e
        split at hr
        · cases hr
        · simp only [Except.ok.injEq] at hr
          subst hr
          split at e
          · cases e
          · rename_i e2
            split at e2
            · cases e2
            · simp only [Except.ok.injEq, Prod.mk.injEq] at e2
              obtain ⟨-, -, rfl⟩ := e2
              split at e
              · simp only [Except.ok.injEq, Prod.mk.injEq] at e
                obtain ⟨-, -, rfl⟩ := e
                exact ⟨_, rfl⟩
              · split at e
                · cases e
                · simp only [Except.ok.injEq, Prod.mk.injEq] at e
                  obtain ⟨-, -, rfl⟩ := e
                  exact ⟨_, rfl⟩
  obtain ⟨es, he⟩ := key
  obtain ⟨d', evs⟩ := r
  simp only at he
  subst he
  rw [dispatch, hr]
  simp only [handle_no_byte]

/-- The decoder behind the first value byte of the sample request below. -/
def midObserve : Dec := ((legacyRun 60 (fresh Dec.zero) ⟨[0x41, 1, 0, 7, 0xAA, 0x62, 2], 0, false⟩).toOption.map (·.1)).getD Dec.zero
example : ∃ r, legacyChunks 60 midObserve [[]] [0, 0xFF, 1] = .ok r := ⟨_, rfl⟩
example := observe_handler_empty_buffer midObserve (by decide +kernel) (by decide +kernel) (by decide +kernel) (by decide +kernel) [] [0, 0xFF, 1]
  [0xAA] ⟨.currently, true, []⟩ 60 _ rfl

-- the two outcomes for one message
example : ∃ d1 d2, dispatch 60 (fresh Dec.zero) [0xAA] ⟨.currently, true, []⟩ [[0x41, 1, 0, 7, 0xAA, 0x62, 2]] [0, 0xFF, 1] =
      .ok (d1, ⟨.always, true, [[0xAA]]⟩) ∧
    dispatch 60 (fresh Dec.zero) [0xAA] ⟨.currently, true, []⟩ [] [0x41, 1, 0, 7, 0xAA, 0x62, 2, 0, 0xFF, 1] =
      .ok (d2, ⟨.never, true, []⟩) := ⟨_, _, rfl, rfl⟩
-- an empty buffer inside the option: the handler reads a byte that is not there
example : dispatch 60 (fresh Dec.zero) [0xAA] ⟨.currently, true, []⟩ [[0x41, 1, 0, 7, 0xAA, 0x62, 2], []] [0, 0xFF, 1] =
    .error .chunkOverread := rfl

end Verif.Props
