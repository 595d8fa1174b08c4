import Verif.Proofs.SplitAll
import Verif.Proofs.CutValues
import Verif.Spec.Cuts
import Verif.Props.DecoderSplit

/-! # What is reported for every cut of a message into buffers (C16) -/
namespace Verif.Props
open Verif.Model Verif.Proofs Verif.Spec Header Dec

/-- What is reported of the payload if its first buffer holds `q` and `n` buffers follow that one. -/
def payloadEvents (q : List UInt8) (n : Nat) : List Event :=
  match n with
  | 0 => [.payload q true]
  | n + 1 => .payload q false :: List.replicate (if q = [] then n else n + 1) (.payload [] false)

/-- Buffers after the one in which the payload started. -/
theorem rest_lost (cs : List (List UInt8)) (l : List UInt8) (d : Dec) (hs : d.st = .payload) :
    ∃ N d', d'.st = .done ∧ ∀ fuel, N ≤ fuel → deliverChunks fuel d cs l =
      .ok (d', List.replicate cs.length (.payload [] false) ++ [.completed]) := by
  induction cs with
  | nil =>
    refine ⟨2, { d with st := .done }, rfl, fun fuel hf => ?_⟩
    obtain ⟨f, rfl⟩ : ∃ g, fuel = g + 2 := ⟨fuel - 2, by omega⟩
    simp [deliverChunks, processToDone, stepNotify, Dec.step, hs, notify]
  | cons c cs ih =>
    obtain ⟨N, d', h1, h2⟩ := ih
    refine ⟨N + 1, d', h1, fun fuel hf => ?_⟩
    obtain ⟨f, rfl⟩ : ∃ g, fuel = g + 1 := ⟨fuel - 1, by omega⟩
    have e : ({ d with st := .payload } : Dec) = d := by rw [← hs]
    have hp : Dec.process (f + 1) d ⟨c, 0, false⟩ = .ok (d, ⟨c, c.length, false⟩, [.payload [] false]) := by
      simp [Dec.process, stepNotify, Dec.step, hs, notify, atEnd, Ctx.remainder, e]
    rw [deliverChunks, hp]
    simp only [h2 (f + 1) (by omega)]
    simp [List.replicate_succ]

/-- The buffers of a message with payload, from the state between two buffers. -/
theorem cuts_payload (cs : List (List UInt8)) (l : List UInt8) (k : Nat) (d : Dec) (hb : BetweenBufs d (cs.flatten ++ l))
    (hk : k < (cs.flatten ++ l).length) (E : List Event)
    (hE : (feed true d (cs.flatten ++ l)).1 = E ++ [.payload ((cs.flatten ++ l).drop k) true])
    (hr : (feed true d (cs.flatten ++ l)).2.2 = (cs.flatten ++ l).drop k)
    (hs : (feed true d (cs.flatten ++ l)).2.1.st = .payload) :
    ∃ N d' evs, d'.st = .done ∧ Parts evs E ∧ optsOf evs = bufOpts d (cs ++ [l]) ∧
      ∀ fuel, N ≤ fuel → deliverChunks fuel d cs l =
        .ok (d', evs ++ payloadEvents (payloadPart k (cs ++ [l])).1 (payloadPart k (cs ++ [l])).2 ++ [.completed]) := by
  induction cs generalizing d k E with
  | nil =>
    simp only [List.flatten_nil, List.nil_append] at *
    have hl : l ≠ [] := by intro h; simp [h] at hk
    have hce : chunkEnd true (feed true d l) = (E ++ [.payload (l.drop k) true], { (feed true d l).2.1 with st := .payloadDone }) := by
      simp [chunkEnd, hs, hE]
    obtain ⟨N, d', -, hd', hall⟩ := deliver_of_feed (c := ⟨l, 0, true⟩) (hb.toInv l true) hb.hok hl hb.going rfl
      (k := 1) (e := [.completed])
      (by rw [show (⟨l, 0, true⟩ : Ctx).remainder = l from rfl, hce]; simp)
      (by rw [show (⟨l, 0, true⟩ : Ctx).remainder = l from rfl, hce]; exact finish_payloadDone rfl)
    refine ⟨N, d', E, hd', Parts.refl _, ?_, fun fuel hfu => ?_⟩
    · have := optsOf_feed true d l
      rw [hE, optsOf_append] at this
      simpa [bufOpts, optsOf] using this
    obtain ⟨f, rfl⟩ := Nat.exists_eq_add_of_le hfu
    simp only [deliverChunks, hall f]
    rw [show (⟨l, 0, true⟩ : Ctx).remainder = l from rfl, hce]
    simp [payloadPart, hk, payloadEvents]
  | cons c cs ih =>
    rw [List.flatten_cons, List.append_assoc] at *
    generalize hT : cs.flatten ++ l = T at *
    by_cases hc : c = []
    · subst hc
      rw [List.nil_append] at *
      have hTne : T ≠ [] := by intro h; simp [h] at hk
      by_cases ho : d.st = .optionsDone
      · -- the marker has been read: the payload is taken to start here
        have hop : d.opt.st = .payload := by
          rcases hb.inv.optionsDone ho with h | h
          · exact h
          · simp at h
        rw [payload_feed true d T ho hTne] at hE hr
        have hk0 : k = 0 := by
          simp only at hr
          have := congrArg List.length hr
          simp at this; omega
        subst hk0
        have hE0 : E = [] := by
          have := congrArg List.length hE
          simp at this; exact this
        subst hE0
        obtain ⟨N, d', h1, h2⟩ := rest_lost cs l { d with st := .payload } rfl
        refine ⟨N + 1, d', [], h1, .nil, (bufOpts_quiet _ d (.inl ho)).symm, fun fuel hf => ?_⟩
        obtain ⟨f, rfl⟩ : ∃ g, fuel = g + 1 := ⟨fuel - 1, by omega⟩
        have hp : Dec.process (f + 1) d ⟨[], 0, false⟩ = .ok ({ d with st := .payload }, ⟨[], 0, false⟩, [.payload [] false]) := by
          simp [Dec.process, stepNotify, Dec.step, ho, hop, notify, atEnd, Ctx.remainder]
        rw [deliverChunks, hp]
        simp only [h2 (f + 1) (by omega)]
        simp [payloadPart, payloadEvents]
      · have hne : (feed true d T).2.2 ≠ [] := by
          rw [hr]; intro h; have := congrArg List.length h; simp at this; omega
        have hlt := feed_rest_lt true d T hb.going ho hne
        rw [hr, List.length_drop] at hlt
        rw [idle_feed true d T hb.going ho hTne] at hE hr hs
        -- the events of the empty buffer are the first ones expected
        have hsplit : ∃ E2, E = idleEv d ++ E2 ∧ (feed true (idle d) T).1 = E2 ++ [.payload (T.drop k) true] := by
          obtain ⟨X, X', i1, -⟩ := feed_append_pay true true (idle d) T [] (idle_going d hb.going) (by
            simp only at hr; rw [hr]; intro h; have := congrArg List.length h; simp at this; omega)
          simp only at hr hE
          rw [hr] at i1
          refine ⟨X, ?_, i1⟩
          rw [i1, ← List.append_assoc] at hE
          exact (List.append_inj_left' hE rfl).symm
        obtain ⟨E2, rfl, hE2⟩ := hsplit
        obtain ⟨N, d', evs, hd', hp, hop, hall⟩ := ih k (idle d) (hb.idle ho) hk E2 hE2 hr hs
        refine ⟨N + 1, d', idleEv d ++ evs, hd', (Parts.refl _).append hp, ?_, fun fuel hfu => ?_⟩
        · rw [optsOf_append, optsOf_idleEv, hop, List.cons_append, bufOpts, spots_nil]; simp
        rw [deliverChunks, idle_run d hb.going ho hb.nv fuel (by omega)]
        simp only [hall fuel (by omega)]
        simp [payloadPart, show k ≠ 0 by omega]
    · by_cases hr0 : (feed false d c).2.2 = []
      · -- the buffer ends before the payload
        obtain ⟨hb1, n, hrun⟩ := hb.chunk hc hr0
        obtain ⟨fa1, fa2⟩ := feed_append true d c T hr0
        have hle : ∀ (d : Dec) (r : List UInt8), (feed true d r).2.2.length ≤ r.length := by
          intro d r
          fun_induction feed true d r with
          | case1 d => simp
          | case2 d x bs hst => simp
          | case3 d x bs hst m hc f ih =>
            have ih : f.2.2.length ≤ bs.length := ih
            simp only [List.length_cons]; omega
          | case4 d x bs hst m hc f ih => exact ih
        have hlen := hle (feed false d c).2.1 T
        rw [← fa1, hr] at hlen
        simp only [List.length_drop, List.length_append] at hlen hk
        have hck : c.length ≤ k := by omega
        have hdrop : (c ++ T).drop k = T.drop (k - c.length) := by
          rw [List.drop_append, List.drop_eq_nil_of_le hck]; simp
        rw [hdrop] at hE hr
        rw [fa1] at hr hs
        obtain ⟨X, X', i1, -, -, -, -⟩ := feed_append_pay true true (feed false d c).2.1 T [] hb1.going (by
          rw [hr]; intro h; have := congrArg List.length h; simp at this; omega)
        rw [hr] at i1
        have hP : Parts ((feed false d c).1 ++ X) E := by
          rw [hE, i1, ← List.append_assoc] at fa2
          simpa using fa2.dropLast
        obtain ⟨N, d', evs, hd', hp, hop, hall⟩ := ih (k - c.length) (feed false d c).2.1 hb1 (by omega) X i1 hr hs
        refine ⟨max n N, d', (feed false d c).1 ++ evs, hd', ((Parts.refl _).append hp).trans hP, ?_, fun fuel hfu => ?_⟩
        · rw [optsOf_append, optsOf_feed, hop, List.cons_append, bufOpts, if_neg hc]
        rw [deliverChunks, hrun fuel (by omega)]
        simp only [hall fuel (by omega)]
        have h1 : ¬ (k = 0 ∨ k < c.length) := by
          have := List.length_pos_iff.mpr hc
          omega
        simp [payloadPart, h1]
      · -- the payload starts in this buffer
        obtain ⟨X, X', i1, i2, i3, i4, i5⟩ := feed_append_pay false true d c T hb.going hr0
        rw [i5] at hr
        have hck : k < c.length ∧ (feed false d c).2.2 = c.drop k := by
          have h1 := congrArg List.length hr
          simp only [List.length_append, List.length_drop] at h1 hk
          have h2 := List.length_pos_iff.mpr hr0
          have hck : k < c.length := by omega
          refine ⟨hck, ?_⟩
          simp only at hr
          rw [List.drop_append_of_le_length (by omega)] at hr
          exact List.append_cancel_right hr
        obtain ⟨hck, hrc⟩ := hck
        have hEX : E = X' := by
          rw [i2] at hE
          exact (List.append_inj_left' hE rfl).symm
        obtain ⟨n, -, hrun, hinv⟩ := chunk_feed d ⟨c, 0, false⟩ (hb.toInv c false) (HOK.left hb.hok hc) hc hb.going
        have hrem : (⟨c, 0, false⟩ : Ctx).remainder = c := rfl
        simp only [hrem] at hrun
        have hce : chunkEnd false (feed false d c) =
            (X ++ [.payload (c.drop k) false] ++ [.payload [] false], { (feed false d c).2.1 with st := .payload }) := by
          simp [chunkEnd, i4, i1, hrc]
        rw [hce] at hrun
        obtain ⟨N, d', h1, h2⟩ := rest_lost cs l { (feed false d c).2.1 with st := .payload } rfl
        refine ⟨max n N, d', X, h1, hEX ▸ i3, ?_, fun fuel hfu => ?_⟩
        · have := optsOf_feed false d c
          rw [i1, optsOf_append] at this
          rw [List.cons_append, bufOpts, if_neg hc, bufOpts_quiet _ _ (.inr (by simp [Going, i4])), ← this]
          simp [optsOf]
        rw [deliverChunks, hrun.process (by simp [atEnd]) fuel (by omega)]
        simp only [h2 fuel (by omega)]
        have hne : c.drop k ≠ [] := by rw [← hrc]; exact hr0
        have hn : ¬ c.length ≤ k := by omega
        simp [payloadPart, hck, payloadEvents, hn, List.replicate_succ]

/-- The buffers of a message without payload whose last buffer is not empty. -/
theorem cuts_plain (cs : List (List UInt8)) (l : List UInt8) (d : Dec) (hb : BetweenBufs d (cs.flatten ++ l)) (hl : l ≠ [])
    (hp : (feed true d (cs.flatten ++ l)).2.1.st ≠ .payload)
    (hnd : (chunkEnd true (feed true d (cs.flatten ++ l))).2.st ≠ .done) {k : Nat} {e : List Event}
    (hf : ∀ c, AtEof c → Finish k (chunkEnd true (feed true d (cs.flatten ++ l))).2 c e) :
    ∃ N d' evs, d'.st = .done ∧ Parts evs ((chunkEnd true (feed true d (cs.flatten ++ l))).1 ++ e) ∧
      optsOf evs = bufOpts d (cs ++ [l]) ++ optsOf e ∧
      ∀ fuel, N ≤ fuel → deliverChunks fuel d cs l = .ok (d', evs) := by
  induction cs generalizing d with
  | nil =>
    simp only [List.flatten_nil, List.nil_append] at *
    obtain ⟨N, d', -, hd', hall⟩ := deliver_of_feed (c := ⟨l, 0, true⟩) (hb.toInv l true) hb.hok hl hb.going rfl hnd (hf _ ⟨rfl, rfl⟩)
    refine ⟨N, d', _, hd', Parts.refl _, ?_, fun fuel hfu => ?_⟩
    · rw [optsOf_append, optsOf_chunkEnd]; simp [bufOpts]
    obtain ⟨f, rfl⟩ := Nat.exists_eq_add_of_le hfu
    simp only [deliverChunks, hall f]
    rfl
  | cons c cs ih =>
    rw [List.flatten_cons, List.append_assoc] at *
    generalize hT : cs.flatten ++ l = T at *
    have hTne : T ≠ [] := by intro h; rw [← hT] at h; exact hl (List.append_eq_nil_iff.1 h).2
    by_cases hc : c = []
    · subst hc
      rw [List.nil_append] at *
      have ho : d.st ≠ .optionsDone := by
        intro ho
        rw [payload_feed true d T ho hTne] at hp
        exact hp rfl
      rw [idle_feed true d T hb.going ho hTne, chunkEnd_pre] at hnd hf ⊢
      rw [idle_feed true d T hb.going ho hTne] at hp
      obtain ⟨N, d', evs, hd', hpa, hop, hall⟩ := ih (idle d) (hb.idle ho) hp hnd hf
      refine ⟨N + 1, d', idleEv d ++ evs, hd', ?_, ?_, fun fuel hfu => ?_⟩
      · rw [List.append_assoc]; exact (Parts.refl _).append hpa
      · rw [optsOf_append, optsOf_idleEv, hop, List.cons_append, bufOpts, spots_nil]; simp
      · rw [deliverChunks, idle_run d hb.going ho hb.nv fuel (by omega)]
        simp only [hall fuel (by omega)]
    · have hr0 : (feed false d c).2.2 = [] := by
        apply Classical.byContradiction
        intro h
        obtain ⟨X, X', -, -, -, i4, i5⟩ := feed_append_pay false true d c T hb.going h
        rw [i5] at hp; exact hp i4
      obtain ⟨hb1, n, hrun⟩ := hb.chunk hc hr0
      obtain ⟨fa1, fa2⟩ := feed_append true d c T hr0
      have hce : ∀ (ev : List Event) (x : Dec × List UInt8), chunkEnd true (ev, x) =
          (ev ++ (chunkEnd true ([], x)).1, (chunkEnd true ([], x)).2) := by
        intro ev x
        have := chunkEnd_pre true ev ([], x)
        simpa using this
      have h1 : chunkEnd true (feed true d (c ++ T)) =
          ((feed true d (c ++ T)).1 ++ (chunkEnd true ([], (feed true (feed false d c).2.1 T).2)).1,
            (chunkEnd true ([], (feed true (feed false d c).2.1 T).2)).2) := by
        rw [← fa1]; exact hce (feed true d (c ++ T)).1 (feed true d (c ++ T)).2
      have h2 : chunkEnd true (feed true (feed false d c).2.1 T) =
          ((feed true (feed false d c).2.1 T).1 ++ (chunkEnd true ([], (feed true (feed false d c).2.1 T).2)).1,
            (chunkEnd true ([], (feed true (feed false d c).2.1 T).2)).2) :=
        hce (feed true (feed false d c).2.1 T).1 (feed true (feed false d c).2.1 T).2
      rw [h1] at hnd hf ⊢
      obtain ⟨N, d', evs, hd', hpa, hop, hall⟩ := ih (feed false d c).2.1 hb1 (by rw [← fa1]; exact hp)
        (by rw [h2]; exact hnd) (by rw [h2]; exact hf)
      refine ⟨max n N, d', (feed false d c).1 ++ evs, hd', ?_, ?_, fun fuel hfu => ?_⟩
      · rw [h2] at hpa
        refine ((Parts.refl (feed false d c).1).append hpa).trans ?_
        rw [← List.append_assoc, ← List.append_assoc]
        exact (fa2.append (Parts.refl _)).append (Parts.refl e)
      · rw [optsOf_append, optsOf_feed, hop, List.cons_append, bufOpts, if_neg hc, List.append_assoc]
      · rw [deliverChunks, hrun fuel (by omega)]
        simp only [hall fuel (by omega)]

/-- The buffers of a message without payload when the last buffer is empty. -/
theorem cuts_empty_last (cs : List (List UInt8)) (d : Dec) (hb : BetweenBufs d cs.flatten)
    (hr : (feed false d cs.flatten).2.2 = []) (ho : (feed false d cs.flatten).2.1.st ≠ .optionsDone)
    {k : Nat} {e : List Event} (hf : ∀ c, AtEof c → Finish k (idles (trailing cs) (feed false d cs.flatten).2.1).1 c e) :
    ∃ N d' evs, d'.st = .done ∧
      Parts evs ((feed false d cs.flatten).1 ++ (idles (trailing cs) (feed false d cs.flatten).2.1).2 ++ e) ∧
      optsOf evs = bufOpts d (cs ++ [[]]) ++ optsOf e ∧
      ∀ fuel, N ≤ fuel → deliverChunks fuel d cs [] = .ok (d', evs) := by
  induction cs generalizing d with
  | nil =>
    simp only [List.flatten_nil, feed_nil, trailing, idles] at *
    obtain ⟨d', hd', hall⟩ := hf ⟨[], 0, true⟩ ⟨rfl, rfl⟩
    refine ⟨k, d', e, hd', Parts.refl _, by simp [bufOpts, spots_nil], fun fuel hfu => ?_⟩
    obtain ⟨f, rfl⟩ := Nat.exists_eq_add_of_le hfu
    simp only [deliverChunks, hall f]
  | cons c cs ih =>
    have hod : d.st ≠ .optionsDone := by
      intro hod
      by_cases hT : (c :: cs).flatten = []
      · rw [hT, feed_nil] at ho; exact ho hod
      · rw [payload_feed false d _ hod hT] at hr; exact hT hr
    by_cases hc : c = []
    · subst hc
      by_cases hT : cs.flatten = []
      · have ht : trailing ([] :: cs) = cs.length + 1 := by simp [trailing, hT]
        have ht2 : trailing cs = cs.length := by
          cases cs with
          | nil => rfl
          | cons a as => rw [trailing, if_pos hT]; rfl
        rw [ht] at hf ⊢
        simp only [List.flatten_cons, List.nil_append, hT, feed_nil, idles] at *
        obtain ⟨N, d', evs, hd', hpa, hop, hall⟩ := ih (idle d) (hb.idle hod) trivial
          (by intro h; simp only [idle] at h; revert h; cases hs : d.st <;> simp [hs] at hod ⊢; split <;> simp)
          (by rw [ht2]; exact hf)
        refine ⟨N + 1, d', idleEv d ++ evs, hd', ?_, ?_, fun fuel hfu => ?_⟩
        · rw [ht2] at hpa
          have := (Parts.refl (idleEv d)).append hpa
          simpa using this
        · rw [optsOf_append, optsOf_idleEv, hop, List.cons_append, bufOpts, spots_nil]; simp
        · rw [deliverChunks, idle_run d hb.going hod hb.nv fuel (by omega)]
          simp only [hall fuel (by omega)]
      · have ht : trailing ([] :: cs) = trailing cs := by simp [trailing, hT]
        rw [ht] at hf ⊢
        simp only [List.flatten_cons, List.nil_append] at *
        rw [idle_feed false d _ hb.going hod hT] at hr ho hf ⊢
        obtain ⟨N, d', evs, hd', hpa, hop, hall⟩ := ih (idle d) (hb.idle hod) hr ho hf
        refine ⟨N + 1, d', idleEv d ++ evs, hd', ?_, ?_, fun fuel hfu => ?_⟩
        · have := (Parts.refl (idleEv d)).append hpa
          simpa using this
        · rw [optsOf_append, optsOf_idleEv, hop, List.cons_append, bufOpts, spots_nil]; simp
        · rw [deliverChunks, idle_run d hb.going hod hb.nv fuel (by omega)]
          simp only [hall fuel (by omega)]
    · have ht : trailing (c :: cs) = trailing cs := by simp [trailing, hc]
      rw [ht] at hf ⊢
      simp only [List.flatten_cons] at *
      have hr0 : (feed false d c).2.2 = [] := by
        apply Classical.byContradiction
        intro h
        rw [feed_rest_append false d c _ h] at hr
        exact h (List.append_eq_nil_iff.1 hr).1
      obtain ⟨hb1, n, hrun⟩ := hb.chunk hc hr0
      obtain ⟨fa1, fa2⟩ := feed_append false d c cs.flatten hr0
      rw [fa1] at hr ho hf ⊢
      obtain ⟨N, d', evs, hd', hpa, hop, hall⟩ := ih (feed false d c).2.1 hb1 hr ho hf
      refine ⟨max n N, d', (feed false d c).1 ++ evs, hd', ?_, ?_, fun fuel hfu => ?_⟩
      · refine ((Parts.refl (feed false d c).1).append hpa).trans ?_
        rw [← List.append_assoc, ← List.append_assoc]
        exact (fa2.append (Parts.refl _)).append (Parts.refl e)
      · rw [optsOf_append, optsOf_feed, hop, List.cons_append, bufOpts, if_neg hc, List.append_assoc]
      · rw [deliverChunks, hrun fuel (by omega)]
        simp only [hall fuel (by omega)]

/-- Options reported that are not in the message, by their numbers.  They appear only if the message has no
payload and its last buffer is empty: the last option seems to be repeated with an empty value, unless its
value was empty; without options, enough empty buffers in a row make up an option 0. -/
def phantoms (m : Msg) (cs : List (List UInt8)) (l : List UInt8) : List Nat :=
  if m.payload = none ∧ l = [] then
    match m.opts.getLast? with
    | none => if (if m.token = [] then 3 else 2) ≤ trailing cs then [0] else []
    | some o => if o.value = [] then [] else [o.number]
  else []

/-- What is reported for a message whose options are encoded in `n` bytes, cut into the buffers `cs` and the
final buffer `l`, apart from cuts inside option values. -/
def cutReport (m : Msg) (n : Nat) (cs : List (List UInt8)) (l : List UInt8) : List Event :=
  [.header ⟨UInt8.ofNat (64 * m.version + 16 * m.type + m.token.length), UInt8.ofNat m.code,
      UInt8.ofNat (m.mid / 256), UInt8.ofNat (m.mid % 256)⟩,
   .token m.token, .optionStart] ++
  m.opts.map (fun o => .option (UInt16.ofNat o.number) o.value true) ++
  (phantoms m cs l).map (fun k => .option (UInt16.ofNat k) [] true) ++
  [.optionsCompleted] ++
  (match m.payload with
   | none => []
   | some _ => payloadEvents (payloadPart (4 + m.token.length + n + 1) (cs ++ [l])).1
      (payloadPart (4 + m.token.length + n + 1) (cs ++ [l])).2) ++
  [.completed]

theorem phantoms_nil_of {m : Msg} {cs : List (List UInt8)} {l : List UInt8} (h : m.payload ≠ none ∨ l ≠ []) :
    phantoms m cs l = [] := by
  unfold phantoms
  rw [if_neg]
  rintro ⟨h1, h2⟩
  rcases h with h | h
  · exact h h1
  · exact h h2

theorem fresh_between (m : Msg) (hm : m.Ok) (ob : List UInt8) (junk : Dec) (hj : junk.tbuf.length = 8) :
    BetweenBufs (fresh junk) (wire m ob) := by
  obtain ⟨h1, h2, h3, h4, h5, -⟩ := hm
  refine ⟨?_, ?_, by simp [Going, fresh], by simp [NV, fresh]⟩
  · exact reach_inv (Reach.init junk [] false hj)
  · simp only [HOK, fresh, wire, encHeader, List.cons_append, List.head?_cons, Option.mem_def, Option.some.injEq]
    rintro b rfl
    rw [tkl_toNat]; simp; omega

/-- Where the decoder stands after all bytes of a message without payload. -/
theorem plain_end (last : Bool) (m : Msg) (hm : m.Ok) (ob : List UInt8) (hob : IsOpts 0 m.opts ob) (junk : Dec)
    (hj : junk.tbuf.length = 8) (hp : m.payload = none) (H : Header)
    (hH : H = ⟨UInt8.ofNat (64 * m.version + 16 * m.type + m.token.length), UInt8.ofNat m.code,
      UInt8.ofNat (m.mid / 256), UInt8.ofNat (m.mid % 256)⟩) :
    ∃ es d, feed last (fresh junk) (wire m ob) = (es, d, []) ∧
      ((m.opts = [] ∧ m.token = [] ∧ es = [.header H] ∧ d.st = .headerDone ∧ d.hdr.tokenLength.toNat = 0 ∧ d.opt = junk.opt) ∨
       (m.opts = [] ∧ m.token ≠ [] ∧ es = [.header H, .token m.token] ∧ d.st = .tokenDone ∧ d.opt.st = .garbage) ∨
       (m.opts ≠ [] ∧ d.st = .options ∧
         ((es = [.header H, .token m.token, .optionStart] ++ optEvents m.opts ∧ d.opt.st = .optionValueDone ∧
             ∀ o ∈ m.opts.getLast?, o.value ≠ [] ∧ d.holder.number = UInt16.ofNat o.number) ∨
          ∃ n, es ++ [.option n [] true] = [.header H, .token m.token, .optionStart] ++ optEvents m.opts ∧
            HEnd d.opt 0 ∧ d.holder = ⟨n, 0⟩))) := by
  obtain ⟨h1, h2, h3, h4, h5, -⟩ := hm
  have htk : H.tokenLength.toNat = m.token.length := by
    rw [hH, Header.tokenLength, tkl_toNat]; simp; omega
  have henc : wire m ob = H.b0 :: H.b1 :: H.b2 :: H.b3 :: (m.token ++ ob) := by
    simp [wire, encHeader, hH, hp, encPayload]
  rw [henc, header_feed last (fresh junk) _ _ _ _ _ rfl]
  generalize hd1 : ({ fresh junk with st := .headerDone, hdr := ⟨H.b0, H.b1, H.b2, H.b3⟩, hpos := 4 } : Dec) = d1
  have hd1s : d1.st = .headerDone := by rw [← hd1]
  have hd1h : d1.hdr.tokenLength.toNat = m.token.length := by rw [← hd1]; exact htk
  have hd1o : d1.opt = junk.opt := by rw [← hd1]; rfl
  have hd1b : d1.tbuf.length = 8 := by rw [← hd1]; exact hj
  have tail : ∀ d2 : Dec, d2.st = .tokenDone → m.opts ≠ [] → ∃ es d, feed last d2 ob = (es, d, []) ∧ d.st = .options ∧
      ((es = [.optionStart] ++ optEvents m.opts ∧ d.opt.st = .optionValueDone ∧
             ∀ o ∈ m.opts.getLast?, o.value ≠ [] ∧ d.holder.number = UInt16.ofNat o.number) ∨
          ∃ n, es ++ [.option n [] true] = [.optionStart] ++ optEvents m.opts ∧ HEnd d.opt 0 ∧ d.holder = ⟨n, 0⟩) := by
    intro d2 hs2 hos
    have hemp : ob ≠ [] := fun h => hos (hob.nil_iff.1 h)
    rw [start_feed last d2 ob hs2 hemp]
    obtain ⟨o', h', es, hfe, hcase⟩ := wire_options_feed_end last m.opts 0
      { d2 with st := .options, opt := { d2.opt with st := .firstByte }, holder := ⟨0, 0⟩ } rfl (Or.inl rfl) rfl ob hob hos
    rw [hfe]
    refine ⟨_, _, rfl, rfl, ?_⟩
    rcases hcase with ⟨he, hov, hlst⟩ | ⟨n, he, hhe, hh'⟩
    · left; exact ⟨by rw [he]; rfl, hov, hlst⟩
    · right; exact ⟨n, by simp [he], hhe, hh'⟩
  by_cases htn : m.token = []
  · rw [htn, List.length_nil] at hd1h
    rw [htn, List.nil_append]
    by_cases hos : m.opts = []
    · rw [hob.nil_iff.2 hos, feed_nil]
      exact ⟨_, _, rfl, Or.inl ⟨hos, rfl, rfl, hd1s, hd1h, hd1o⟩⟩
    · rw [token_feed_empty last d1 ob hd1s hd1h (fun h => hos (hob.nil_iff.1 h))]
      obtain ⟨es, d, e1, e2, e3⟩ := tail { d1 with st := .tokenDone } rfl hos
      rw [e1]
      refine ⟨_, _, rfl, Or.inr (Or.inr ⟨hos, e2, ?_⟩)⟩
      rcases e3 with ⟨he, e4⟩ | ⟨n, he, e4⟩
      · left; exact ⟨by rw [he]; rfl, e4⟩
      · right; exact ⟨n, by simp [he], e4⟩
  · obtain ⟨d2, e1, e2, -, -, e5⟩ := token_feed last m.token d1 ob hd1s htn hd1h h5 hd1b
    rw [e5]
    by_cases hos : m.opts = []
    · rw [hob.nil_iff.2 hos, feed_nil]
      exact ⟨_, _, rfl, Or.inr (Or.inl ⟨hos, htn, rfl, e1, e2⟩)⟩
    · obtain ⟨es, d, e1, e2, e3⟩ := tail d2 e1 hos
      rw [e1]
      refine ⟨_, _, rfl, Or.inr (Or.inr ⟨hos, e2, ?_⟩)⟩
      rcases e3 with ⟨he, e4⟩ | ⟨n, he, e4⟩
      · left; exact ⟨by rw [he]; rfl, e4⟩
      · right; exact ⟨n, by simp [he], e4⟩

theorem optsOf_payloadEvents (q : List UInt8) (n : Nat) : optsOf (payloadEvents q n) = [] := by
  cases n with
  | zero => rfl
  | succ n => simp [payloadEvents, optsOf, List.filterMap_replicate]

/-- What is reported for every cut, up to the values of options; and the options reported are those of `bufOpts` and those at the end. -/
theorem every_cut_inner (m : Msg) (hm : m.Ok) (ob : List UInt8) (hob : IsOpts 0 m.opts ob) (junk : Dec)
    (hj : junk.tbuf.length = 8)
    (hst : junk.opt.st ≠ .payload ∨ m.token ≠ [] ∨ m.opts ≠ [] ∨ m.payload ≠ none)
    (cs : List (List UInt8)) (l : List UInt8) (hcut : cs.flatten ++ l = wire m ob) :
    ∃ N d' evs, d'.st = .done ∧ Parts evs (cutReport m ob.length cs l) ∧
      (∃ X, optsOf evs = bufOpts (fresh junk) (cs ++ [l]) ++ X ∧
        (spots (fresh junk) (wire m ob)).map Spot.shown ++ X = optsOf (cutReport m ob.length cs l)) ∧
      ∀ fuel, N ≤ fuel → deliverChunks fuel (fresh junk) cs l = .ok (d', evs) := by
  have hb : BetweenBufs (fresh junk) (cs.flatten ++ l) := hcut ▸ fresh_between m hm ob junk hj
  obtain ⟨-, -, hne, hg, k, e, -, hnd, hf, he, hlast, hre⟩ := wire_chunkEnd m hm ob hob junk hj hst
  by_cases hp : m.payload = none
  · rw [hp] at hre
    by_cases hl : l = []
    · subst hl
      rw [List.append_nil] at hcut hb
      generalize hH : (⟨UInt8.ofNat (64 * m.version + 16 * m.type + m.token.length), UInt8.ofNat m.code,
        UInt8.ofNat (m.mid / 256), UInt8.ofNat (m.mid % 256)⟩ : Header) = H
      obtain ⟨es, d, hfe, hcase⟩ := plain_end false m hm ob hob junk hj hp H hH.symm
      rw [← hcut] at hfe
      -- what is left to do at the end of the empty buffer
      have close : ∀ (k : Nat) (e : List Event), d.st ≠ .optionsDone →
          (∀ c, AtEof c → Finish k (idles (trailing cs) d).1 c e) →
          es ++ (idles (trailing cs) d).2 ++ e = cutReport m ob.length cs [] →
          ∃ N d' evs, d'.st = .done ∧ Parts evs (cutReport m ob.length cs []) ∧
            (∃ X, optsOf evs = bufOpts (fresh junk) (cs ++ [[]]) ++ X ∧
              (spots (fresh junk) (wire m ob)).map Spot.shown ++ X = optsOf (cutReport m ob.length cs [])) ∧
            ∀ fuel, N ≤ fuel → deliverChunks fuel (fresh junk) cs [] = .ok (d', evs) := by
        intro k e hod hfin heq
        have := cuts_empty_last cs (fresh junk) hb (by rw [hfe]) (by rw [hfe]; exact hod) (k := k) (e := e) (by rw [hfe]; exact hfin)
        rw [hfe] at this
        obtain ⟨N, d', evs, g1, g2, g3, g4⟩ := this
        refine ⟨N, d', evs, g1, heq ▸ g2, ⟨optsOf e, g3, ?_⟩, g4⟩
        rw [← heq, ← hcut, ← optsOf_feed false, hfe, optsOf_append, optsOf_append, optsOf_idles, List.append_nil]
      have rep : cutReport m ob.length cs [] = [.header H, .token m.token, .optionStart] ++ optEvents m.opts ++
          ((phantoms m cs []).map (fun k => .option (UInt16.ofNat k) [] true) ++ [.optionsCompleted, .completed]) := by
        rw [cutReport, hH]; simp [hp, optEvents]
      rw [rep] at close ⊢
      have i1 : ∀ d : Dec, d.st = .tokenDone → (idle d).st = .optionsStart ∧ (idle d).opt = d.opt ∧ idleEv d = [.optionStart] := by
        intro d h; simp [idle, idleEv, h]
      have i2 : ∀ d : Dec, d.st = .optionsStart → (idle d).st = .options ∧ (idle d).opt.st = .firstByte ∧
          (idle d).holder = ⟨0, 0⟩ ∧ idleEv d = [] := by
        intro d h; simp [idle, idleEv, h]
      have i3 : ∀ d : Dec, d.st = .headerDone → d.hdr.tokenLength.toNat = 0 →
          (idle d).st = .tokenDone ∧ (idle d).opt = d.opt ∧ idleEv d = [.token []] := by
        intro d h ht
        have : ¬ d.hdr.tokenLength > 0 := by rw [gt_iff_lt, UInt8.lt_iff_toNat_lt, ht]; simp
        simp [idle, idleEv, h, this]
      -- the empty buffers after the token
      have tok : ∀ (n : Nat) (d : Dec), d.st = .tokenDone → d.opt.st ≠ .payload →
          ∃ k e, (∀ c, AtEof c → Finish k (idles n d).1 c e) ∧
            (idles n d).2 ++ e = .optionStart :: ((if 2 ≤ n then [0] else []).map (fun k : Nat => Event.option (UInt16.ofNat k) [] true) ++ [.optionsCompleted, .completed]) := by
        intro n d hs ho
        obtain ⟨a1, a2, a3⟩ := i1 d hs
        rcases n with _ | _ | n
        · exact ⟨3, _, fun c hc => finish_tokenDone hc hs ho, by simp [idles]⟩
        · exact ⟨2, _, fun c hc => finish_optionsStart (d := idle d) hc a1 (by rw [a2]; exact ho), by simp [idles, a3]⟩
        · obtain ⟨b1, b2, b3, b4⟩ := i2 (idle d) a1
          obtain ⟨k, hk⟩ := finish_ready (d := idle (idle d)) b1 (Or.inl b2)
          refine ⟨k, [.option (idle (idle d)).holder.number [] true, .optionsCompleted, .completed], fun c hc => ?_, ?_⟩
          · simp only [idles, idles_options n _ b1]; exact hk c hc
          · simp [idles, idles_options n _ b1, a3, b4, b3]
      rcases hcase with ⟨ho, ht, rfl, hs, htk, hopt⟩ | ⟨ho, ht, rfl, hs, hopt⟩ | ⟨ho, hs, hcase⟩
      · have hjo : d.opt.st ≠ .payload := by
          rw [hopt]
          rcases hst with h | h | h | h
          · exact h
          · exact absurd ht h
          · exact absurd ho h
          · exact absurd hp h
        have hph : phantoms m cs [] = if 3 ≤ trailing cs then [0] else [] := by simp [phantoms, hp, ho, ht]
        rw [hph] at close ⊢
        cases hn : trailing cs with
        | zero =>
          rw [hn] at close
          exact close 4 _ (by simp [hs]) (fun c hc => finish_headerDone hc hs htk hjo) (by simp [idles, ho, ht, optEvents])
        | succ n =>
          rw [hn] at close
          obtain ⟨a1, a2, a3⟩ := i3 d hs htk
          obtain ⟨k, e, hk, he⟩ := tok n (idle d) a1 (by rw [a2]; exact hjo)
          refine close k e (by simp [hs]) hk ?_
          simp only [idles, a3, List.append_assoc, he, ho, ht, optEvents]
          have : (3 ≤ n + 1) ↔ (2 ≤ n) := by omega
          simp [this]
      · have hph : phantoms m cs [] = if 2 ≤ trailing cs then [0] else [] := by simp [phantoms, hp, ho, ht]
        rw [hph] at close ⊢
        obtain ⟨k, e, hk, he⟩ := tok (trailing cs) d hs (by simp [hopt])
        refine close k e (by simp [hs]) hk ?_
        rw [List.append_assoc, he, ho]
        simp [optEvents]
      · obtain ⟨o, hlo⟩ : ∃ o, m.opts.getLast? = some o := by
          cases h : m.opts.getLast? with
          | none => exact absurd (List.getLast?_eq_none_iff.1 h) ho
          | some o => exact ⟨o, rfl⟩
        rcases hcase with ⟨rfl, hov, hlst⟩ | ⟨n, he, hhe, hh⟩
        · obtain ⟨hv, hnum⟩ := hlst o (by simp [hlo])
          have hph : phantoms m cs [] = [o.number] := by simp [phantoms, hp, hlo, hv]
          rw [hph] at close ⊢
          obtain ⟨k, hk⟩ := finish_ready (d := d) hs (Or.inr hov)
          refine close k [.option d.holder.number [] true, .optionsCompleted, .completed] (by simp [hs])
            (fun c hc => by rw [idles_options _ _ hs]; exact hk c hc) ?_
          rw [idles_options _ _ hs]
          simp [hnum]
        · have hv : o.value = [] := by
            have := congrArg List.getLast? he
            rw [List.getLast?_concat, List.getLast?_append] at this
            simp [optEvents, hlo] at this
            exact this.2
          have hph : phantoms m cs [] = [] := by simp [phantoms, hp, hlo, hv]
          rw [hph] at close ⊢
          refine close 3 [.option n [] true, .optionsCompleted, .completed] (by simp [hs])
            (fun c hc => by rw [idles_options _ _ hs]; exact finish_hend hc hs hhe n hh) ?_
          rw [idles_options _ _ hs, ← he]
          simp
    · have hnp : (feed true (fresh junk) (wire m ob)).2.1.st ≠ .payload := by
        intro h
        have := feed_going true (fresh junk) (wire m ob) hg hre
        apply this; simp [h]
      rw [← hcut] at hnp hnd hf he
      obtain ⟨N, d', evs, h1, h2, hop, h3⟩ := cuts_plain cs l (fresh junk) hb hl hnp hnd hf
      rw [he] at h2
      have hrep : delivery m = cutReport m ob.length cs l := by
        simp [cutReport, phantoms_nil_of (Or.inr hl), hp, delivery]
      refine ⟨N, d', evs, h1, hrep ▸ h2, ⟨optsOf e, hop, ?_⟩, h3⟩
      rw [← hrep, ← he, optsOf_append, optsOf_chunkEnd, hcut]
  · obtain ⟨p, hp⟩ := Option.ne_none_iff_exists'.1 hp
    have hpne : p ≠ [] := by intro h; rw [h] at hp; exact hm.2.2.2.2.2.2 hp
    have hre' : (feed true (fresh junk) (wire m ob)).2.2 = p := by rw [hre, hp]; rfl
    obtain ⟨X, X', i1, -, -, i4, -⟩ := feed_append_pay true true (fresh junk) (wire m ob) [] hg (by rw [hre']; exact hpne)
    have hw : wire m ob = (encHeader m ++ m.token ++ ob ++ [0xFF]) ++ p := by simp [wire, hp, encPayload]
    have hlen : (encHeader m ++ m.token ++ ob ++ [0xFF]).length = 4 + m.token.length + ob.length + 1 := by
      simp [encHeader]; omega
    have hdrop : (wire m ob).drop (4 + m.token.length + ob.length + 1) = p := by
      rw [← hlen, hw, List.drop_left]
    rw [hre'] at i1
    have hX : X = [.header ⟨UInt8.ofNat (64 * m.version + 16 * m.type + m.token.length), UInt8.ofNat m.code,
      UInt8.ofNat (m.mid / 256), UInt8.ofNat (m.mid % 256)⟩, .token m.token, .optionStart] ++
        m.opts.map (fun o => .option (UInt16.ofNat o.number) o.value true) ++ [.optionsCompleted] := by
      rw [(hlast (by simp [hp])).1] at he
      have h1 : (chunkEnd true (feed true (fresh junk) (wire m ob))).1 = X ++ [.payload p true] := by
        simp [chunkEnd, i4, i1]
      rw [h1] at he
      have h2 : delivery m = ([.header ⟨UInt8.ofNat (64 * m.version + 16 * m.type + m.token.length), UInt8.ofNat m.code,
        UInt8.ofNat (m.mid / 256), UInt8.ofNat (m.mid % 256)⟩, .token m.token, .optionStart] ++
        m.opts.map (fun o => .option (UInt16.ofNat o.number) o.value true) ++ [.optionsCompleted]) ++ [.payload p true] ++ [.completed] := by
        simp [delivery, hp]
      rw [h2] at he
      exact List.append_inj_left' (List.append_inj_left' he rfl) rfl
    obtain ⟨N, d', evs, h1, h2, hop, h3⟩ := cuts_payload cs l (4 + m.token.length + ob.length + 1) (fresh junk) hb
      (by rw [hcut, ← hlen, hw]; have := List.length_pos_iff.mpr hpne; simp; omega) X
      (by rw [hcut, hdrop]; exact i1) (by rw [hcut, hdrop]; exact hre') (by rw [hcut]; exact i4)
    have hrep : cutReport m ob.length cs l = X ++ payloadEvents (payloadPart (4 + m.token.length + ob.length + 1) (cs ++ [l])).1
        (payloadPart (4 + m.token.length + ob.length + 1) (cs ++ [l])).2 ++ [Event.completed] := by
      rw [hX]
      simp [cutReport, phantoms_nil_of (m := m) (cs := cs) (l := l) (Or.inl (by simp [hp])), hp]
    refine ⟨N, d', _, h1, ?_, ⟨[], ?_, ?_⟩, h3⟩
    · rw [hrep]
      exact (h2.append (Parts.refl _)).append (Parts.refl _)
    · rw [optsOf_append, optsOf_append, hop, optsOf_payloadEvents]; simp [optsOf]
    · rw [hrep, optsOf_append, optsOf_append, optsOf_payloadEvents, ← optsOf_feed true, i1]
      simp [optsOf]

/-- C16, for every cut: a well-formed message, with any legal encoding of its options, delivered in any buffers
whatsoever (empty ones included), is decoded to completion, and reported is exactly `cutReport`, except that an
option value that is cut is reported up to the cut and not flagged as complete. -/
theorem every_cut_reported (m : Msg) (hm : m.Ok) (ob : List UInt8) (hob : IsOpts 0 m.opts ob) (junk : Dec)
    (hj : junk.tbuf.length = 8)
    (hst : junk.opt.st ≠ .payload ∨ m.token ≠ [] ∨ m.opts ≠ [] ∨ m.payload ≠ none)
    (cs : List (List UInt8)) (l : List UInt8) (hcut : cs.flatten ++ l = wire m ob) :
    ∃ N d' evs, d'.st = .done ∧ Parts evs (cutReport m ob.length cs l) ∧
      ∀ fuel, N ≤ fuel → deliverChunks fuel (fresh junk) cs l = .ok (d', evs) := by
  obtain ⟨N, d', evs, h1, h2, -, h3⟩ := every_cut_inner m hm ob hob junk hj hst cs l hcut
  exact ⟨N, d', evs, h1, h2, h3⟩

/-- The options the decoder comes to in a whole message: all of them, except possibly a last one without value. -/
theorem spots_wire (m : Msg) (hm : m.Ok) (ob : List UInt8) (hob : IsOpts 0 m.opts ob) (junk : Dec) (hj : junk.tbuf.length = 8) :
    ∃ B, wireSpots m.opts (ob ++ encPayload m.payload) = spots (fresh junk) (wire m ob) ++ B ∧ ∀ s ∈ B, s.len = 0 := by
  obtain ⟨h1, h2, h3, h4, h5, -⟩ := hm
  generalize hH : (⟨UInt8.ofNat (64 * m.version + 16 * m.type + m.token.length), UInt8.ofNat m.code,
    UInt8.ofNat (m.mid / 256), UInt8.ofNat (m.mid % 256)⟩ : Header) = H
  have htk : H.tokenLength.toNat = m.token.length := by
    rw [← hH, Header.tokenLength, tkl_toNat]; simp; omega
  have henc : wire m ob = [H.b0, H.b1, H.b2, H.b3] ++ (m.token ++ (ob ++ encPayload m.payload)) := by
    simp [wire, encHeader, ← hH]
  have hhd := header_feed false (fresh junk) H.b0 H.b1 H.b2 H.b3 [] rfl
  generalize hd1 : ({ fresh junk with st := .headerDone, hdr := ⟨H.b0, H.b1, H.b2, H.b3⟩, hpos := 4 } : Dec) = d1 at hhd
  have hd1s : d1.st = .headerDone := by rw [← hd1]
  have hd1h : d1.hdr.tokenLength.toNat = m.token.length := by rw [← hd1]; exact htk
  have hd1b : d1.tbuf.length = 8 := by rw [← hd1]; exact hj
  rw [feed_nil] at hhd
  have ht : encPayload m.payload = [] ∨ ∃ p, encPayload m.payload = 0xFF :: p := by
    cases m.payload with
    | none => exact Or.inl rfl
    | some p => exact Or.inr ⟨p, rfl⟩
  have tail : ∀ d2 : Dec, d2.st = .tokenDone →
      ∃ B, wireSpots m.opts (ob ++ encPayload m.payload) = spots d2 (ob ++ encPayload m.payload) ++ B ∧ ∀ s ∈ B, s.len = 0 := by
    intro d2 hs2
    rw [← spots_idle d2, ← spots_idle (idle d2)]
    exact spots_options hob _ ht (idle (idle d2)) (by simp [idle, hs2]) (Or.inl (by simp [idle, hs2])) (by simp [idle, hs2])
  rw [henc, spots_append, hhd, spots_of_no_option (l := false) (by rw [hhd]; rfl), List.map_nil, List.nil_append]
  by_cases htn : m.token = []
  · rw [htn, List.nil_append, ← spots_idle d1]
    refine tail (idle d1) ?_
    have : ¬ d1.hdr.tokenLength > 0 := by rw [gt_iff_lt, UInt8.lt_iff_toNat_lt, hd1h, htn]; simp
    simp [idle, hd1s, this]
  · obtain ⟨d2, e1, -, -, -, e5⟩ := token_feed false m.token d1 [] hd1s htn hd1h h5 hd1b
    rw [List.append_nil, feed_nil] at e5
    simp only
    rw [spots_append, e5, spots_of_no_option (l := false) (by rw [e5]; rfl), List.map_nil, List.nil_append]
    exact tail d2 e1

/-- The parts of an event other than those of an option. -/
def frame : Event → Event
  | .option _ _ _ => .option 0 [] true
  | e => e

theorem Parts.frame_eq {a b : List Event} (h : Parts a b) : a.map frame = b.map frame := by
  induction h with
  | nil => rfl
  | @cons e f es fs p _ ih =>
    have : frame e = frame f := by
      cases e <;> simp only [Part] at p
      case option n v l => obtain ⟨v', l', rfl, -⟩ := p; rfl
      all_goals rw [p]
    rw [List.map_cons, List.map_cons, ih, this]

/-- Events are determined by their kinds, the contents other than those of options, and the options. -/
theorem eq_of_frame : ∀ {a b : List Event}, a.map frame = b.map frame → optsOf a = optsOf b → a = b
  | [], b, h, _ => by simpa using h.symm
  | e :: es, [], h, _ => by simp at h
  | e :: es, f :: fs, h, ho => by
    simp only [List.map_cons, List.cons.injEq] at h
    obtain ⟨h1, h2⟩ := h
    cases e <;> cases f <;> simp only [frame, reduceCtorEq] at h1
    case option.option n v l n' v' l' =>
      simp only [optsOf, List.filterMap_cons, List.cons.injEq, Prod.mk.injEq] at ho
      obtain ⟨⟨rfl, rfl, rfl⟩, ho⟩ := ho
      rw [eq_of_frame h2 ho]
    all_goals
      first | injection h1 | skip
      subst_vars
      rw [eq_of_frame h2 ho]

/-- What is reported for a message cut into buffers, option values included.  `ob` is the encoding of the options. -/
def exactReport (m : Msg) (ob : List UInt8) (cs : List (List UInt8)) (l : List UInt8) : List Event :=
  [.header ⟨UInt8.ofNat (64 * m.version + 16 * m.type + m.token.length), UInt8.ofNat m.code,
      UInt8.ofNat (m.mid / 256), UInt8.ofNat (m.mid % 256)⟩,
   .token m.token, .optionStart] ++
  cutOptions (cs ++ [l]) (4 + m.token.length) m.opts (ob ++ encPayload m.payload) ++
  (phantoms m cs l).map (fun k => .option (UInt16.ofNat k) [] true) ++
  [.optionsCompleted] ++
  (match m.payload with
   | none => []
   | some _ => payloadEvents (payloadPart (4 + m.token.length + ob.length + 1) (cs ++ [l])).1
      (payloadPart (4 + m.token.length + ob.length + 1) (cs ++ [l])).2) ++
  [.completed]

theorem cutOptions_frame (bufs : List (List UInt8)) (os : List Opt) : ∀ (k : Nat) (bs : List UInt8),
    (cutOptions bufs k os bs).map frame = (os.map fun o => Event.option (UInt16.ofNat o.number) o.value true).map frame := by
  induction os with
  | nil => intro _ _; rfl
  | cons o os ih => intro k bs; simp [cutOptions, ih, frame]

theorem exactReport_frame (m : Msg) (ob : List UInt8) (cs : List (List UInt8)) (l : List UInt8) :
    (exactReport m ob cs l).map frame = (cutReport m ob.length cs l).map frame := by
  unfold exactReport cutReport
  simp only [List.map_append, cutOptions_frame]

/-- C16, exactly and for every cut: a well-formed message, with any legal encoding of its options, delivered in any buffers
whatsoever (empty ones included), is decoded to completion, and `exactReport` is what is reported: of every option value the part
in the buffer in which the value starts, flagged as complete if that is all of it; of the payload the part in the buffer in
which the payload starts; and the options of `phantoms`, which the message does not have. -/
theorem every_cut_exact (m : Msg) (hm : m.Ok) (ob : List UInt8) (hob : IsOpts 0 m.opts ob) (junk : Dec)
    (hj : junk.tbuf.length = 8)
    (hst : junk.opt.st ≠ .payload ∨ m.token ≠ [] ∨ m.opts ≠ [] ∨ m.payload ≠ none)
    (cs : List (List UInt8)) (l : List UInt8) (hcut : cs.flatten ++ l = wire m ob) :
    ∃ N d', d'.st = .done ∧
      ∀ fuel, N ≤ fuel → deliverChunks fuel (fresh junk) cs l = .ok (d', exactReport m ob cs l) := by
  obtain ⟨N, d', evs, h1, h2, ⟨X, hX, hc⟩, h3⟩ := every_cut_inner m hm ob hob junk hj hst cs l hcut
  suffices h : evs = exactReport m ob cs l by exact ⟨N, d', h1, h ▸ h3⟩
  obtain ⟨B, hB, hB0⟩ := spots_wire m hm ob hob junk hj
  refine eq_of_frame ((Parts.frame_eq h2).trans (exactReport_frame m ob cs l).symm) ?_
  have hfl : (cs ++ [l]).flatten = wire m ob := by simpa using hcut
  have hpre : (cs ++ [l]).flatten = (encHeader m ++ m.token) ++ (ob ++ encPayload m.payload) := by
    rw [hfl]; simp [wire]
  have hlen : (encHeader m ++ m.token).length = 4 + m.token.length := by simp [encHeader]; omega
  have hcutopts := wireSpots_cut hob (encPayload m.payload) (cs ++ [l]) _ hpre
  rw [hlen, hB, List.map_append] at hcutopts
  have hshow := wireSpots_shown hob (encPayload m.payload)
  rw [hB, List.map_append] at hshow
  -- what is behind the options in the report has only made-up options
  generalize hP : optsOf ((phantoms m cs l).map fun k => Event.option (UInt16.ofNat k) [] true) = P
  have hpay : optsOf (match m.payload with
     | none => []
     | some _ => payloadEvents (payloadPart (4 + m.token.length + ob.length + 1) (cs ++ [l])).1
        (payloadPart (4 + m.token.length + ob.length + 1) (cs ++ [l])).2) = [] := by
    cases m.payload with
    | none => rfl
    | some p => exact optsOf_payloadEvents _ _
  have r1 : optsOf (cutReport m ob.length cs l) = optsOf (optEvents m.opts) ++ P := by
    unfold cutReport
    simp only [optsOf_append, hpay, hP, optEvents]
    simp [optsOf]
  have r2 : optsOf (exactReport m ob cs l) =
      optsOf (cutOptions (cs ++ [l]) (4 + m.token.length) m.opts (ob ++ encPayload m.payload)) ++ P := by
    unfold exactReport
    simp only [optsOf_append, hpay, hP]
    simp [optsOf]
  have hBcut : B.map (fun s => (s.cut (cs ++ [l])).shown) = B.map Spot.shown := by
    refine List.map_congr_left fun s hs => ?_
    simp [Spot.cut, Spot.shown, hB0 s hs]
  rw [r1, ← hshow, List.append_assoc, List.append_cancel_left_eq] at hc
  rw [hX, bufOpts_eq, hfl, r2, hcutopts, hBcut, hc, List.append_assoc]

/-- The payload bytes in one event. -/
def payloadOf : Event → List UInt8
  | .payload p _ => p
  | _ => []

/-- The payload bytes reported. -/
def payloadBytes (evs : List Event) : List UInt8 := evs.flatMap payloadOf

theorem payloadBytes_parts {a b : List Event} (h : Parts a b) : payloadBytes a = payloadBytes b := by
  induction h with
  | nil => rfl
  | @cons e f es fs p _ ih =>
    have : payloadOf e = payloadOf f := by
      cases e <;> simp only [Part] at p
      case option n v l => obtain ⟨v', l', rfl, -⟩ := p; rfl
      all_goals rw [p]
    simp only [payloadBytes, List.flatMap_cons] at ih ⊢
    rw [ih, this]

theorem payloadBytes_append (a b : List Event) : payloadBytes (a ++ b) = payloadBytes a ++ payloadBytes b := by
  simp [payloadBytes]

theorem payloadBytes_cutReport (m : Msg) (n : Nat) (cs : List (List UInt8)) (l : List UInt8) :
    payloadBytes (cutReport m n cs l) =
      match m.payload with | none => [] | some _ => (payloadPart (4 + m.token.length + n + 1) (cs ++ [l])).1 := by
  have h1 : ∀ q k, payloadBytes (payloadEvents q k) = q := by
    intro q k
    cases k with
    | zero => simp [payloadEvents, payloadBytes, payloadOf]
    | succ k =>
      have : ∀ j, payloadBytes (List.replicate j (.payload [] false)) = [] := by
        intro j; induction j with
        | zero => rfl
        | succ j ih => simp [List.replicate_succ, payloadBytes, payloadOf]
      rw [payloadEvents, ← List.singleton_append, payloadBytes_append, this]
      simp [payloadBytes, payloadOf]
  have h2 : ∀ os : List Opt, payloadBytes (os.map (fun o => .option (UInt16.ofNat o.number) o.value true)) = [] := by
    intro os; induction os with
    | nil => rfl
    | cons o os ih => simp [payloadBytes, payloadOf]
  have h3 : ∀ ks : List Nat, payloadBytes (ks.map (fun k => .option (UInt16.ofNat k) [] true)) = [] := by
    intro os; induction os with
    | nil => rfl
    | cons o os ih => simp [payloadBytes, payloadOf]
  unfold cutReport
  simp only [payloadBytes_append, h2, h3]
  cases m.payload with
  | none => simp [payloadBytes, payloadOf]
  | some p =>
    simp only [h1]
    simp [payloadBytes, payloadOf]

/-- C16, exactly: whatever the cut, the payload bytes reported are those in the buffer in which the payload
starts; all later ones are lost.  Nothing else about the report depends on the cut, except option values
that are cut, the made-up options of `phantoms`, and the number of parts of the payload. -/
theorem cut_effect (m : Msg) (hm : m.Ok) (ob : List UInt8) (hob : IsOpts 0 m.opts ob) (junk : Dec)
    (hj : junk.tbuf.length = 8)
    (hst : junk.opt.st ≠ .payload ∨ m.token ≠ [] ∨ m.opts ≠ [] ∨ m.payload ≠ none)
    (cs : List (List UInt8)) (l : List UInt8) (hcut : cs.flatten ++ l = wire m ob) :
    ∃ N d' evs, (∀ fuel, N ≤ fuel → deliverChunks fuel (fresh junk) cs l = .ok (d', evs)) ∧
      payloadBytes evs = (match m.payload with
        | none => []
        | some _ => (payloadPart (4 + m.token.length + ob.length + 1) (cs ++ [l])).1) ∧
      (evs.map outline = (delivery m).map outline ↔
        phantoms m cs l = [] ∧
        ∀ p, m.payload = some p → payloadPart (4 + m.token.length + ob.length + 1) (cs ++ [l]) = (p, 0)) := by
  obtain ⟨N, d', evs, h1, h2, h3⟩ := every_cut_reported m hm ob hob junk hj hst cs l hcut
  refine ⟨N, d', evs, h3, by rw [payloadBytes_parts h2, payloadBytes_cutReport], ?_⟩
  rw [Parts.outline_eq h2]
  cases hp : m.payload with
  | none =>
    simp only [cutReport, delivery, hp, List.map_append, List.append_nil, List.append_assoc]
    rw [List.append_cancel_left_eq, List.append_cancel_left_eq]
    constructor
    · intro h
      have := congrArg List.length h
      simp at this
      exact ⟨this, fun _ h => absurd h (by simp)⟩
    · rintro ⟨h, -⟩; simp [h]
  | some p =>
    have hph : phantoms m cs l = [] := phantoms_nil_of (Or.inl (by simp [hp]))
    simp only [cutReport, delivery, hp, List.map_append, hph, List.map_nil, List.append_nil, List.append_assoc, true_and]
    rw [List.append_cancel_left_eq, List.append_cancel_left_eq, List.append_cancel_left_eq, List.append_cancel_right_eq]
    generalize payloadPart (4 + m.token.length + ob.length + 1) (cs ++ [l]) = r
    obtain ⟨q, n⟩ := r
    constructor
    · intro h x hx
      cases hx
      cases n with
      | zero => simp [payloadEvents, outline] at h; rw [h]
      | succ n => simp [payloadEvents, outline] at h
    · intro h
      have h := h p rfl
      cases h
      rfl

theorem payloadPart_last (k : Nat) (cs : List (List UInt8)) (l p : List UInt8) (hk : k ≠ 0) (hcs : ∀ c ∈ cs, c ≠ [])
    (hlen : (cs.flatten ++ l).length = k + p.length) (hp : (cs.flatten ++ l).drop k = p) (hpne : p ≠ []) (hl : l ≠ []) :
    payloadPart k (cs ++ [l]) = (p, 0) ↔ p.length ≤ l.length := by
  induction cs generalizing k with
  | nil =>
    simp only [List.flatten_nil, List.nil_append] at *
    have := List.length_pos_iff.mpr hpne
    have hlt : k < l.length := by omega
    simp only [payloadPart, hlt, or_true, if_true, hp, List.length_nil, true_iff]
    omega
  | cons c cs ih =>
    have hc := List.length_pos_iff.mpr (hcs c (by simp))
    have hp0 := List.length_pos_iff.mpr hpne
    have hl0 := List.length_pos_iff.mpr hl
    simp only [List.flatten_cons, List.append_assoc, List.length_append] at hlen hp
    by_cases hlt : k < c.length
    · simp only [List.cons_append, payloadPart, hlt, or_true, if_true, Prod.mk.injEq]
      constructor
      · rintro ⟨-, h⟩; simp at h
      · intro h; omega
    · have h1 : ¬ (k = 0 ∨ k < c.length) := by omega
      rw [List.cons_append, payloadPart, if_neg h1]
      by_cases hk0 : k - c.length = 0
      · -- the marker ends this buffer
        cases cs with
        | nil =>
          simp only [List.nil_append, payloadPart, hk0, true_or, if_true, List.drop_zero, List.length_nil, Prod.mk.injEq]
          have hpl : l = p := by
            rw [List.drop_append, List.drop_eq_nil_of_le (by omega), hk0] at hp
            simpa using hp
          simp [hpl]
        | cons c2 cs2 =>
          have hc2 := List.length_pos_iff.mpr (hcs c2 (by simp))
          simp only [List.cons_append, payloadPart, hk0, true_or, if_true, List.drop_zero, Prod.mk.injEq]
          constructor
          · rintro ⟨-, h⟩; simp at h
          · intro h; simp at hlen; omega
      · exact ih (k - c.length) hk0 (fun x hx => hcs x (by simp [hx])) (by simp only [List.length_append]; omega) (by
          rw [List.drop_append, List.drop_eq_nil_of_le (by omega)] at hp
          simpa using hp)

/-- C16 for cuts into non-empty buffers: the report is independent of the cut (up to cut option values) if
and only if the last buffer holds the whole payload. -/
theorem nonempty_cut_iff (m : Msg) (hm : m.Ok) (ob : List UInt8) (hob : IsOpts 0 m.opts ob) (junk : Dec)
    (hj : junk.tbuf.length = 8)
    (hst : junk.opt.st ≠ .payload ∨ m.token ≠ [] ∨ m.opts ≠ [] ∨ m.payload ≠ none)
    (cs : List (List UInt8)) (l : List UInt8) (hcut : cs.flatten ++ l = wire m ob) (hcs : ∀ c ∈ cs, c ≠ []) (hl : l ≠ []) :
    ∃ N d' evs, (∀ fuel, N ≤ fuel → deliverChunks fuel (fresh junk) cs l = .ok (d', evs)) ∧
      (evs.map outline = (delivery m).map outline ↔ (m.payload.getD []).length ≤ l.length) := by
  obtain ⟨N, d', evs, h1, -, h3⟩ := cut_effect m hm ob hob junk hj hst cs l hcut
  refine ⟨N, d', evs, h1, h3.trans ?_⟩
  rw [phantoms_nil_of (Or.inr hl)]
  cases hp : m.payload with
  | none => simp
  | some p =>
    have hpne : p ≠ [] := by intro h; rw [h] at hp; exact hm.2.2.2.2.2.2 hp
    have hlen : (encHeader m ++ m.token ++ ob ++ [0xFF]).length = 4 + m.token.length + ob.length + 1 := by
      simp [encHeader]; omega
    have hw : cs.flatten ++ l = (encHeader m ++ m.token ++ ob ++ [0xFF]) ++ p := by rw [hcut]; simp [wire, hp, encPayload]
    have := payloadPart_last (4 + m.token.length + ob.length + 1) cs l p (by omega) hcs
      (by rw [hw, List.length_append, hlen]) (by rw [hw, ← hlen, List.drop_left]) hpne hl
    simpa using this

-- the payload 9 10 of `splitSample` cut after its first byte, and with an empty buffer behind the marker
example : cutReport splitSample (encOpts 0 splitSample.opts).length
      [[0x42, 1, 0x12, 0x34, 7, 8, 0xB3, 1, 2, 3, 0xE1, 0, 20, 4, 0xFF, 9]] [10] =
    [.header ⟨0x42, 1, 0x12, 0x34⟩, .token [7, 8], .optionStart, .option 11 [1, 2, 3] true, .option 300 [4] true,
      .optionsCompleted, .payload [9] false, .payload [] false, .completed] := by decide +kernel
example : cutReport splitSample (encOpts 0 splitSample.opts).length
      [[0x42, 1, 0x12, 0x34, 7, 8, 0xB3, 1, 2, 3, 0xE1, 0, 20, 4, 0xFF], []] [9, 10] =
    [.header ⟨0x42, 1, 0x12, 0x34⟩, .token [7, 8], .optionStart, .option 11 [1, 2, 3] true, .option 300 [4] true,
      .optionsCompleted, .payload [] false, .completed] := by decide +kernel
example : ∃ d, deliverChunks 60 Dec.zero
      [[0x42, 1, 0x12, 0x34, 7, 8, 0xB3, 1, 2, 3, 0xE1, 0, 20, 4, 0xFF], []] [9, 10] =
    .ok (d, [.header ⟨0x42, 1, 0x12, 0x34⟩, .token [7, 8], .optionStart, .option 11 [1, 2, 3] true, .option 300 [4] true,
      .optionsCompleted, .payload [] false, .completed]) := ⟨_, rfl⟩
-- cut inside an option value, behind an option header and inside the payload
example : exactReport splitSample (encOpts 0 splitSample.opts)
      [[0x42, 1, 0x12, 0x34, 7, 8, 0xB3, 1, 2], [3, 0xE1, 0, 20], [4, 0xFF, 9]] [10] =
    [.header ⟨0x42, 1, 0x12, 0x34⟩, .token [7, 8], .optionStart, .option 11 [1, 2] false, .option 300 [4] true,
      .optionsCompleted, .payload [9] false, .payload [] false, .completed] := by decide +kernel
example : ∃ d, deliverChunks 60 Dec.zero
      [[0x42, 1, 0x12, 0x34, 7, 8, 0xB3, 1, 2], [3, 0xE1, 0, 20], [4, 0xFF, 9]] [10] =
    .ok (d, [.header ⟨0x42, 1, 0x12, 0x34⟩, .token [7, 8], .optionStart, .option 11 [1, 2] false, .option 300 [4] true,
      .optionsCompleted, .payload [9] false, .payload [] false, .completed]) := ⟨_, rfl⟩
-- no options, three empty buffers behind the header
example : phantoms ⟨1, 0, 1, 1, [], [], none⟩ [[0x40, 1, 0, 1], [], [], []] [] = [0] := by decide
example : phantoms ⟨1, 0, 1, 1, [], [], none⟩ [[0x40, 1, 0, 1], [], []] [] = [] := by decide

end Verif.Props
