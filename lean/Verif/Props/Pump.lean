import Verif.Model.Pump
import Verif.Props.Legacy

/-! # Messages from a data pump (C58) -/
namespace Verif.Props
open Verif.Model Verif.Proofs Verif.Spec Dec

/-- C58 (partial: the first datagram, in one chunk, with a payload): the observer is told the message, in order and
once. -/
theorem pump_first_partial (m : Msg) (hm : m.Ok) (ob : List UInt8) (hob : IsOpts 0 m.opts ob) (junk : Dec) (hj : junk.tbuf.length = 8)
    (hp : m.payload ≠ none) :
    ∃ N d', ∀ fuel, N ≤ fuel → pump fuel (fresh junk) [[wire m ob]] = .ok (d', [owed m]) := by
  obtain ⟨N, d', h⟩ := legacy_one_buffer m hm ob hob junk hj
  refine ⟨N, d', fun fuel hf => ?_⟩
  have := h fuel hf
  rw [if_neg hp] at this
  simp only [legacyChunks] at this
  simp only [pump, pumpDispatch, List.headD_cons]
  split at this
  · cases this
  · rename_i e
    simp only [Except.ok.injEq, Prod.mk.injEq] at this
    rw [e]
    simp [this.1, this.2]

/-- C58 fails for a datagram in several chunks: what is in the second and later ones makes no difference. -/
theorem pump_chunks_ignored (fuel : Nat) (d : Dec) (c : List UInt8) (rest rest' : List (List UInt8)) (gs : List (List (List UInt8))) :
    pump fuel d ((c :: rest) :: gs) = pump fuel d ((c :: rest') :: gs) := rfl

/-- C58 fails for two datagrams whose first chunk is the same: whatever the observer is told, it is wrong for one. -/
theorem pump_chunks_not_told (m1 m2 : Msg) (hne : owed m1 ≠ owed m2) (ob1 ob2 c r1 r2 : List UInt8)
    (_h1 : wire m1 ob1 = c ++ r1) (_h2 : wire m2 ob2 = c ++ r2) (fuel : Nat) (d : Dec) :
    ¬∃ d1 d2, pump fuel d [[c, r1]] = .ok (d1, [owed m1]) ∧ pump fuel d [[c, r2]] = .ok (d2, [owed m2]) := by
  rintro ⟨d1, d2, e1, e2⟩
  rw [pump_chunks_ignored fuel d c [r2] [r1], e1] at e2
  simp only [Except.ok.injEq, Prod.mk.injEq, List.cons.injEq, and_true] at e2
  exact hne e2.2

/-- C58 fails for the second datagram: after one with a payload, nothing is told of the next, whatever it is. -/
theorem pump_second_lost (m : Msg) (hm : m.Ok) (ob : List UInt8) (hob : IsOpts 0 m.opts ob) (junk : Dec) (hj : junk.tbuf.length = 8)
    (hp : m.payload ≠ none) (g : List (List UInt8)) :
    ∃ N d', ∀ fuel, N ≤ fuel → pump fuel (fresh junk) [[wire m ob], g] = .ok (d', [owed m, []]) := by
  obtain ⟨N, d', d2, evs, h1, h2, -⟩ := legacy_next_message_stuck m hm ob hob junk hj hp [] (wire m ob) rfl (g.headD []) true
  obtain ⟨N', d'', h'⟩ := legacy_one_buffer m hm ob hob junk hj
  refine ⟨max N N' + 1, d2, fun fuel hf => ?_⟩
  have e1 := h1 fuel (by omega)
  have e' := h' fuel (by omega)
  rw [if_neg hp, e1] at e'
  simp only [Except.ok.injEq, Prod.mk.injEq] at e'
  obtain ⟨rfl, rfl⟩ := e'
  simp only [legacyChunks] at e1
  simp only [pump, pumpDispatch, List.headD_cons]
  split at e1
  · cases e1
  · rename_i e
    simp only [Except.ok.injEq, Prod.mk.injEq] at e1
    obtain ⟨rfl, rfl⟩ := e1
    rw [e]
    simp only []
    rw [h2 fuel (by omega)]

/-- What the observer is told when datagrams with a payload come through the pump one after the other: every other
one is lost, and the ones after a lost one begin with another completion. -/
def pumpTold (again : Bool) : List Msg → List (List LEvent)
  | [] => []
  | [m] => [(if again then [.complete] else []) ++ owed m]
  | m :: _ :: ms => ((if again then [.complete] else []) ++ owed m) :: [] :: pumpTold true ms

theorem headerLoop_tbuf (r : List UInt8) : ∀ (d : Dec) (n : Nat) (d' : Dec) (k : Nat) (f : Bool), headerLoop d r n = .ok (d', k, f) →
    d'.tbuf = d.tbuf := by
  induction r with
  | nil => intro d n d' k f h; simp only [headerLoop, Except.ok.injEq, Prod.mk.injEq] at h; rw [← h.1]
  | cons b bs ih =>
    intro d n d' k f h
    simp only [headerLoop] at h
    split at h
    · cases h
    · split at h
      · simp only [Except.ok.injEq, Prod.mk.injEq] at h; rw [← h.1]
      · rw [ih _ _ _ _ _ h]

theorem tokenLoop_tbuf (r : List UInt8) : ∀ (d : Dec) (n : Nat) (d' : Dec) (k : Nat) (f : Bool), tokenLoop d r n = .ok (d', k, f) →
    d'.tbuf.length = d.tbuf.length := by
  induction r with
  | nil => intro d n d' k f h; simp only [tokenLoop, Except.ok.injEq, Prod.mk.injEq] at h; rw [← h.1]
  | cons b bs ih =>
    intro d n d' k f h
    simp only [tokenLoop] at h
    split at h
    · cases h
    · rename_i hw
      have hl : ∀ (l l' : List UInt8) (i : Nat), writeAt l i b = some l' → l'.length = l.length := by
        intro l l' i hw
        simp only [writeAt] at hw
        split at hw
        · injection hw with hw; rw [← hw]; simp
        · cases hw
      split at h
      · simp only [Except.ok.injEq, Prod.mk.injEq] at h; rw [← h.1]; exact hl _ _ _ hw
      · rw [ih _ _ _ _ _ h]; exact hl _ _ _ hw

theorem step_tbuf (d : Dec) (c : Ctx) (d' : Dec) (c' : Ctx) (h : d.step c = .ok (d', c')) : d'.tbuf.length = d.tbuf.length := by
  unfold step at h
  split at h
  case h_2 =>
    split at h
    · cases h
    · rename_i hh
      simp only [Except.ok.injEq, Prod.mk.injEq] at h; rw [← h.1]
      have := headerLoop_tbuf _ _ _ _ _ _ hh
      exact congrArg List.length this
  case h_5 =>
    split at h
    · cases h
    · rename_i hh
      simp only [Except.ok.injEq, Prod.mk.injEq] at h; rw [← h.1]
      have := tokenLoop_tbuf _ _ _ _ _ _ hh
      exact this
  all_goals
    repeat' split at h
    all_goals first
      | (cases h; done)
      | (simp only [Except.ok.injEq, Prod.mk.injEq] at h; rw [← h.1]; done)
      | (simp only [] at h
         by_cases hc : (c.pos + ‹Nat› == c.chunk.length && c.last) = true
         · rw [if_pos hc] at h; simp only [Except.ok.injEq, Prod.mk.injEq] at h; rw [← h.1]
         · rw [if_neg hc] at h; simp only [Except.ok.injEq, Prod.mk.injEq] at h; rw [← h.1])

theorem legacyIterate_tbuf (d : Dec) (c : Ctx) (d' : Dec) (c' : Ctx) (es : List LEvent) (h : d.legacyIterate c = .ok (d', c', es)) :
    d'.tbuf.length = d.tbuf.length := by
  unfold legacyIterate at h
  split at h
  · cases h
  · rename_i es1 d1 h1
    have hd : d1.tbuf = d.tbuf := by
      unfold legacyDispatch at h1
      split at h1
      all_goals first
        | (simp only [Except.ok.injEq, Prod.mk.injEq] at h1; rw [← h1.2]; done)
        | skip
      · split at h1
        · cases h1
        · simp only [Except.ok.injEq, Prod.mk.injEq] at h1; rw [← h1.2]
      · simp only [Except.ok.injEq] at h1
        have : d1 = (d.legacyOption c).2 := by rw [h1]
        rw [this]
        unfold legacyOption legacyValue
        repeat' split
        all_goals rfl
    split at h
    · cases h
    · rename_i hs
      simp only [Except.ok.injEq, Prod.mk.injEq] at h
      rw [← h.1, step_tbuf _ _ _ _ hs, hd]

theorem legacyRun_tbuf (fuel : Nat) : ∀ (d : Dec) (c : Ctx) (d' : Dec) (c' : Ctx) (es : List LEvent),
    legacyRun fuel d c = .ok (d', c', es) → d'.tbuf.length = d.tbuf.length := by
  induction fuel with
  | zero => intro d c d' c' es h; simp [legacyRun] at h
  | succ f ih =>
    intro d c d' c' es h
    simp only [legacyRun] at h
    split at h
    · cases h
    · rename_i hi
      split at h
      · simp only [Except.ok.injEq, Prod.mk.injEq] at h; rw [← h.1]; exact legacyIterate_tbuf _ _ _ _ _ hi
      · split at h
        · cases h
        · rename_i hr
          simp only [Except.ok.injEq, Prod.mk.injEq] at h
          rw [← h.1, ih _ _ _ _ _ hr]; exact legacyIterate_tbuf _ _ _ _ _ hi

/-- One datagram with a payload: what is told of it, and the state it leaves. -/
theorem pumpDispatch_message (m : Msg) (hm : m.Ok) (ob : List UInt8) (hob : IsOpts 0 m.opts ob) (junk : Dec) (hj : junk.tbuf.length = 8)
    (hp : m.payload ≠ none) :
    ∃ N d', d'.st = .payloadDone ∧ d'.tbuf.length = 8 ∧ ∀ fuel, N ≤ fuel →
      pumpDispatch fuel (fresh junk) [wire m ob] = .ok (d', owed m) ∧
      pumpDispatch (fuel + 1) { junk with st := .done } [wire m ob] = .ok (d', .complete :: owed m) := by
  obtain ⟨N, d', evs, h1, -, hst⟩ := legacy_payload_message_partial m hm ob hob junk hj hp [] (wire m ob) rfl
  obtain ⟨N', d'', h'⟩ := legacy_one_buffer m hm ob hob junk hj
  have key : ∀ fuel, max N N' ≤ fuel → ∃ c, legacyRun fuel (fresh junk) ⟨wire m ob, 0, true⟩ = .ok (d', c, owed m) := by
    intro fuel hf
    have e1 := h1 fuel (by omega)
    have e' := h' fuel (by omega)
    rw [if_neg hp, e1] at e'
    simp only [Except.ok.injEq, Prod.mk.injEq] at e'
    obtain ⟨rfl, rfl⟩ := e'
    simp only [legacyChunks] at e1
    split at e1
    · cases e1
    · rename_i e
      simp only [Except.ok.injEq, Prod.mk.injEq] at e1
      obtain ⟨rfl, rfl⟩ := e1
      exact ⟨_, e⟩
  have hne : wire m ob ≠ [] := (wire_chunkEnd m hm ob hob junk hj (Or.inr (Or.inr (Or.inr hp)))).2.2.1
  refine ⟨max N N', d', hst, ?_, fun fuel hf => ?_⟩
  · obtain ⟨c, hc⟩ := key _ (Nat.le_refl _)
    rw [legacyRun_tbuf _ _ _ _ _ _ hc]; exact hj
  · obtain ⟨c, hc⟩ := key fuel hf
    refine ⟨by simp only [pumpDispatch, List.headD_cons, hc], ?_⟩
    have hl : 0 < (wire m ob).length := List.length_pos_iff.2 hne
    have ha : atEnd ⟨wire m ob, 0, true⟩ = false := by simp [atEnd]; omega
    simp only [pumpDispatch, List.headD_cons, legacyRun, legacyIterate, legacyDispatch, step, ha]
    have : ({ junk with st := .uninitialized } : Dec) = fresh junk := rfl
    simp [this, hc]

/-- A datagram after one with a payload: nothing is told of it. -/
theorem pumpDispatch_lost (d : Dec) (hs : d.st = .payloadDone) (g : List (List UInt8)) (fuel : Nat) (hf : 0 < fuel) :
    pumpDispatch fuel d g = .ok ({ d with st := .done }, []) := by
  obtain ⟨f, rfl⟩ : ∃ f, fuel = f + 1 := ⟨fuel - 1, by omega⟩
  simp [pumpDispatch, legacyRun, legacyIterate, legacyDispatch, hs, step]

/-- C58 for any number of datagrams with a payload, each in one chunk: exactly what the observer is told, datagram by
datagram.  Every other datagram is consumed and lost. -/
theorem pump_sequence (ms : List (Msg × List UInt8)) :
    (∀ x ∈ ms, x.1.Ok ∧ IsOpts 0 x.1.opts x.2 ∧ x.1.payload ≠ none) → ∀ junk : Dec, junk.tbuf.length = 8 →
    ∃ N, ∀ fuel, N ≤ fuel →
      (∃ d', pump fuel (fresh junk) (ms.map fun x => [wire x.1 x.2]) = .ok (d', pumpTold false (ms.map (·.1)))) ∧
      (∃ d', pump fuel { junk with st := .done } (ms.map fun x => [wire x.1 x.2]) = .ok (d', pumpTold true (ms.map (·.1)))) := by
  match ms with
  | [] => intro _ junk _; exact ⟨0, fun fuel _ => ⟨⟨_, rfl⟩, ⟨_, rfl⟩⟩⟩
  | [x] =>
    intro h junk hj
    obtain ⟨h1, h2, h3⟩ := h x (by simp)
    obtain ⟨N, d', -, -, hN⟩ := pumpDispatch_message x.1 h1 x.2 h2 junk hj h3
    refine ⟨N + 1, fun fuel hf => ⟨⟨d', ?_⟩, ⟨d', ?_⟩⟩⟩
    · simp [pump, pumpTold, (hN fuel (by omega)).1]
    · obtain ⟨f, rfl⟩ : ∃ f, fuel = f + 1 := ⟨fuel - 1, by omega⟩
      simp [pump, pumpTold, (hN f (by omega)).2]
  | x :: y :: rest =>
    intro h junk hj
    obtain ⟨h1, h2, h3⟩ := h x (by simp)
    obtain ⟨N, d', hst, htb, hN⟩ := pumpDispatch_message x.1 h1 x.2 h2 junk hj h3
    obtain ⟨N', hN'⟩ := pump_sequence rest (fun z hz => h z (by simp [hz])) d' htb
    refine ⟨max N N' + 1, fun fuel hf => ?_⟩
    obtain ⟨f, rfl⟩ : ∃ f, fuel = f + 1 := ⟨fuel - 1, by omega⟩
    obtain ⟨-, dr, hr⟩ := hN' (f + 1) (by omega)
    refine ⟨⟨dr, ?_⟩, ⟨dr, ?_⟩⟩
    · simp [pump, pumpTold, (hN (f + 1) (by omega)).1, pumpDispatch_lost d' hst, hr]
    · simp [pump, pumpTold, (hN f (by omega)).2, pumpDispatch_lost d' hst, hr]

/-- Where a dispatch stands that is past the header of its message and not at its end. -/
def Past (h : Header) (d : Dec) : Prop := d.hdr = h ∧ d.st ≠ .uninitialized ∧ d.st ≠ .header

theorem tokenLoop_hdr (r : List UInt8) : ∀ (d : Dec) (n : Nat) (d' : Dec) (k : Nat) (f : Bool), tokenLoop d r n = .ok (d', k, f) →
    d'.hdr = d.hdr := by
  induction r with
  | nil => intro d n d' k f h; simp only [tokenLoop, Except.ok.injEq, Prod.mk.injEq] at h; rw [← h.1]
  | cons b bs ih =>
    intro d n d' k f h
    simp only [tokenLoop] at h
    split at h
    · cases h
    · split at h
      · simp only [Except.ok.injEq, Prod.mk.injEq] at h; rw [← h.1]
      · rw [ih _ _ _ _ _ h]

theorem step_past {h : Header} {d : Dec} {c : Ctx} {d' : Dec} {c' : Ctx} (hp : Past h d) (hd : d.st ≠ .done)
    (e : d.step c = .ok (d', c')) : Past h d' := by
  obtain ⟨h1, h2, h3⟩ := hp
  subst h1
  unfold step at e
  split at e
  case h_1 hs => exact absurd hs h2
  case h_2 hs => exact absurd hs h3
  case h_12 hs => exact absurd hs hd
  case h_5 =>
    split at e
    · cases e
    · rename_i hh
      simp only [Except.ok.injEq, Prod.mk.injEq] at e
      rw [← e.1]
      have := tokenLoop_hdr _ _ _ _ _ _ hh
      refine ⟨this, ?_, ?_⟩ <;> (simp only []; split <;> simp)
  case h_8 hs =>
    split at e
    · cases e
    · simp only [] at e
      repeat' split at e
      all_goals
        simp only [Except.ok.injEq, Prod.mk.injEq] at e
        rw [← e.1]
        refine ⟨rfl, ?_, ?_⟩ <;> simp only [] <;> (try split) <;> simp_all
  all_goals
    repeat' split at e
    all_goals first
      | (cases e; done)
      | (simp only [Except.ok.injEq, Prod.mk.injEq] at e
         rw [← e.1]
         refine ⟨rfl, ?_, ?_⟩ <;> simp only [] <;> (try split) <;> simp)

theorem dispatch_past {h : Header} {d : Dec} {c : Ctx} {d' : Dec} {es : List LEvent} (hp : Past h d)
    (e : d.legacyDispatch c = .ok (es, d')) : Past h d' ∧ d'.st = d.st ∧ ∀ x, LEvent.header x ∈ es → x = h := by
  obtain ⟨h1, h2, h3⟩ := hp
  subst h1
  unfold legacyDispatch at e
  split at e
  case h_1 => simp only [Except.ok.injEq, Prod.mk.injEq] at e; obtain ⟨rfl, rfl⟩ := e; exact ⟨⟨rfl, h2, h3⟩, rfl, by simp⟩
  case h_2 =>
    split at e
    · cases e
    · rename_i he
      simp only [Except.ok.injEq, Prod.mk.injEq] at e; obtain ⟨rfl, rfl⟩ := e
      refine ⟨⟨rfl, h2, h3⟩, rfl, ?_⟩
      unfold legacyToken at he
      repeat' split at he
      all_goals first
        | (cases he; done)
        | (cases he; simp)
  case h_3 =>
    simp only [Except.ok.injEq] at e
    have e1 : es = (d.legacyOption c).1 := by rw [e]
    have e2 : d' = (d.legacyOption c).2 := by rw [e]
    subst e1; subst e2
    unfold legacyOption legacyValue
    repeat' split
    all_goals exact ⟨⟨rfl, h2, h3⟩, rfl, by simp⟩
  case h_4 =>
    simp only [Except.ok.injEq, Prod.mk.injEq] at e; obtain ⟨rfl, rfl⟩ := e
    refine ⟨⟨rfl, h2, h3⟩, rfl, ?_⟩
    split <;> simp
  all_goals (simp only [Except.ok.injEq, Prod.mk.injEq] at e; obtain ⟨rfl, rfl⟩ := e; exact ⟨⟨rfl, h2, h3⟩, rfl, by simp⟩)

theorem run_past {h : Header} (fuel : Nat) : ∀ {d : Dec} {c : Ctx} {d' : Dec} {c' : Ctx} {es : List LEvent}, Past h d → d.st ≠ .done →
    legacyRun fuel d c = .ok (d', c', es) → Past h d' ∧ ∀ x, LEvent.header x ∈ es → x = h := by
  induction fuel with
  | zero => intro d c d' c' es _ _ e; simp [legacyRun] at e
  | succ f ih =>
    intro d c d' c' es hp hd e
    simp only [legacyRun] at e
    split at e
    · cases e
    · rename_i d1 c1 es1 hi
      have hit : Past h d1 ∧ ∀ x, LEvent.header x ∈ es1 → x = h := by
        unfold legacyIterate at hi
        split at hi
        · cases hi
        · rename_i h1
          obtain ⟨a, b, g⟩ := dispatch_past hp h1
          split at hi
          · cases hi
          · rename_i hs
            simp only [Except.ok.injEq, Prod.mk.injEq] at hi
            obtain ⟨rfl, rfl, rfl⟩ := hi
            exact ⟨step_past a (by rw [b]; exact hd) hs, g⟩
      by_cases hend : (atEnd c1 || d1.st == .done) = true
      · rw [if_pos hend] at e
        simp only [Except.ok.injEq, Prod.mk.injEq] at e
        obtain ⟨rfl, rfl, rfl⟩ := e
        exact hit
      · rw [if_neg hend] at e
        have hnd : d1.st ≠ .done := by intro h; simp [h] at hend
        split at e
        · cases e
        · rename_i hr
          simp only [Except.ok.injEq, Prod.mk.injEq] at e
          obtain ⟨rfl, rfl, rfl⟩ := e
          obtain ⟨a, b⟩ := ih hit.1 hnd hr
          refine ⟨a, fun x hx => ?_⟩
          rcases List.mem_append.1 hx with hx | hx
          · exact hit.2 x hx
          · exact b x hx

/-- The header of a message as the observer is told it. -/
def firstHeader (m : Msg) : Header :=
  ⟨UInt8.ofNat (64 * m.version + 16 * m.type + m.token.length), UInt8.ofNat m.code, UInt8.ofNat (m.mid / 256), UInt8.ofNat (m.mid % 256)⟩

/-- The first datagram, in one chunk: only its own header is told, and the decoder is left inside this message. -/
theorem first_open (m : Msg) (junk : Dec) (ob : List UInt8)
    (fuel : Nat) (d' : Dec) (es : List LEvent) (e : pumpDispatch fuel (fresh junk) [wire m ob] = .ok (d', es)) :
    Past (firstHeader m) d' ∧ (∀ x, LEvent.header x ∈ es → x = firstHeader m) := by
  simp only [pumpDispatch, List.headD_cons] at e
  split at e
  · cases e
  · rename_i d1 c1 es1 hr
    simp only [Except.ok.injEq, Prod.mk.injEq] at e
    obtain ⟨rfl, rfl⟩ := e
    obtain ⟨r, hw⟩ : ∃ r, wire m ob = UInt8.ofNat (64 * m.version + 16 * m.type + m.token.length) :: UInt8.ofNat m.code ::
        UInt8.ofNat (m.mid / 256) :: UInt8.ofNat (m.mid % 256) :: r := ⟨m.token ++ ob ++ encPayload m.payload, by simp [wire, encHeader]⟩
    rw [hw] at hr
    match fuel with
    | 0 => simp [legacyRun] at hr
    | 1 => simp [legacyRun, legacyIterate, legacyDispatch, fresh, step, atEnd] at hr
    | f + 2 =>
      have hp2 : Past (firstHeader m) { fresh junk with st := .headerDone, hdr := firstHeader m, hpos := 4 } :=
        ⟨rfl, by simp, by simp⟩
      have key : ∀ b0 b1 b2 b3 : UInt8, ∀ c : Ctx, c = ⟨b0 :: b1 :: b2 :: b3 :: r, 0, true⟩ →
          legacyRun (f + 2) (fresh junk) c =
          if r = [] then .ok ({ fresh junk with st := .headerDone, hdr := ⟨b0, b1, b2, b3⟩, hpos := 4 }, { c with pos := 4 }, [])
          else match legacyRun f { fresh junk with st := .headerDone, hdr := ⟨b0, b1, b2, b3⟩, hpos := 4 } { c with pos := 4 } with
            | .error e => .error e
            | .ok (d, c, evs') => .ok (d, c, [] ++ ([] ++ evs')) := by
        intro b0 b1 b2 b3 c hc
        subst hc
        cases r with
        | nil => simp [legacyRun, legacyIterate, legacyDispatch, fresh, step, atEnd, Ctx.remainder, headerLoop, writeHeader]
        | cons x xs =>
          simp [legacyRun, legacyIterate, legacyDispatch, fresh, step, atEnd, Ctx.remainder, headerLoop, writeHeader]
          generalize legacyRun f _ _ = z
          rcases z with e | ⟨d, c, es⟩ <;> rfl
      rw [key _ _ _ _ _ rfl] at hr
      split at hr
      · simp only [Except.ok.injEq, Prod.mk.injEq] at hr
        obtain ⟨rfl, -, rfl⟩ := hr
        exact ⟨hp2, by simp⟩
      · split at hr
        · cases hr
        · rename_i h2
          simp only [Except.ok.injEq, Prod.mk.injEq] at hr
          obtain ⟨rfl, -, rfl⟩ := hr
          obtain ⟨a, b⟩ := run_past f hp2 (by simp) h2
          exact ⟨a, by simpa using b⟩

theorem first_not_done (m : Msg) (hm : m.Ok) (ob : List UInt8) (hob : IsOpts 0 m.opts ob) (junk : Dec) (hj : junk.tbuf.length = 8) :
    ∃ N d' es, d'.st ≠ .done ∧ ∀ fuel, N ≤ fuel → pumpDispatch fuel (fresh junk) [wire m ob] = .ok (d', es) := by
  have hh : HOK (fresh junk) (wire m ob) ∧ wire m ob ≠ [] := by
    by_cases hp : m.payload = none
    · obtain ⟨-, -, -, h1, h2, -⟩ := nopayload_feed m hm ob hob junk hj hp
      exact ⟨h1, h2⟩
    · obtain ⟨-, h1, h2, -⟩ := wire_chunkEnd m hm ob hob junk hj (Or.inr (Or.inr (Or.inr hp)))
      exact ⟨h1, h2⟩
  obtain ⟨a1, a2, a3, a4, -⟩ := fresh_left junk hj (wire m ob) hh.1
  have hr : (⟨wire m ob, 0, true⟩ : Ctx).remainder = wire m ob := rfl
  have hi : DInv (fresh junk) ⟨wire m ob, 0, true⟩ :=
    ⟨by simp, hj, by simp [fresh], by simp [fresh], by simp [fresh], by simp [fresh], by simp [fresh], by simp [fresh]⟩
  obtain ⟨N, d', evs, X', hrun, hX, hX', -⟩ := legacy_chunk _ (fresh junk) ⟨wire m ob, 0, true⟩ [] (lfeed (fresh junk) (wire m ob))
    (Nat.lt_succ_self _) (by simpa [hr] using a1) a4 hi (by simpa [hr] using a3) (fun _ => rfl) (Or.inl ⟨hh.2, by simp [Going, fresh]⟩)
  refine ⟨N, d', evs, (hX' rfl).2.2.2, fun fuel hf => ?_⟩
  simp only [pumpDispatch, List.headD_cons, hrun fuel hf]

/-- C58 fails for every second datagram: after a datagram with any message, with or without a payload, no call for the
next one tells a header other than that of the first. -/
theorem pump_second_header_untold (m : Msg) (hm : m.Ok) (ob : List UInt8) (hob : IsOpts 0 m.opts ob) (junk : Dec)
    (hj : junk.tbuf.length = 8) (g : List (List UInt8)) :
    ∃ N, ∀ fuel, N ≤ fuel → ∀ d es, pump fuel (fresh junk) [[wire m ob], g] = .ok (d, es) →
      ∀ evs ∈ es, ∀ x, LEvent.header x ∈ evs → x = firstHeader m := by
  obtain ⟨N, d1, e1, hd, h1⟩ := first_not_done m hm ob hob junk hj
  refine ⟨N, fun fuel hf d es e => ?_⟩
  obtain ⟨hp, h2⟩ := first_open m junk ob fuel d1 e1 (h1 fuel hf)
  simp only [pump, h1 fuel hf] at e
  split at e
  · cases e
  · rename_i h3
    split at h3
    · cases h3
    · rename_i d2 e2 h4
      simp only [Except.ok.injEq, Prod.mk.injEq] at h3 e
      obtain ⟨rfl, rfl⟩ := h3
      obtain ⟨rfl, rfl⟩ := e
      intro evs hevs x hx
      simp only [List.mem_cons, List.not_mem_nil, or_false] at hevs
      rcases hevs with rfl | rfl
      · exact h2 x hx
      · simp only [pumpDispatch] at h4
        split at h4
        · cases h4
        · rename_i h5
          simp only [Except.ok.injEq, Prod.mk.injEq] at h4
          obtain ⟨rfl, rfl⟩ := h4
          exact (run_past fuel hp hd h5).2 x hx

example : ∃ d, pump 60 (fresh Dec.zero) [[[0x41, 1, 0, 7, 0xAA, 0xB1, 0x61, 0xFF, 1]], [[0x40, 1, 0, 8, 0xFF, 2]]] =
    .ok (d, [owed ⟨1, 0, 1, 7, [0xAA], [⟨11, [0x61]⟩], some [1]⟩, []]) := ⟨_, rfl⟩

example : ∃ d, pump 60 (fresh Dec.zero) [[[0x40, 1, 0, 7, 0xFF, 1]], [[0x40, 1, 0, 8, 0xFF, 2]], [[0x40, 1, 0, 9, 0xFF, 3]]] =
    .ok (d, pumpTold false [⟨1, 0, 1, 7, [], [], some [1]⟩, ⟨1, 0, 1, 8, [], [], some [2]⟩, ⟨1, 0, 1, 9, [], [], some [3]⟩]) :=
  ⟨_, rfl⟩

/-- Two requests without a payload: the header of the first is told when the second has come, that of the second never. -/
example : ∃ d, pump 60 (fresh Dec.zero) [[[0x40, 1, 0, 7]], [[0x40, 2, 0, 8]]] =
    .ok (d, [[], [.header ⟨0x40, 1, 0, 7⟩, .option 4 0, .option 4 2, .value 4 [0, 8] true]]) := ⟨_, rfl⟩

end Verif.Props
