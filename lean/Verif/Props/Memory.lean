import Verif.Proofs.Memory

/-!
# C90 — what a decoder shows depends on the bytes it is given, not on what was in its memory before
-/
namespace Verif.Props
open Verif.Model Verif.Model.Header Verif.Spec Verif.Proofs Dec

theorem fresh_agree {j k : Dec} (hj : j.tbuf.length = 8) (hk : k.tbuf.length = 8)
    (hp : j.opt.st = .payload ↔ k.opt.st = .payload) : DAgree (fresh j) (fresh k) :=
  ⟨rfl, hj, hk, hp⟩

/-- Two new decoders, with anything at all left in their memory, show the same to a caller: whatever
buffers are presented, whatever bytes they hold, however often and in whatever order the decoder is
called.  This covers the states, the reports, the return values and the faults.

Missing for the full property: the leftovers must agree on one point, whether the word that will hold the state
of the option decoder happens to read `Payload` (see `memory_shows_iff`). -/
theorem memory_unseen_partial (j k : Dec) (hj : j.tbuf.length = 8) (hk : k.tbuf.length = 8)
    (hp : j.opt.st = .payload ↔ k.opt.st = .payload) (c : Ctx) (as : List Act) :
    watch (fresh j) c as = watch (fresh k) c as :=
  watch_agree as _ _ c (fresh_agree hj hk hp)

/-- The calls that decode a message of four bytes. -/
def sixCalls (b0 b1 b2 b3 : UInt8) : List Act :=
  .buffer [b0, b1, b2, b3] true :: List.replicate 6 .call

/-- A message that is a header only: the leftovers decide whether a payload (empty and made up) is
reported. -/
theorem leftover_payload (b0 b1 b2 b3 : UInt8) (h0 : b0 &&& 0x0F = 0) (j : Dec) (hj : j.tbuf.length = 8) (c : Ctx) :
    watch (fresh j) c (sixCalls b0 b1 b2 b3) =
      [.ok (.header, [], false), .ok (.headerDone, [.header ⟨b0, b1, b2, b3⟩], true), .ok (.tokenDone, [.token []], true),
        .ok (.optionsStart, [.optionStart], true), .ok (.optionsDone, [.optionsCompleted], true),
        if j.opt.st = .payload then .ok (.payload, [.payload [] true], true) else .ok (.done, [.completed], true)] := by
  have ht : Header.tokenLength ⟨b0, b1, b2, b3⟩ = 0 := h0
  have r4 : Ctx.remainder ⟨[b0, b1, b2, b3], 4, true⟩ = [] := rfl
  have r0 : Ctx.remainder ⟨[b0, b1, b2, b3], 0, true⟩ = [b0, b1, b2, b3] := rfl
  simp only [sixCalls, List.replicate, watch, stepNotify, step, fresh, notify, r0, headerLoop, writeHeader]
  by_cases hp : j.opt.st = .payload
  · simp [ht, hp, r4, atEnd]
  · simp [ht, hp, r4, atEnd]

/-- The leftovers are seen exactly in that one point. -/
theorem memory_shows_iff (j k : Dec) (hj : j.tbuf.length = 8) (hk : k.tbuf.length = 8) :
    (∀ c as, watch (fresh j) c as = watch (fresh k) c as) ↔ (j.opt.st = .payload ↔ k.opt.st = .payload) := by
  refine ⟨fun h => ?_, fun h c as => memory_unseen_partial j k hj hk h c as⟩
  have := h ⟨[], 0, false⟩ (sixCalls 0x40 1 0 1)
  rw [leftover_payload _ _ _ _ (by decide) j hj, leftover_payload _ _ _ _ (by decide) k hk] at this
  by_cases hp : j.opt.st = .payload <;> by_cases hq : k.opt.st = .payload <;> simp_all

/-- A message with a token: from the header on, nothing at all of what was in memory is seen. -/
theorem memory_unseen_token (d e : Dec) (hd : d.st = .headerDone) (he : e.st = .headerDone) (hh : d.hdr = e.hdr)
    (ht : 0 < d.hdr.tokenLength) (h1 : d.tbuf.length = 8) (h2 : e.tbuf.length = 8) (c : Ctx) (as : List Act) :
    watch d c as = watch e c as :=
  watch_agree as d e c ⟨by rw [hd, he], h1, h2, by rw [hd]; exact ⟨hh, .inr ht⟩⟩

theorem after_agree (as : List Act) : ∀ (d e : Dec) (c : Ctx), DAgree d e → ∀ d' c', after d c as = some (d', c') →
    ∃ e', after e c as = some (e', c') ∧ DAgree d' e' := by
  induction as with
  | nil =>
    intro d e c h d' c' ha
    simp only [after, Option.some.injEq, Prod.mk.injEq] at ha
    obtain ⟨rfl, rfl⟩ := ha
    exact ⟨e, rfl, h⟩
  | cons a as ih =>
    intro d e c h d' c' ha
    cases a with
    | buffer chunk last => exact ih d e _ h d' c' ha
    | call =>
      have hs := stepNotify_agree d e c h
      simp only [after] at ha ⊢
      cases e1 : d.stepNotify c with
      | error x => rw [e1] at ha; cases ha
      | ok x =>
        cases e2 : e.stepNotify c with
        | error y => rw [e1, e2] at hs; exact hs.elim
        | ok y =>
          rw [e1, e2] at hs
          rw [e1] at ha
          obtain ⟨d1, c1, evs⟩ := x
          obtain ⟨e1', c2, evs'⟩ := y
          obtain ⟨l1, l2, l3⟩ := hs
          simp only [Prod.mk.injEq] at l1 l2 l3 ha
          obtain ⟨rfl, rfl⟩ := l1
          exact ih d1 e1' c1 l3 d' c' ha

theorem after_tbuf (j : Dec) (hj : j.tbuf.length = 8) (c : Ctx) (as : List Act) (d : Dec) (c' : Ctx)
    (hr : after (fresh j) c as = some (d, c')) : d.tbuf.length = 8 := by
  obtain ⟨_, -, h⟩ := after_agree as _ _ c (fresh_agree hj hj Iff.rfl) d c' hr
  exact h.2.1

/-- Using a decoder again: whatever was decoded before, and wherever that stopped between two messages, what
is seen from then on is what a new decoder (in the same one respect) shows. -/
theorem memory_unseen_reuse_partial (j k : Dec) (hj : j.tbuf.length = 8) (hk : k.tbuf.length = 8) (c : Ctx) (before : List Act)
    (d : Dec) (c' : Ctx) (hr : after (fresh j) c before = some (d, c')) (hd : d.st = .uninitialized)
    (hp : d.opt.st = .payload ↔ k.opt.st = .payload) (as : List Act) :
    watch d c' as = watch (fresh k) c' as :=
  watch_agree as d (fresh k) c' ⟨hd, after_tbuf j hj c before d c' hr, hk, by rw [hd]; exact hp⟩

/-- The same for a decoder left where it reported completion: the next call shows nothing, and from then on it is as a new
one. -/
theorem memory_unseen_next_partial (j k : Dec) (hj : j.tbuf.length = 8) (hk : k.tbuf.length = 8) (c : Ctx) (before : List Act)
    (d : Dec) (c' : Ctx) (hr : after (fresh j) c before = some (d, c')) (hd : d.st = .done)
    (hp : d.opt.st = .payload ↔ k.opt.st = .payload) (as : List Act) :
    watch d c' (.call :: as) = .ok (.uninitialized, [], atEnd c') :: watch (fresh k) c' as := by
  have hs : d.stepNotify c' = .ok (fresh d, c', []) := by simp [stepNotify, step, hd, notify, fresh]
  simp only [watch, hs]
  rw [watch_agree as (fresh d) (fresh k) c' (fresh_agree (after_tbuf j hj c before d c' hr) hk hp)]
  rfl

/-- Two decoders with nothing in common but the size of the token buffer; used in the examples. -/
def leftoverA : Dec :=
  { st := .done, hdr := ⟨0x12, 0x34, 0x56, 0x78⟩, hpos := 7, tpos := 99, tbuf := List.replicate 8 0xAA,
    opt := ⟨.optionValue, 0xFF, 0xFE, 0xFD, 0xFC, 0xFB⟩, holder := ⟨4711, 815⟩ }

/-- Bytes as they may arrive from anyone: a header with a token of three bytes, two options with extended
headers, the second longer than the buffer; then a second buffer. -/
def hostile : List Act :=
  .buffer [0x43, 0x01, 0x00, 0x07, 1, 2, 3, 0xD1] false :: List.replicate 9 .call ++
    .buffer [0x05, 9, 0xEE, 0x01, 0x02, 0x00, 0x10, 7, 7] true :: List.replicate 9 .call

example : watch (fresh leftoverA) ⟨[], 0, false⟩ hostile = watch (fresh zero) ⟨[], 0, false⟩ hostile :=
  memory_unseen_partial _ _ (by decide) (by decide) (by decide) _ _

example : (watch (fresh zero) ⟨[], 0, false⟩ hostile).length = 18 ∧
    .ok (.options, [.option 18 [9] true], false) ∈ watch (fresh zero) ⟨[], 0, false⟩ hostile ∧
    .ok (.options, [.option 545 [7, 7] false], false) ∈ watch (fresh zero) ⟨[], 0, false⟩ hostile := by
  decide +kernel

/-- A message with a payload, then a message that is a header only, through the same decoder: the second is
reported with a payload (empty) that nobody sent, where a new decoder reports none. -/
theorem reused_decoder_makes_up_payload :
    ∃ before d c', after (fresh zero) ⟨[], 0, false⟩ before = some (d, c') ∧ d.st = .uninitialized ∧
      .ok (.payload, [.payload [] true], true) ∈ watch d c' (sixCalls 0x40 1 0 1) ∧
      .ok (.payload, [.payload [] true], true) ∉ watch (fresh zero) c' (sixCalls 0x40 1 0 1) := by
  refine ⟨.buffer [0x40, 1, 0, 1, 0xFF, 5] true :: List.replicate 9 .call,
    ((after (fresh zero) ⟨[], 0, false⟩ (.buffer [0x40, 1, 0, 1, 0xFF, 5] true :: List.replicate 9 .call)).getD (zero, ⟨[], 0, false⟩)).1,
    ((after (fresh zero) ⟨[], 0, false⟩ (.buffer [0x40, 1, 0, 1, 0xFF, 5] true :: List.replicate 9 .call)).getD (zero, ⟨[], 0, false⟩)).2, ?_⟩
  decide +kernel

/-- A decoder used for one message and left between messages, as in `memory_unseen_reuse_partial`. -/
example : ∃ d c', after (fresh leftoverA) ⟨[], 0, false⟩
      (.buffer [0x41, 1, 0, 1, 5, 0xB1, 0x61] true :: List.replicate 10 .call) = some (d, c') ∧
    d.st = .uninitialized ∧ (d.opt.st = .payload ↔ zero.opt.st = .payload) := by
  refine ⟨((after (fresh leftoverA) ⟨[], 0, false⟩
    (.buffer [0x41, 1, 0, 1, 5, 0xB1, 0x61] true :: List.replicate 10 .call)).getD (zero, ⟨[], 0, false⟩)).1, ((after (fresh leftoverA) ⟨[], 0, false⟩
    (.buffer [0x41, 1, 0, 1, 5, 0xB1, 0x61] true :: List.replicate 10 .call)).getD (zero, ⟨[], 0, false⟩)).2, ?_⟩
  decide +kernel

end Verif.Props
