import Verif.Proofs.Split
import Verif.Proofs.MessageFeed
import Verif.Proofs.AnyReport
import Verif.Spec.Cuts

/-! # Empty buffers, and buffers that follow the start of the payload -/
namespace Verif.Proofs
open Verif.Model Header Dec Spec

/-- The decoder is not in front of an option value that it has reported already, nor past the marker. -/
def NV (d : Dec) : Prop := d.st = .options → d.opt.st ≠ .valueStart ∧ d.opt.st ≠ .payload

theorem pureStep_nv (o : OptDec) (b : UInt8) (h : (pureStep o b).2 = true) : (pureStep o b).1.st ≠ .valueStart := by
  unfold pureStep at *
  cases hs : o.st <;> simp only [OptDec.step, hs] at h ⊢
  case firstByte => by_cases hb : b = 255 <;> simp [hb]
  case firstByteDone =>
    by_cases h1 : 13 ≤ o.rawDelta <;> by_cases h2 : 13 ≤ o.rawLength <;> simp [h1, h2]
  case optionDelta =>
    cases hw : o.write b with
    | error e => simp [hs]
    | ok o2 =>
      have h2 : o2.st = o.st := by
        unfold OptDec.write at hw
        repeat' split at hw
        all_goals first | (cases hw; rfl) | cases hw
      cases hp : o2.processOptionSize o.rawDelta <;> simp [hp, h2, hs]
  case optionLength =>
    cases hw : o.write b with
    | error e => simp [hs]
    | ok o2 =>
      have h2 : o2.st = o.st := by
        unfold OptDec.write at hw
        repeat' split at hw
        all_goals first | (cases hw; rfl) | cases hw
      cases hp : o2.processOptionSize o.rawLength <;> simp [hp, h2, hs]
  case optionDeltaDone => by_cases hl : 13 ≤ o.rawLength <;> simp [hl] at h
  case optionLengthDone => by_cases hl : 13 ≤ o.rawLength <;> simp [hl] at h
  case optionValue =>
    have h2 : ∀ v, (o.setValueLength v).st = .optionValue := fun _ => hs
    by_cases hv : (o.setValueLength (o.valueLength - 1)).valueLength = 0 <;> simp [hv, h2]
  all_goals simp_all

theorem micro_nv (d : Dec) (b : UInt8) (h : (micro d b).2 = true) (hg : Going d) : NV (micro d b).1 := by
  unfold NV Going at *
  cases hs : d.st <;> simp only [micro, hs] at h ⊢ <;> simp [hs] at hg h ⊢
  case header => simp only [putHeader]; split <;> simp [hs]
  case token => simp only [putToken]; split <;> simp [hs]
  case options => intro hp; exact ⟨pureStep_nv d.opt b h, hp⟩

/-- At the end of a buffer that was used up no option value is pending that was reported already. -/
theorem feed_nv (l : Bool) (d : Dec) (a : List UInt8) (hn : a ≠ [] ∨ NV d) (h : (feed l d a).2.2 = []) :
    NV (feed l d a).2.1 := by
  fun_induction feed l d a with
  | case1 d => rcases hn with h | h; exact absurd rfl h; exact h
  | case2 d x bs hst => simp at h
  | case3 d x bs hst m hc f ih => exact ih (Or.inr (micro_nv d x hc hst)) h
  | case4 d x bs hst m hc f ih => exact ih (Or.inl (by simp)) h

/-- The decoder after an empty buffer that is not the last one. -/
def idle (d : Dec) : Dec :=
  match d.st with
  | .uninitialized => { d with st := .header, hpos := 0 }
  | .headerDone => { d with st := if d.hdr.tokenLength > 0 then .tokenStart else .tokenDone }
  | .tokenStart => { d with st := .token, tpos := 0, opt := { d.opt with st := .garbage } }
  | .tokenDone => { d with st := .optionsStart }
  | .optionsStart => { d with st := .options, opt := { d.opt with st := .firstByte }, holder := ⟨0, 0⟩ }
  | _ => d

/-- What an empty buffer makes the decoder report. -/
def idleEv (d : Dec) : List Event :=
  match d.st with
  | .headerDone => if d.hdr.tokenLength > 0 then [] else [.token []]
  | .tokenDone => [.optionStart]
  | _ => []

theorem tkl_zero {h : Header} (ht : ¬ h.tokenLength > 0) : h.tokenLength.toNat = 0 := by
  rw [gt_iff_lt, UInt8.lt_iff_toNat_lt] at ht; simpa using ht

theorem idle_step (d : Dec) (hg : Going d) (ho : d.st ≠ .optionsDone) (hn : NV d) :
    d.stepNotify ⟨[], 0, false⟩ = .ok (idle d, ⟨[], 0, false⟩, idleEv d) := by
  unfold Going NV at *
  cases hs : d.st <;> simp only [hs] at hg ho hn <;> simp at hg ho <;> simp only [stepNotify, Dec.step, hs, idle, idleEv]
  case uninitialized => simp [notify]
  case header =>
    have e : ({ d with st := .header } : Dec) = d := by rw [← hs]
    simp [Ctx.remainder, headerLoop, notify, e, hs]
  case headerDone =>
    by_cases ht : d.hdr.tokenLength > 0
    · simp [ht, notify]
    · simp [ht, notify, tkl_zero ht]
  case tokenStart => simp [notify]
  case token =>
    have e : ({ d with st := .token } : Dec) = d := by rw [← hs]
    simp [Ctx.remainder, tokenLoop, notify, e, hs]
  case tokenDone => simp [notify]
  case optionsStart => simp [Ctx.remainder, OptDec.process, OptDec.fuelFor, OptDec.loop, notify]
  case options =>
    obtain ⟨hn, hp⟩ := hn trivial
    have e : ({ d with st := .options } : Dec) = d := by rw [← hs]
    simp [Ctx.remainder, OptDec.process, OptDec.fuelFor, OptDec.loop, notify, hs, hn, hp, e]

theorem idle_feed (l : Bool) (d : Dec) (r : List UInt8) (hg : Going d) (ho : d.st ≠ .optionsDone) (hr : r ≠ []) :
    feed l d r = (idleEv d ++ (feed l (idle d) r).1, (feed l (idle d) r).2) := by
  obtain ⟨b, bs, rfl⟩ := List.exists_cons_of_ne_nil hr
  have hg0 := hg
  unfold Going at hg
  cases hs : d.st <;> simp only [hs] at hg ho <;> simp at hg ho <;> simp only [idle, idleEv, hs, List.nil_append]
  case uninitialized =>
    rw [feed_cons l d b bs hg0 _ false (by simp [micro, hs]; rfl)]
    simp [note, notify]
  case headerDone =>
    rw [feed_cons l d b bs hg0 _ false (by simp [micro, hs]; rfl)]
    by_cases ht : d.hdr.tokenLength > 0
    · simp [ht, note, notify]
    · simp [ht, note, notify, tkl_zero ht]
  case tokenStart =>
    rw [feed_cons l d b bs hg0 _ false (by simp [micro, hs]; rfl)]
    simp [note, notify]
  case tokenDone =>
    rw [feed_cons l d b bs hg0 _ false (by simp [micro, hs]; rfl)]
    simp [note, notify]
  case optionsStart =>
    rw [feed_cons l d b bs hg0 _ false (by simp [micro, hs]; rfl)]
    simp [note, notify]

theorem idle_going (d : Dec) (hg : Going d) : Going (idle d) := by
  unfold Going at *
  cases hs : d.st <;> simp [idle, hs] at hg ⊢
  case headerDone => split <;> simp

theorem idle_nv (d : Dec) (hn : NV d) : NV (idle d) := by
  unfold NV at *
  cases hs : d.st <;> simp [idle, hs] at hn ⊢
  case headerDone => split <;> simp
  case options => exact hn

theorem idle_hok (d : Dec) (r : List UInt8) (h : HOK d r) : HOK (idle d) r := by
  cases hs : d.st <;> simp only [idle, HOK, hs] at h ⊢ <;> try exact h
  case headerDone => by_cases ht : d.hdr.tokenLength > 0 <;> simpa [ht] using h

/-- An empty buffer that is not the last one. -/
theorem idle_run (d : Dec) (hg : Going d) (ho : d.st ≠ .optionsDone) (hn : NV d) (f : Nat) (hf : 1 ≤ f) :
    Dec.process f d ⟨[], 0, false⟩ = .ok (idle d, ⟨[], 0, false⟩, idleEv d) := by
  obtain ⟨f, rfl⟩ : ∃ g, f = g + 1 := ⟨f - 1, by omega⟩
  simp [Dec.process, idle_step d hg ho hn, atEnd]

theorem idle_inv (d : Dec) (hg : Going d) (ho : d.st ≠ .optionsDone) (hn : NV d) (hi : DInv d ⟨[], 0, false⟩) :
    DInv (idle d) ⟨[], 0, false⟩ := by
  have h := idle_step d hg ho hn
  rcases stepNotify_inv d _ hi with ⟨e, -⟩ | ⟨d', c', evs, e, h1, -⟩
  · rw [h] at e; cases e
  · rw [h] at e; cases e; exact h1

/-- The invariant for a decoder between buffers. -/
structure BetweenBufs (d : Dec) (r : List UInt8) : Prop where
  inv : DInv d ⟨[], 0, false⟩
  hok : HOK d r
  going : Going d
  nv : NV d

theorem BetweenBufs.toInv {d : Dec} {r : List UInt8} (h : BetweenBufs d r) (c : List UInt8) (l : Bool) : DInv d ⟨c, 0, l⟩ :=
  ⟨by simp, h.inv.tbuf, h.inv.header, h.inv.tokenStart, h.inv.token, h.inv.tokenDone, h.inv.options, fun hs => by
    rcases h.inv.optionsDone hs with h | h
    · exact Or.inl h
    · simp at h⟩

theorem BetweenBufs.idle {d : Dec} {r : List UInt8} (h : BetweenBufs d r) (ho : d.st ≠ .optionsDone) : BetweenBufs (idle d) r :=
  ⟨idle_inv d h.going ho h.nv h.inv, idle_hok d r h.hok, idle_going d h.going, idle_nv d h.nv⟩

/-- A buffer that is used up before the payload. -/
theorem BetweenBufs.chunk {d : Dec} {c r : List UInt8} (h : BetweenBufs d (c ++ r)) (hc : c ≠ []) (hr : (feed false d c).2.2 = []) :
    BetweenBufs (feed false d c).2.1 r ∧
    ∃ n, ∀ f, n ≤ f → Dec.process f d ⟨c, 0, false⟩ = .ok ((feed false d c).2.1, ⟨c, c.length, false⟩, (feed false d c).1) := by
  obtain ⟨n, -, hrun, hinv⟩ := chunk_feed d ⟨c, 0, false⟩ (h.toInv c false) (HOK.left h.hok hc) hc h.going
  have hrem : (⟨c, 0, false⟩ : Ctx).remainder = c := rfl
  simp only [hrem] at hrun hinv
  have hg1 := feed_going false d c h.going hr
  have hce : chunkEnd false (feed false d c) = ((feed false d c).1, (feed false d c).2.1) := by
    have : (feed false d c).2.1.st ≠ .payload := by intro h; apply hg1; simp [h]
    simp [chunkEnd, this, fin, finEv]
  rw [hce] at hrun hinv
  refine ⟨⟨⟨by simp, hinv.tbuf, hinv.header, hinv.tokenStart, hinv.token, hinv.tokenDone, hinv.options, fun hs => ?_⟩,
    feed_hok false d c r h.inv.header h.hok hr, hg1, feed_nv false d c (Or.inl hc) hr⟩, n, fun f hf => ?_⟩
  · rcases hinv.optionsDone hs with h | h
    · exact Or.inl h
    · simp at h
  · exact hrun.process (by simp [atEnd]) f hf

theorem Parts.dropLast {a b : List Event} (h : Parts a b) : Parts a.dropLast b.dropLast := by
  induction h with
  | nil => exact .nil
  | cons p q ih =>
    cases q with
    | nil => exact .nil
    | cons p2 q2 => exact .cons p ih

/-- `feed` over a buffer that is cut in two inside the payload. -/
theorem feed_append_pay (l l' : Bool) (d : Dec) (a b : List UInt8) (hg : Going d) (h : (feed l d a).2.2 ≠ []) :
    ∃ X X', (feed l d a).1 = X ++ [.payload (feed l d a).2.2 l] ∧
      (feed l' d (a ++ b)).1 = X' ++ [.payload ((feed l d a).2.2 ++ b) l'] ∧ Parts X X' ∧
      (feed l d a).2.1.st = .payload ∧ (feed l' d (a ++ b)).2 = ((feed l d a).2.1, (feed l d a).2.2 ++ b) := by
  fun_induction feed l d a with
  | case1 d => simp at h
  | case2 d x bs hst => exact absurd hst hg
  | case3 d x bs hst m hc f ih =>
    have hm : micro d x = (m.1, m.2) := rfl
    have hg1 : Going m.1 := by
      rcases micro_going d x hst with h1 | h1
      · exact h1
      · have : (micro d x).2 = true := hc
        rw [h1.2] at this; cases this
    obtain ⟨X, X', i1, i2, i3, i4, i5⟩ := ih hg1 h
    have hp : m.1.st ≠ .payload := by intro hp; apply hg1; simp [hp]
    rw [List.cons_append, feed_cons l' d x (bs ++ b) hst m.1 m.2 hm, hc]
    simp only [if_true]
    refine ⟨note m.1 bs l ++ X, note m.1 (bs ++ b) l' ++ X', ?_, ?_, (note_part m.1 bs b l l' hp).append i3, i4, i5⟩
    · rw [List.append_assoc, ← i1]
    · rw [List.append_assoc, ← i2]
  | case4 d x bs hst m hc f ih =>
    have hm : micro d x = (m.1, m.2) := rfl
    rw [List.cons_append, feed_cons l' d x (bs ++ b) hst m.1 m.2 hm]
    simp only [hc]
    rcases micro_going d x hst with h1 | ⟨h1, -⟩
    · have hg1 : Going m.1 := h1
      obtain ⟨X, X', i1, i2, i3, i4, i5⟩ := ih hg1 h
      have hp : m.1.st ≠ .payload := by intro hp; apply hg1; simp [hp]
      refine ⟨note m.1 (x :: bs) l ++ X, note m.1 (x :: (bs ++ b)) l' ++ X', ?_, ?_,
        (note_part m.1 (x :: bs) b l l' hp).append i3, i4, i5⟩
      · rw [List.append_assoc, ← i1]
      · rw [List.append_assoc]; simp only [Bool.false_eq_true, if_false]; rw [← List.cons_append, ← i2]
    · have h1 : m.1.st = .payload := h1
      have hf : f = ([], m.1, x :: bs) := feed_stop l m.1 _ (by simp [Going, h1])
      simp only [Bool.false_eq_true, if_false]
      rw [feed_stop l' m.1 _ (by simp [Going, h1]), hf]
      refine ⟨[], [], ?_, ?_, .nil, h1, rfl⟩ <;> simp [note, notify, h1, Ctx.remainder]

/-- Before the marker has been read, the payload starts later. -/
theorem feed_rest_lt (l : Bool) (d : Dec) (r : List UInt8) (hg : Going d) (ho : d.st ≠ .optionsDone)
    (h : (feed l d r).2.2 ≠ []) : (feed l d r).2.2.length < r.length := by
  have le : ∀ (d : Dec) (r : List UInt8), (feed l d r).2.2.length ≤ r.length := by
    intro d r
    fun_induction feed l d r with
    | case1 d => simp
    | case2 d x bs hst => simp
    | case3 d x bs hst m hc f ih =>
      have ih : f.2.2.length ≤ bs.length := ih
      simp only [List.length_cons]; omega
    | case4 d x bs hst m hc f ih => exact ih
  fun_induction feed l d r with
  | case1 d => simp at h
  | case2 d x bs hst => exact absurd hst hg
  | case3 d x bs hst m hc f ih =>
    have : f.2.2.length ≤ bs.length := le m.1 bs
    simp only [List.length_cons]; omega
  | case4 d x bs hst m hc f ih =>
    have hc' : (micro d x).2 = false := by simpa using hc
    have key : (micro d x).1.st ≠ .optionsDone ∧ Going (micro d x).1 := by
      unfold Going at hg ⊢
      cases hs : d.st <;> simp only [micro, hs] at hc' ⊢ <;> simp [hs] at hc' hg ho ⊢
      case headerDone => split <;> simp
      case options =>
        have : (pureStep d.opt x).1.st ≠ .payload := by
          intro hp
          revert hc'
          unfold pureStep at *
          cases hs : d.opt.st <;> simp only [OptDec.step, hs] at hp ⊢
          case firstByte => by_cases hb : x = 255 <;> simp [hb] at hp ⊢
          case firstByteDone => simp
          case optionDelta =>
            cases hw : d.opt.write x with
            | error e => simp
            | ok o2 => cases hp : o2.processOptionSize d.opt.rawDelta <;> simp [hp]
          case optionLength =>
            cases hw : d.opt.write x with
            | error e => simp
            | ok o2 => cases hp : o2.processOptionSize d.opt.rawLength <;> simp [hp]
          case optionDeltaDone => by_cases hl : 13 ≤ d.opt.rawLength <;> simp [hl] at hp
          case optionLengthDone => by_cases hl : 13 ≤ d.opt.rawLength <;> simp [hl] at hp
          case valueStart =>
            exfalso; revert hp; split <;> simp
          case optionValue =>
            by_cases hv : (d.opt.setValueLength (d.opt.valueLength - 1)).valueLength = 0 <;> simp [hv]
          all_goals simp_all
        simp [this]
    exact ih key.2 key.1 h

/-- `n` empty buffers. -/
def idles : Nat → Dec → Dec × List Event
  | 0, d => (d, [])
  | n + 1, d => ((idles n (idle d)).1, idleEv d ++ (idles n (idle d)).2)

theorem idles_options (n : Nat) (d : Dec) (hs : d.st = .options) : idles n d = (d, []) := by
  induction n with
  | zero => rfl
  | succ n ih =>
    have h1 : idle d = d := by simp [idle, hs]
    have h2 : idleEv d = [] := by simp [idleEv, hs]
    simp [idles, h1, h2, ih]

/-- The end of the last buffer between two options, when that buffer is empty: an option that is not in the
message is reported. -/
theorem finish_ready {d : Dec} (hs : d.st = .options) (hr : Ready d.opt) :
    ∃ k, ∀ c, AtEof c → Finish k d c [.option d.holder.number [] true, .optionsCompleted, .completed] := by
  have main : ∀ d : Dec, d.st = .options → d.opt.st = .firstByte →
      ∃ k, ∀ c, AtEof c → Finish k d c [.option d.holder.number [] true, .optionsCompleted, .completed] := by
    intro d hs ho
    generalize hd2 : ({ d with opt := { d.opt with b0 := 0, pos := 1, st := .optionDeltaAndLengthDone } } : Dec) = d2
    have hl : d2.opt.length = 0 := by
      rw [← hd2]; simp [OptDec.length, OptDec.rawLength, OptDec.getValue]
    have hz : EofZero d2.opt := by rw [EofZero]; rw [← hd2] at hl ⊢; exact hl
    obtain ⟨k, hf⟩ := finish_hdr (d := d2) (by rw [← hd2]; exact hs) (by rw [← hd2]; simp [OInv]) (by rw [← hd2]; simp [CutHdr])
    refine ⟨k + 1 + 1, fun c hc => ?_⟩
    have hf := hf c hc
    rw [decide_eq_true (Or.inr hz), show d2.holder.number = d.holder.number by rw [← hd2]] at hf
    refine Finish.cons (d1 := { d with opt := { d.opt with b0 := 0, pos := 1, st := .firstByteDone } }) (e1 := []) ?_
      (by simp [hs]) (Finish.cons (d1 := d2) (e1 := []) ?_ (by rw [← hd2]; simp [hs]) hf)
    · simp [stepNotify, Dec.step, hs, OptDec.process, OptDec.step, ho, hc.rem, hc.1, hc.2, notify, hc.eta]
    · rw [← hd2]
      simp [stepNotify, Dec.step, hs, OptDec.process, OptDec.step, OptDec.rawDelta, OptDec.rawLength, hc.rem, hc.1, hc.2, notify, hc.eta]
  rcases hr with hr | hr
  · exact main d hs hr
  · obtain ⟨k, hf⟩ := main { d with opt := { d.opt with st := .firstByte } } hs rfl
    refine ⟨k + 1, fun c hc => ?_⟩
    refine Finish.cons (d1 := { d with opt := { d.opt with st := .firstByte } }) (e1 := []) ?_ (by simp [hs]) (hf c hc)
    simp [stepNotify, Dec.step, hs, OptDec.process, OptDec.step, hr, hc.rem, hc.1, hc.2, notify, hc.eta]

theorem finish_optionsStart {d : Dec} {c : Ctx} (hc : AtEof c) (hs : d.st = .optionsStart)
    (ho : d.opt.st ≠ .payload) : Finish 2 d c [.optionsCompleted, .completed] := by
  refine Finish.cons (d1 := { d with st := .optionsDone }) (e1 := [.optionsCompleted]) ?_ (by simp)
      (finish_optionsDone hc rfl ho)
  simp [stepNotify, Dec.step, hs, notify, hc.rem, hc.1]

end Verif.Proofs
