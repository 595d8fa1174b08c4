import Verif.Proofs.OptionFeed

/-! # `feed` over a whole message, and the steps after the end of the last buffer -/
namespace Verif.Proofs
open Verif.Model Header Dec OptDec Spec

theorem header_feed (last : Bool) (d : Dec) (b0 b1 b2 b3 : UInt8) (r : List UInt8) (hs : d.st = .uninitialized) :
    feed last d (b0 :: b1 :: b2 :: b3 :: r) =
      (.header ⟨b0, b1, b2, b3⟩ :: (feed last { d with st := .headerDone, hdr := ⟨b0, b1, b2, b3⟩, hpos := 4 } r).1,
        (feed last { d with st := .headerDone, hdr := ⟨b0, b1, b2, b3⟩, hpos := 4 } r).2) := by
  have m0 : ∀ b, micro d b = ({ d with st := .header, hpos := 0 }, false) := by intro b; simp [micro, hs]
  rw [feed_cons last d b0 _ (by simp [Going, hs]) _ _ (m0 b0)]
  simp only [Bool.false_eq_true, if_false]
  rw [feed_cons last _ b0 _ (by simp [Going]) { d with st := .header, hpos := 1, hdr := { d.hdr with b0 := b0 } } true
    (by simp [micro, putHeader, writeHeader])]
  simp only [if_true]
  rw [feed_cons last _ b1 _ (by simp [Going]) { d with st := .header, hpos := 2, hdr := { d.hdr with b0 := b0, b1 := b1 } } true
    (by simp [micro, putHeader, writeHeader])]
  simp only [if_true]
  rw [feed_cons last _ b2 _ (by simp [Going]) { d with st := .header, hpos := 3, hdr := { d.hdr with b0 := b0, b1 := b1, b2 := b2 } } true
    (by simp [micro, putHeader, writeHeader])]
  simp only [if_true]
  rw [feed_cons last _ b3 _ (by simp [Going]) { d with st := .headerDone, hpos := 4, hdr := ⟨b0, b1, b2, b3⟩ } true
    (by simp [micro, putHeader, writeHeader])]
  simp [note, notify]

/-- Reading token bytes; `p` has been read already. -/
theorem token_loop_feed (last : Bool) (t p : List UInt8) (d : Dec) (r : List UInt8) (hs : d.st = .token)
    (ht : t ≠ []) (htk : d.hdr.tokenLength.toNat = p.length + t.length) (h8 : p.length + t.length ≤ 8)
    (hb : d.tbuf.length = 8) (hp : d.tpos.toNat = p.length) (htb : d.tbuf.take p.length = p) :
    ∃ d', d'.st = .tokenDone ∧ d'.opt.st = .garbage ∧ d'.hdr = d.hdr ∧ d'.tbuf.length = 8 ∧
      feed last d (t ++ r) = (.token (p ++ t) :: (feed last d' r).1, (feed last d' r).2) := by
  induction t generalizing p d with
  | nil => exact absurd rfl ht
  | cons b bs ih =>
    have hadd : (d.tpos + 1).toNat = p.length + 1 := by
      simp only [List.length_cons] at h8
      rw [UInt8.toNat_add]; simp; omega
    have htb' : (d.tbuf.set d.tpos.toNat b).take (p.length + 1) = p ++ [b] := by
      rw [hp]
      have hlt : p.length < (d.tbuf.set p.length b).length := by simp [hb]; simp at h8; omega
      rw [List.take_succ_eq_append_getElem hlt]
      rw [List.take_set_of_le (by omega), htb]
      simp
    by_cases hbs : bs = []
    · subst hbs
      have hge : d.tpos + 1 ≥ d.hdr.tokenLength := by
        rw [ge_iff_le, UInt8.le_iff_toNat_le, hadd, htk]; simp
      have hm : micro d b = ({ d with tbuf := d.tbuf.set d.tpos.toNat b, tpos := d.tpos + 1, opt := { d.opt with st := .garbage }, st := .tokenDone }, true) := by
        simp [micro, hs, putToken, hge]
      refine ⟨{ d with tbuf := d.tbuf.set d.tpos.toNat b, tpos := d.tpos + 1, opt := { d.opt with st := .garbage }, st := .tokenDone },
        rfl, rfl, rfl, ?_, ?_⟩
      rotate_left
      · rw [List.cons_append, feed_cons last d b _ (by simp [Going, hs]) _ _ hm]
        simp only [if_true, List.nil_append, note, notify, htk, List.length_cons, List.length_nil, Nat.zero_add, List.length_set, hb]
        rw [if_pos (by simpa using h8)]
        simp only [htb', List.cons_append, List.nil_append]
      · simp [hb]
    · have hlt : ¬ (d.tpos + 1 ≥ d.hdr.tokenLength) := by
        rw [ge_iff_le, UInt8.le_iff_toNat_le, hadd, htk]
        have := List.length_pos_iff.mpr hbs
        simp; omega
      have hm : micro d b = ({ d with tbuf := d.tbuf.set d.tpos.toNat b, tpos := d.tpos + 1, opt := { d.opt with st := .garbage } }, true) := by
        simp [micro, hs, putToken, hlt]
      obtain ⟨d', e1, e2, e3, e4, e5⟩ := ih (p ++ [b])
        { d with tbuf := d.tbuf.set d.tpos.toNat b, tpos := d.tpos + 1, opt := { d.opt with st := .garbage } } hs hbs
        (by simp only [htk]; simp; omega) (by simp at h8 ⊢; omega) (by simp [hb]) (by simp [hadd]) (by simpa using htb')
      refine ⟨d', e1, e2, e3, e4, ?_⟩
      rw [List.cons_append, feed_cons last d b _ (by simp [Going, hs]) _ _ hm]
      simp only [if_true]
      rw [e5]
      simp [note, notify, hs]

/-- From the end of the header to the end of a non-empty token. -/
theorem token_feed (last : Bool) (t : List UInt8) (d : Dec) (r : List UInt8) (hs : d.st = .headerDone)
    (ht : t ≠ []) (htk : d.hdr.tokenLength.toNat = t.length) (h8 : t.length ≤ 8) (hb : d.tbuf.length = 8) :
    ∃ d', d'.st = .tokenDone ∧ d'.opt.st = .garbage ∧ d'.hdr = d.hdr ∧ d'.tbuf.length = 8 ∧
      feed last d (t ++ r) = (.token t :: (feed last d' r).1, (feed last d' r).2) := by
  obtain ⟨b, bs, rfl⟩ := List.exists_cons_of_ne_nil ht
  have hgt : d.hdr.tokenLength > 0 := by
    rw [gt_iff_lt, UInt8.lt_iff_toNat_lt, htk]; simp
  have m1 : micro d b = ({ d with st := .tokenStart }, false) := by simp [micro, hs, hgt]
  have m2 : micro { d with st := .tokenStart } b =
      ({ d with st := .token, tpos := 0, opt := { d.opt with st := .garbage } }, false) := by simp [micro]
  obtain ⟨d', e1, e2, e3, e4, e5⟩ := token_loop_feed last (b :: bs) []
    { d with st := .token, tpos := 0, opt := { d.opt with st := .garbage } } r rfl ht
    (by simpa using htk) (by simpa using h8) hb (by simp) (by simp)
  refine ⟨d', e1, e2, e3, e4, ?_⟩
  rw [List.cons_append, feed_cons last d b _ (by simp [Going, hs]) _ _ m1]
  simp only [Bool.false_eq_true, if_false]
  rw [feed_cons last _ b _ (by simp [Going]) _ _ m2]
  simp only [Bool.false_eq_true, if_false]
  rw [← List.cons_append, e5]
  simp [note, notify]

/-- From the end of the header over an empty token, when something follows. -/
theorem token_feed_empty (last : Bool) (d : Dec) (r : List UInt8) (hs : d.st = .headerDone)
    (htk : d.hdr.tokenLength.toNat = 0) (hr : r ≠ []) :
    feed last d r = (.token [] :: (feed last { d with st := .tokenDone } r).1,
      (feed last { d with st := .tokenDone } r).2) := by
  obtain ⟨b, bs, rfl⟩ := List.exists_cons_of_ne_nil hr
  have hgt : ¬ (d.hdr.tokenLength > 0) := by
    rw [gt_iff_lt, UInt8.lt_iff_toNat_lt, htk]; simp
  have m1 : micro d b = ({ d with st := .tokenDone }, false) := by simp [micro, hs, hgt]
  rw [feed_cons last d b _ (by simp [Going, hs]) _ _ m1]
  simp [note, notify, htk]

/-- From the end of the token into the options, when something follows. -/
theorem start_feed (last : Bool) (d : Dec) (r : List UInt8) (hs : d.st = .tokenDone) (hr : r ≠ []) :
    feed last d r =
      (.optionStart :: (feed last { d with st := .options, opt := { d.opt with st := .firstByte }, holder := ⟨0, 0⟩ } r).1,
        (feed last { d with st := .options, opt := { d.opt with st := .firstByte }, holder := ⟨0, 0⟩ } r).2) := by
  obtain ⟨b, bs, rfl⟩ := List.exists_cons_of_ne_nil hr
  rw [feed_cons last d b _ (by simp [Going, hs]) { d with st := .optionsStart } false (by simp [micro, hs])]
  simp only [Bool.false_eq_true, if_false]
  rw [feed_cons last _ b _ (by simp [Going])
    { d with st := .options, opt := { d.opt with st := .firstByte }, holder := ⟨0, 0⟩ } false (by simp [micro])]
  simp [note, notify]

/-- The payload marker, between options. -/
theorem marker_feed (last : Bool) (d : Dec) (p : List UInt8) (hs : d.st = .options) (hr : Ready d.opt) :
    feed last d (0xFF :: p) =
      (.optionsCompleted :: (feed last { d with st := .optionsDone, opt := { d.opt with st := .payload } } p).1,
        (feed last { d with st := .optionsDone, opt := { d.opt with st := .payload } } p).2) := by
  have main : ∀ d : Dec, d.st = .options → d.opt.st = .firstByte → feed last d (0xFF :: p) =
      (.optionsCompleted :: (feed last { d with st := .optionsDone, opt := { d.opt with st := .payload } } p).1,
        (feed last { d with st := .optionsDone, opt := { d.opt with st := .payload } } p).2) := by
    intro d hs hf
    have he : d.opt.step 0xFF = .ok ({ d.opt with st := .payload }, true) := by simp [OptDec.step, hf]
    rw [feed_cons last d 0xFF _ (by simp [Going, hs]) { d with st := .optionsDone, opt := { d.opt with st := .payload } } true
      (by simp [micro, hs, pureStep_eq he, upd])]
    simp [note, notify]
  rcases hr with hr | hr
  · exact main d hs hr
  · have he : d.opt.step 0xFF = .ok ({ d.opt with st := .firstByte }, false) := by simp [OptDec.step, hr]
    rw [feed_cons last d 0xFF _ (by simp [Going, hs]) { d with opt := { d.opt with st := .firstByte } } false
      (by simp [micro, hs, pureStep_eq he, upd])]
    simp only [Bool.false_eq_true, if_false]
    rw [main { d with opt := { d.opt with st := .firstByte } } hs rfl]
    simp [note, notify, hs]

/-- The payload after the marker. -/
theorem payload_feed (last : Bool) (d : Dec) (p : List UInt8) (hs : d.st = .optionsDone) (hp : p ≠ []) :
    feed last d p = ([.payload p last], { d with st := .payload }, p) := by
  obtain ⟨b, bs, rfl⟩ := List.exists_cons_of_ne_nil hp
  rw [feed_cons last d b _ (by simp [Going, hs]) { d with st := .payload } false (by simp [micro, hs])]
  simp only [Bool.false_eq_true, if_false]
  rw [feed_stop _ _ _ (by simp [Going])]
  simp [note, notify, Ctx.remainder]

/-! ## After the end of the last buffer -/

/-- Stepping to completion from `d` at the end `c` of the last buffer takes `k` steps and fires `evs`. -/
def Finish (k : Nat) (d : Dec) (c : Ctx) (evs : List Event) : Prop :=
  ∃ d', d'.st = .done ∧ ∀ f, processToDone (k + f) d c = .ok (d', c, evs)

theorem Finish.one {d d' : Dec} {c : Ctx} {evs : List Event} (h : d.stepNotify c = .ok (d', c, evs))
    (hd : d'.st = .done) : Finish 1 d c evs :=
  ⟨d', hd, fun f => by rw [Nat.add_comm]; simp [processToDone, h, hd]⟩

theorem Finish.cons {k : Nat} {d d1 : Dec} {c : Ctx} {e1 e2 : List Event}
    (h : d.stepNotify c = .ok (d1, c, e1)) (hd : d1.st ≠ .done) (hf : Finish k d1 c e2) :
    Finish (k + 1) d c (e1 ++ e2) := by
  obtain ⟨d', hd', hf⟩ := hf
  refine ⟨d', hd', fun f => ?_⟩
  rw [show k + 1 + f = (k + f) + 1 by omega]
  simp [processToDone, h, hd, hf f]

/-- The context at the end of a last buffer. -/
def AtEof (c : Ctx) : Prop := c.last = true ∧ c.pos = c.chunk.length

theorem AtEof.rem {c : Ctx} (h : AtEof c) : c.remainder = [] := by simp [Ctx.remainder, h.2]

theorem AtEof.eta {c : Ctx} (h : AtEof c) : (⟨c.chunk, c.chunk.length, true⟩ : Ctx) = c := by
  rw [← h.1, ← h.2]

theorem finish_payloadDone {d : Dec} {c : Ctx} (hs : d.st = .payloadDone) : Finish 1 d c [.completed] :=
  Finish.one (d' := { d with st := .done }) (by simp [stepNotify, Dec.step, hs, notify]) rfl

theorem finish_optionsDone {d : Dec} {c : Ctx} (hc : AtEof c) (hs : d.st = .optionsDone)
    (ho : d.opt.st ≠ .payload) : Finish 1 d c [.completed] :=
  Finish.one (d' := { d with st := .done })
    (by simp [stepNotify, Dec.step, hs, notify, ho, hc.1, hc.2]) rfl

theorem finish_marker {d : Dec} {c : Ctx} (hc : AtEof c) (hs : d.st = .optionsDone)
    (ho : d.opt.st = .payload) : Finish 3 d c [.payload [] true, .completed] := by
  refine Finish.cons (d1 := { d with st := .payload }) (e1 := [.payload [] true]) ?_ (by simp)
    (Finish.cons (d1 := { d with st := .payloadDone }) (e1 := []) ?_ (by simp) (finish_payloadDone rfl))
  · simp [stepNotify, Dec.step, hs, notify, ho, hc.rem, hc.1]
  · have hcc : (⟨c.chunk, c.pos, true⟩ : Ctx) = c := by rw [← hc.1]
    simp [stepNotify, Dec.step, notify, hc.1, ← hc.2, hcc]

theorem finish_tokenDone {d : Dec} {c : Ctx} (hc : AtEof c) (hs : d.st = .tokenDone)
    (ho : d.opt.st ≠ .payload) : Finish 3 d c [.optionStart, .optionsCompleted, .completed] := by
  refine Finish.cons (d1 := { d with st := .optionsStart }) (e1 := [.optionStart]) ?_ (by simp)
    (Finish.cons (d1 := { d with st := .optionsDone }) (e1 := [.optionsCompleted]) ?_ (by simp)
      (finish_optionsDone hc rfl ho))
  · simp [stepNotify, Dec.step, hs, notify]
  · simp [stepNotify, Dec.step, notify, hc.rem, hc.1]

theorem finish_headerDone {d : Dec} {c : Ctx} (hc : AtEof c) (hs : d.st = .headerDone)
    (ht : d.hdr.tokenLength.toNat = 0) (ho : d.opt.st ≠ .payload) :
    Finish 4 d c [.token [], .optionStart, .optionsCompleted, .completed] := by
  refine Finish.cons (d1 := { d with st := .tokenDone }) (e1 := [.token []]) ?_ (by simp)
    (finish_tokenDone hc rfl ho)
  have hgt : ¬ (d.hdr.tokenLength > 0) := by
    rw [gt_iff_lt, UInt8.lt_iff_toNat_lt, ht]; simp
  simp [stepNotify, Dec.step, hs, notify, hgt, ht]

/-- A final option with an empty value. -/
theorem finish_hend {d : Dec} {c : Ctx} (hc : AtEof c) (hs : d.st = .options) (hh : HEnd d.opt 0)
    (n : UInt16) (hn : d.holder = ⟨n, 0⟩) :
    Finish 3 d c [.option n [] true, .optionsCompleted, .completed] := by
  obtain ⟨h1, h2, h3, h4, h5, -⟩ := hh
  refine Finish.cons (d1 := { d with opt := { d.opt with st := .valueStart } }) (e1 := [.option n [] true]) ?_
    (by simp [hs]) (Finish.cons (d1 := { d with
      opt := { OptDec.setValueLength { d.opt with st := .valueStart } 0 with st := .optionValueDone },
      st := .optionsDone })
      (e1 := [.optionsCompleted]) ?_ (by simp) (finish_optionsDone hc rfl (by simp)))
  · simp [stepNotify, Dec.step, hs, OptDec.process, hc.rem, hc.1, hc.2, h1, notify, hn, hc.eta]
  · have hl : ({ d.opt with st := .valueStart } : OptDec).length = 0 := h2
    have hv : OptDec.step { d.opt with st := .valueStart } 0 =
        .ok ({ OptDec.setValueLength { d.opt with st := .valueStart } 0 with st := .optionValueDone }, false) := by
      simp only [OptDec.step, hl, setValueLength_get]; simp
    simp only [stepNotify, Dec.step, hs, OptDec.process, hc.rem, hc.1, List.length_nil, beq_self_eq_true,
      Bool.and_true, if_true, hv, Nat.add_zero]
    simp [notify, hc.2]
    exact hc.eta

/-- `feed` over the last buffer followed by the steps after its end. -/
theorem deliver_of_feed {d : Dec} {c : Ctx} (hi : DInv d c) (hh : HOK d c.remainder) (hr : c.remainder ≠ [])
    (hg : Going d) (hl : c.last = true) {k : Nat} {e : List Event}
    (hnd : (chunkEnd true (feed true d c.remainder)).2.st ≠ .done)
    (hf : Finish k (chunkEnd true (feed true d c.remainder)).2 { c with pos := c.chunk.length } e) :
    ∃ N d', N ≤ meas d c.remainder + 1 + k ∧ d'.st = .done ∧ ∀ f, processToDone (N + f) d c =
      .ok (d', { c with pos := c.chunk.length }, (chunkEnd true (feed true d c.remainder)).1 ++ e) := by
  obtain ⟨n, hn, hrun, _⟩ := chunk_feed d c hi hh hr hg
  rw [hl] at hrun
  obtain ⟨d', hd', hf⟩ := hf
  refine ⟨n + k, d', by omega, hd', fun f => ?_⟩
  rw [show n + k + f = n + (k + f) by omega, hrun.toDone hnd (k + f)]
  rw [hl] at hf
  rw [hf f, hl]; rfl

end Verif.Proofs
