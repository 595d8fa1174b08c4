import Verif.Proofs.Feed

/-! # The concrete decoder over one buffer is a run of `feed` -/
namespace Verif.Proofs
open Verif.Model Header Dec

/-- The token length of the message being decoded is legal (at most 8), as far as it is known. -/
def HOK (d : Dec) (r : List UInt8) : Prop :=
  match d.st with
  | .uninitialized => ∀ b ∈ r.head?, (b &&& 0x0F).toNat ≤ 8
  | .header => if d.hpos = 0 then ∀ b ∈ r.head?, (b &&& 0x0F).toNat ≤ 8 else d.hdr.tokenLength.toNat ≤ 8
  | .done => True
  | _ => d.hdr.tokenLength.toNat ≤ 8

/-- Final transition at the end of the last buffer, when it ends with a complete option. -/
def fin (last : Bool) (r : List UInt8) (d : Dec) : Dec :=
  if r = [] ∧ last = true ∧ d.st = .options ∧ d.opt.st = .optionValueDone then { d with st := .optionsDone }
  else d

/-- Event of `fin`. -/
def finEv (last : Bool) (r : List UInt8) (d : Dec) : List Event :=
  if r = [] ∧ last = true ∧ d.st = .options ∧ d.opt.st = .optionValueDone then [.optionsCompleted] else []

theorem fin_of_ne {last r d} (h : d.st ≠ .options) : fin last r d = d := by simp [fin, h]
theorem finEv_of_ne {last r d} (h : d.st ≠ .options) : finEv last r d = [] := by simp [finEv, h]
theorem fin_of_opt {last r} {d : Dec} (h : d.opt.st ≠ .optionValueDone) : fin last r d = d := by simp [fin, h]
theorem finEv_of_opt {last r} {d : Dec} (h : d.opt.st ≠ .optionValueDone) : finEv last r d = [] := by simp [finEv, h]
theorem fin_of_r {last r} {d : Dec} (h : r ≠ []) : fin last r d = d := by simp [fin, h]
theorem finEv_of_r {last r} {d : Dec} (h : r ≠ []) : finEv last r d = [] := by simp [finEv, h]

theorem notify_note {d : Dec} {c : Ctx} {e : List Event} (h : d.notify c = .ok e) :
    note d c.remainder c.last = e := by
  unfold note; rw [← notify_congr, h]

theorem headerLoop_tkl (d : Dec) (r : List UInt8) (n : Nat) {d0 k dn} (hr : r ≠ [])
    (hp : d.hpos.toNat < 4)
    (h : if d.hpos = 0 then ∀ b ∈ r.head?, (b &&& 0x0F).toNat ≤ 8 else d.hdr.tokenLength.toNat ≤ 8)
    (e : headerLoop d r n = .ok (d0, k, dn)) : d0.hdr.tokenLength.toNat ≤ 8 ∧ d0.hpos ≠ 0 := by
  induction r generalizing d n with
  | nil => exact absurd rfl hr
  | cons b bs ih =>
    obtain ⟨hdr, hw⟩ : ∃ hdr, writeHeader d.hdr d.hpos b = .ok hdr := by
      unfold writeHeader
      have : d.hpos = 0 ∨ d.hpos = 1 ∨ d.hpos = 2 ∨ d.hpos = 3 := by
        simp only [← UInt8.toNat_inj]; simp; omega
      rcases this with h | h | h | h <;> simp [h]
    have hadd : (d.hpos + 1).toNat = d.hpos.toNat + 1 := by
      rw [UInt8.toNat_add]; simp; omega
    have hne : d.hpos + 1 ≠ 0 := by
      intro hc; rw [hc] at hadd; simp at hadd
    have htk : hdr.tokenLength.toNat ≤ 8 := by
      by_cases h0 : d.hpos = 0
      · rw [if_pos h0] at h
        simp [writeHeader, h0] at hw
        have := h b (by simp)
        rw [← hw]; simpa [tokenLength] using this
      · rw [if_neg h0] at h
        have : d.hpos = 1 ∨ d.hpos = 2 ∨ d.hpos = 3 := by
          simp only [← UInt8.toNat_inj] at h0 ⊢; simp at h0 ⊢; omega
        rcases this with h' | h' | h' <;> simp [writeHeader, h'] at hw <;> rw [← hw] <;> exact h
    simp only [headerLoop, hw] at e
    split at e
    · cases e; exact ⟨htk, hne⟩
    · rename_i h4
      by_cases hbs : bs = []
      · subst hbs; cases e; exact ⟨htk, hne⟩
      · refine ih { d with hdr := hdr, hpos := d.hpos + 1 } (n + 1) hbs ?_ ?_ e
        · simp only [ge_iff_le, UInt8.le_iff_toNat_le] at h4; simpa using h4
        · simp only [hne, if_false]; exact htk

theorem tokenLoop_hdr (d : Dec) (r : List UInt8) (n : Nat) {d0 k dn}
    (e : tokenLoop d r n = .ok (d0, k, dn)) : d0.hdr = d.hdr := by
  induction r generalizing d n with
  | nil => cases e; rfl
  | cons b bs ih =>
    simp only [tokenLoop] at e
    split at e
    · cases e
    · split at e
      · cases e; rfl
      · have := ih _ _ e; exact this

theorem meas_lt {d d1 : Dec} {r : List UInt8} {k : Nat} (hk : 0 < k) (hr : k ≤ r.length) :
    meas d1 (r.drop k) < meas d r := by
  have := drank_le d1
  unfold meas; simp only [List.length_drop]; omega

theorem meas_lt0 {d d1 : Dec} {r : List UInt8} (h : drank d1 < drank d) : meas d1 (r.drop 0) < meas d r := by
  unfold meas; simp only [List.drop_zero]; omega

/-- One concrete step, seen as a run of `feed`. -/
theorem step_feed (d : Dec) (c : Ctx) (hi : DInv d c) (hh : HOK d c.remainder) (hr : c.remainder ≠ [])
    (hg : Going d) :
    ∃ d1 k, k ≤ c.remainder.length ∧ Factors c.last d c.remainder d1 (c.remainder.drop k) ∧
      meas d1 (c.remainder.drop k) < meas d c.remainder ∧ HOK d1 (c.remainder.drop k) ∧
      d.step c = .ok (fin c.last (c.remainder.drop k) d1, { c with pos := c.pos + k }) ∧
      (d1.st = .payload → c.remainder.drop k ≠ []) ∧ (Going d1 ∨ d1.st = .payload) := by
  obtain ⟨b, bs, hrb⟩ : ∃ b bs, c.remainder = b :: bs := List.exists_cons_of_ne_nil hr
  have hmic : ∀ d1, micro d b = (d1, false) → Factors c.last d c.remainder d1 (c.remainder.drop 0) := by
    intro d1 hm
    rw [hrb]; exact factors_micro c.last d b bs hg d1 false hm
  have hmr : ∀ d1, micro d b = (d1, false) → meas d1 (c.remainder.drop 0) < meas d c.remainder := by
    intro d1 hm
    have := micro_rank d b (by rw [hm])
    rw [hm] at this
    exact meas_lt0 this
  have hlen : c.remainder.length = c.chunk.length - c.pos := by simp [Ctx.remainder]
  have hpos := hi.pos
  cases hs : d.st
  case uninitialized =>
    have hm : micro d b = ({ d with st := .header, hpos := 0 }, false) := by simp [micro, hs]
    refine ⟨_, 0, by simp, hmic _ hm, hmr _ hm, ?_, ?_, by simp, Or.inl (by simp [Going])⟩
    · simp only [HOK, hs] at hh; simpa [HOK] using hh
    · simp [step, hs, fin]
  case header =>
    obtain ⟨d0, k, dn, e, hk0, hk, hf, hdn⟩ := headerLoop_feed c.last d c.remainder 0 hs (hi.header hs) hr
    have ht := headerLoop_tkl d c.remainder 0 hr (hi.header hs) (by simpa [HOK, hs] using hh) e
    refine ⟨_, k, hk, hf, meas_lt hk0 hk, ?_, ?_, ?_, ?_⟩
    · cases dn <;> simp [HOK, ht.1, ht.2]
    · simp only [step, hs, e, Nat.zero_add]
      rw [fin_of_ne (by cases dn <;> simp)]
    · cases dn <;> simp
    · left; cases dn <;> simp [Going]
  case headerDone =>
    have hm : micro d b = ({ d with st := if d.hdr.tokenLength > 0 then .tokenStart else .tokenDone }, false) := by
      simp [micro, hs]
    refine ⟨_, 0, by simp, hmic _ hm, hmr _ hm, ?_, ?_, ?_, ?_⟩
    · simp only [HOK, hs] at hh; split <;> simpa [HOK] using hh
    · simp only [step, hs]
      rw [fin_of_ne (by split <;> simp)]
      split <;> simp
    · split <;> simp
    · left; split <;> simp [Going]
  case tokenStart =>
    have hm : micro d b = ({ d with st := .token, tpos := 0, opt := { d.opt with st := .garbage } }, false) := by
      simp [micro, hs]
    refine ⟨_, 0, by simp, hmic _ hm, hmr _ hm, ?_, ?_, by simp, Or.inl (by simp [Going])⟩
    · simp only [HOK, hs] at hh; simpa [HOK] using hh
    · simp [step, hs, fin]
  case token =>
    have h8 : d.hdr.tokenLength.toNat ≤ 8 := by simpa [HOK, hs] using hh
    obtain ⟨d0, k, dn, e, hk0, hk, hf, hdn⟩ := tokenLoop_feed c.last d c.remainder 0 hs hi.tbuf
      (hi.token hs).1 h8 hr
    have ht := tokenLoop_hdr _ _ _ e
    refine ⟨_, k, hk, hf, meas_lt hk0 hk, ?_, ?_, ?_, ?_⟩
    · cases dn <;> simp [HOK, ht, h8]
    · simp only [step, hs, e, Nat.zero_add]
      rw [fin_of_ne (by cases dn <;> simp)]
    · cases dn <;> simp
    · left; cases dn <;> simp [Going]
  case tokenDone =>
    have hm : micro d b = ({ d with st := .optionsStart }, false) := by simp [micro, hs]
    refine ⟨_, 0, by simp, hmic _ hm, hmr _ hm, ?_, ?_, by simp, Or.inl (by simp [Going])⟩
    · simp only [HOK, hs] at hh; simpa [HOK] using hh
    · simp [step, hs, fin]
  case optionsStart =>
    have hm : micro d b = ({ d with st := .options, opt := { d.opt with st := .firstByte }, holder := ⟨0, 0⟩ },
        false) := by simp [micro, hs]
    obtain ⟨o1, h1, k, e, hk, ho, hf, hme, hd, hp, hv⟩ := loop_feed c.last (OptDec.fuelFor c.remainder)
      { d with st := .options, opt := { d.opt with st := .firstByte }, holder := ⟨0, 0⟩ } c.remainder 0 rfl
      (by simp [OInv]) hr (by simp [OptDec.fuelFor, rank])
    have hd := hd rfl
    refine ⟨{ d with opt := o1, holder := h1, st := if o1.st = .payload then .optionsDone else .options }, k, hk, ?_, ?_, ?_, ?_, ?_, ?_⟩
    · rw [hrb] at hf ⊢
      exact factors_trans c.last d b bs hg _ false hm (by simp [note, notify]) _ _ hf
    · have := hmr _ hm; simp only [List.drop_zero] at this hme ⊢; omega
    · simp only [HOK, hs] at hh; split <;> simpa [HOK] using hh
    · have : (c.remainder.length == 0 && c.last) = false := by simp [hr]
      simp only [step, hs, OptDec.process, this, e, Nat.zero_add]
      rw [fin_of_opt hd]
      by_cases hp : o1.st = .payload <;> simp [hp]
    · split <;> simp
    · left; split <;> simp [Going]
  case options =>
    obtain ⟨o1, h1, k, e, hk, ho, hf, hme, hd, hp, hv⟩ := loop_feed c.last (OptDec.fuelFor c.remainder)
      d c.remainder 0 hs (hi.options hs) hr
      (by have := rank_le d.opt.st; simp only [OptDec.fuelFor]; omega)
    refine ⟨_, k, hk, hf, hme, ?_, ?_, ?_, ?_⟩
    · simp only [HOK, hs] at hh; split <;> simpa [HOK] using hh
    · have : (c.remainder.length == 0 && c.last) = false := by simp [hr]
      simp only [step, hs, OptDec.process, this, e, Nat.zero_add]
      by_cases hp : o1.st = .payload
      · simp [hp, fin]
      · by_cases hend : c.pos + k = c.chunk.length
        · have hnil : c.remainder.drop k = [] := by
            apply List.drop_eq_nil_of_le; omega
          cases hl : c.last <;> by_cases hvd : o1.st = .optionValueDone <;> simp [hp, fin, hend, hnil, hvd]
        · have hnil : c.remainder.drop k ≠ [] := by
            intro h; have := List.drop_eq_nil_iff.mp h; omega
          rw [fin_of_r hnil]
          simp [hp, hend]
    · split <;> simp
    · left; split <;> simp [Going]
  case optionsDone =>
    have hop : d.opt.st = .payload := by
      rcases hi.optionsDone hs with h | ⟨_, h⟩
      · exact h
      · exfalso; rw [hrb] at hlen; simp at hlen; omega
    have hm : micro d b = ({ d with st := .payload }, false) := by simp [micro, hs]
    refine ⟨_, 0, by simp, hmic _ hm, hmr _ hm, ?_, ?_, by simpa using hr, Or.inr rfl⟩
    · simp only [HOK, hs] at hh; simpa [HOK] using hh
    · simp [step, hs, fin, hop]
  all_goals exact absurd hg (by simp [Going, hs])

/-- `n` concrete steps of `decode_and_notify`; no intermediate step is at the end of the buffer or in
the final state. -/
inductive Run : Nat → Dec → Ctx → List Event → Dec → Ctx → Prop
  | one {d c d' c' e} : d.stepNotify c = .ok (d', c', e) → Run 1 d c e d' c'
  | cons {n d c d1 c1 e1 e2 d' c'} : d.stepNotify c = .ok (d1, c1, e1) → atEnd c1 = false →
      d1.st ≠ .done → Run n d1 c1 e2 d' c' → Run (n + 1) d c (e1 ++ e2) d' c'

theorem Run.process {n d c e d' c'} (h : Run n d c e d' c') (he : atEnd c' = true) (f : Nat) (hf : n ≤ f) :
    Dec.process f d c = .ok (d', c', e) := by
  induction h generalizing f with
  | one hs =>
    obtain ⟨f, rfl⟩ : ∃ g, f = g + 1 := ⟨f - 1, by omega⟩
    simp [Dec.process, hs, he]
  | cons hs ha _ _ ih =>
    obtain ⟨f, rfl⟩ : ∃ g, f = g + 1 := ⟨f - 1, by omega⟩
    simp [Dec.process, hs, ha, ih he f (by omega)]

/-- Prefix the events of a result. -/
def pre (e : List Event) : Except Fault (Dec × Ctx × List Event) → Except Fault (Dec × Ctx × List Event)
  | .error x => .error x
  | .ok (d, c, e') => .ok (d, c, e ++ e')

theorem Run.toDone {n d c e d' c'} (h : Run n d c e d' c') (hd : d'.st ≠ .done) (f : Nat) :
    processToDone (n + f) d c = pre e (processToDone f d' c') := by
  induction h generalizing f with
  | one hs =>
    rw [Nat.add_comm]
    simp only [processToDone, hs, beq_iff_eq, hd, if_false]
    split <;> simp_all [pre]
  | @cons n d c d1 c1 e1 e2 d' c' hs ha hnd _ ih =>
    rw [show n + 1 + f = (n + f) + 1 by omega]
    simp only [processToDone, hs, beq_iff_eq, hnd, if_false]
    rw [ih hd f]
    cases processToDone f d' c' <;> simp [pre]

/-- Decoder and events at the end of a buffer, from the result of `feed`. -/
def chunkEnd (last : Bool) (f : List Event × Dec × List UInt8) : List Event × Dec :=
  if f.2.1.st = .payload then
    (f.1 ++ (if last then [] else [.payload [] false]),
      { f.2.1 with st := if last then .payloadDone else .payload })
  else (f.1 ++ finEv last [] f.2.1, fin last [] f.2.1)

theorem note_fin (last : Bool) (r : List UInt8) (d : Dec) :
    note (fin last r d) r last = note d r last ++ finEv last r d := by
  unfold fin finEv
  split
  · rename_i h; simp [note, notify, h]
  · simp

theorem chunkEnd_pre (last : Bool) (e : List Event) (f : List Event × Dec × List UInt8) :
    chunkEnd last (e ++ f.1, f.2) = (e ++ (chunkEnd last f).1, (chunkEnd last f).2) := by
  unfold chunkEnd
  split <;> simp

theorem remainder_add (c : Ctx) (k : Nat) :
    ({ c with pos := c.pos + k } : Ctx).remainder = c.remainder.drop k := by
  simp [Ctx.remainder, List.drop_drop]

theorem remainder_nil {c : Ctx} (h : c.pos ≤ c.chunk.length) (hr : c.remainder = []) :
    c.pos = c.chunk.length := by
  have := List.drop_eq_nil_iff.mp hr; omega

/-- A whole buffer: the concrete decoder runs to the end of the buffer and does what `feed` says. -/
theorem chunk_feed (d : Dec) (c : Ctx) (hi : DInv d c) (hh : HOK d c.remainder) (hr : c.remainder ≠ [])
    (hg : Going d) :
    ∃ n, n ≤ meas d c.remainder + 1 ∧
      Run n d c (chunkEnd c.last (feed c.last d c.remainder)).1
        (chunkEnd c.last (feed c.last d c.remainder)).2 { c with pos := c.chunk.length } ∧
      DInv (chunkEnd c.last (feed c.last d c.remainder)).2 { c with pos := c.chunk.length } := by
  generalize hm : meas d c.remainder = m
  induction m using Nat.strongRecOn generalizing d c with
  | ind m ih =>
    obtain ⟨d1, k, hk, hfac, hme, hh1, hst, hpl, hgo⟩ := step_feed d c hi hh hr hg
    have hsn : ∃ evs, d.stepNotify c = .ok (fin c.last (c.remainder.drop k) d1, { c with pos := c.pos + k }, evs) ∧
        evs = note d1 (c.remainder.drop k) c.last ++ finEv c.last (c.remainder.drop k) d1 ∧
        DInv (fin c.last (c.remainder.drop k) d1) { c with pos := c.pos + k } := by
      rcases step_inv d c hi with ⟨e, _⟩ | ⟨d', c', e, hi', _⟩
      · rw [hst] at e; cases e
      · rw [hst] at e
        cases e
        obtain ⟨evs, hn⟩ := notify_ok _ _ hi'
        refine ⟨evs, by simp only [stepNotify, hst, hn], ?_, hi'⟩
        rw [← notify_note hn, ← note_fin, remainder_add]
    obtain ⟨evs, hsn, hev, hi1⟩ := hsn
    have hrem := remainder_add c k
    rw [hfac.1]
    by_cases hr1 : c.remainder.drop k = []
    · have hend : c.pos + k = c.chunk.length := remainder_nil (c := { c with pos := c.pos + k }) hi1.pos (by rw [hrem, hr1])
      refine ⟨1, by omega, ?_, ?_⟩
      · apply Run.one
        rw [hsn, hev, hr1, feed_nil]
        have : d1.st ≠ .payload := fun h => hpl h hr1
        simp [chunkEnd, this, hend]
      · rw [hr1] at hi1
        rw [hr1, feed_nil]
        have : d1.st ≠ .payload := fun h => hpl h hr1
        simpa [chunkEnd, this, hend] using hi1
    · rw [fin_of_r hr1] at hsn hi1
      rw [finEv_of_r hr1, List.append_nil] at hev
      have hne : atEnd { c with pos := c.pos + k } = false := by
        simp only [atEnd, beq_eq_false_iff_ne]
        intro h; apply hr1; rw [← hrem]; simp [Ctx.remainder, h]
      rcases hgo with hgo | hpay
      · obtain ⟨n, hn, hrun, hinv⟩ := ih (meas d1 (c.remainder.drop k)) (by omega) d1 { c with pos := c.pos + k } hi1
          (by rw [hrem]; exact hh1) (by rw [hrem]; exact hr1) hgo (by rw [hrem])
        rw [hrem] at hrun hinv
        refine ⟨n + 1, by omega, ?_, ?_⟩
        · rw [chunkEnd_pre, ← hev]
          exact Run.cons hsn hne (by intro h; unfold Going at hgo; simp [h] at hgo) hrun
        · rw [chunkEnd_pre]; exact hinv
      · have hlast : d1.stepNotify { c with pos := c.pos + k } =
            .ok ({ d1 with st := if c.last then .payloadDone else .payload }, { c with pos := c.chunk.length },
              if c.last then [] else [.payload [] false]) := by
          simp only [stepNotify, step, hpay]
          cases c.last <;> simp [notify, Ctx.remainder]
        rw [chunkEnd_pre, feed_stop _ _ _ (by simp [Going, hpay]), ← hev]
        have hce : chunkEnd c.last ([], d1, c.remainder.drop k) =
            (if c.last then [] else [.payload [] false],
              { d1 with st := if c.last then .payloadDone else .payload }) := by
          simp [chunkEnd, hpay]
        rw [hce]
        refine ⟨2, by omega, Run.cons hsn hne (by simp [hpay]) (Run.one hlast), ?_⟩
        have := step_inv d1 _ hi1
        rcases this with ⟨_, h, _⟩ | ⟨d', c', e, hi', _⟩
        · rw [hpay] at h; cases h
        · simp only [step, hpay] at e
          cases e; exact hi'

end Verif.Proofs
