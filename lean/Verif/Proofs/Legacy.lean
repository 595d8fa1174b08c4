import Verif.Model.Legacy
import Verif.Proofs.FeedRun
import Verif.Proofs.Split
import Verif.Proofs.OptionFeed
import Verif.Spec.Legacy

/-! # The older dispatch, byte by byte -/
namespace Verif.Proofs
open Verif.Model Header Dec

/-- States in which the older dispatch has nothing to report and a step does not stop. -/
def Silent (d : Dec) : Prop :=
  match d.st with
  | .header | .token => True
  | .options => d.opt.st ≠ .valueStart ∧ d.opt.st ≠ .optionValueDone ∧ d.opt.st ≠ .payload
  | _ => False

/-- A path of `micro` whose inner states are silent. -/
inductive Quiet : Dec → List UInt8 → Dec → List UInt8 → Prop
  | one {d b bs d1 c} : Going d → micro d b = (d1, c) → Quiet d (b :: bs) d1 (if c then bs else b :: bs)
  | cons {d b bs d1 c d2 r2} : Going d → micro d b = (d1, c) → Silent d1 →
      Quiet d1 (if c then bs else b :: bs) d2 r2 → Quiet d (b :: bs) d2 r2

/-- The header loop of the model is a quiet path. -/
theorem headerLoop_quiet (d : Dec) (r : List UInt8) (n : Nat) (hs : d.st = .header)
    (hp : d.hpos.toNat < 4) (hr : r ≠ []) :
    ∃ d0 k dn, headerLoop d r n = .ok (d0, n + k, dn) ∧ 0 < k ∧ k ≤ r.length ∧
      Quiet d r { d0 with st := if dn then .headerDone else .header } (r.drop k) ∧
      (dn = false → k = r.length) := by
  induction r generalizing d n with
  | nil => exact absurd rfl hr
  | cons b bs ih =>
    obtain ⟨hdr, hw⟩ : ∃ hdr, writeHeader d.hdr d.hpos b = .ok hdr := by
      unfold writeHeader
      have : d.hpos = 0 ∨ d.hpos = 1 ∨ d.hpos = 2 ∨ d.hpos = 3 := by
        simp only [← UInt8.toNat_inj]; simp; omega
      rcases this with h | h | h | h <;> simp [h]
    have hg : Going d := going_of_eq hs (by simp) (by simp) (by simp)
    simp only [headerLoop, hw]
    by_cases h4 : d.hpos + 1 ≥ 4
    · rw [if_pos h4]
      refine ⟨_, 1, true, rfl, by simp, by simp, ?_, by simp⟩
      have hm : micro d b = ({ d with hdr := hdr, hpos := d.hpos + 1, st := .headerDone }, true) := by
        simp [micro, hs, putHeader, hw, h4]
      exact Quiet.one hg hm
    · rw [if_neg h4]
      have hm : micro d b = ({ d with hdr := hdr, hpos := d.hpos + 1 }, true) := by
        simp [micro, hs, putHeader, hw, h4]
      have hn : Silent { d with hdr := hdr, hpos := d.hpos + 1 } := by simp [Silent, hs]
      by_cases hbs : bs = []
      · subst hbs
        refine ⟨_, 1, false, rfl, by simp, by simp, ?_, by simp⟩
        have := Quiet.one (bs := []) hg hm
        simpa [hs] using this
      · obtain ⟨d0, k, dn, e, hk0, hk, hf, hdn⟩ := ih { d with hdr := hdr, hpos := d.hpos + 1 } (n + 1) hs
          (by simp only [ge_iff_le, UInt8.le_iff_toNat_le] at h4; simpa using h4) hbs
        refine ⟨d0, k + 1, dn, ?_, by omega, by simp; omega, ?_, fun h => by simp [hdn h]⟩
        · rw [e]; congr 3; omega
        · exact Quiet.cons hg hm hn hf

/-- The token loop of the model is a quiet path, for legal token lengths. -/
theorem tokenLoop_quiet (d : Dec) (r : List UInt8) (n : Nat) (hs : d.st = .token)
    (hb : d.tbuf.length = 8) (hp : d.tpos.toNat < d.hdr.tokenLength.toNat)
    (h8 : d.hdr.tokenLength.toNat ≤ 8) (hr : r ≠ []) :
    ∃ d0 k dn, tokenLoop d r n = .ok (d0, n + k, dn) ∧ 0 < k ∧ k ≤ r.length ∧
      Quiet d r { d0 with st := if dn then .tokenDone else .token } (r.drop k) ∧
      (dn = false → k = r.length) := by
  induction r generalizing d n with
  | nil => exact absurd rfl hr
  | cons b bs ih =>
    have hw : writeAt d.tbuf d.tpos.toNat b = some (d.tbuf.set d.tpos.toNat b) := by
      simp [writeAt, hb]; omega
    have hadd : (d.tpos + 1).toNat = d.tpos.toNat + 1 := by
      rw [UInt8.toNat_add]; simp; omega
    have hg : Going d := going_of_eq hs (by simp) (by simp) (by simp)
    simp only [tokenLoop, hw]
    by_cases h4 : d.tpos + 1 ≥ d.hdr.tokenLength
    · rw [if_pos h4]
      refine ⟨_, 1, true, rfl, by simp, by simp, ?_, by simp⟩
      have hm : micro d b = ({ d with tbuf := d.tbuf.set d.tpos.toNat b, tpos := d.tpos + 1, opt := { d.opt with st := .garbage }, st := .tokenDone }, true) := by
        simp [micro, hs, putToken, h4]
      exact Quiet.one hg hm
    · rw [if_neg h4]
      have hm : micro d b = ({ d with tbuf := d.tbuf.set d.tpos.toNat b, tpos := d.tpos + 1, opt := { d.opt with st := .garbage } }, true) := by
        simp [micro, hs, putToken, h4]
      have hn : Silent { d with tbuf := d.tbuf.set d.tpos.toNat b, tpos := d.tpos + 1, opt := { d.opt with st := .garbage } } := by simp [Silent, hs]
      by_cases hbs : bs = []
      · subst hbs
        refine ⟨_, 1, false, rfl, by simp, by simp, ?_, by simp⟩
        have := Quiet.one (bs := []) hg hm
        simpa [hs] using this
      · rw [ge_iff_le, UInt8.le_iff_toNat_le, hadd] at h4
        obtain ⟨d0, k, dn, e, hk0, hk, hf, hdn⟩ := ih { d with tbuf := d.tbuf.set d.tpos.toNat b, tpos := d.tpos + 1, opt := { d.opt with st := .garbage } } (n + 1) hs
          (by simp [hb]) (by simp only [hadd]; omega) h8 hbs
        refine ⟨d0, k + 1, dn, ?_, by omega, by simp; omega, ?_, fun h => by simp [hdn h]⟩
        · rw [e]; congr 3; omega
        · exact Quiet.cons hg hm hn hf

/-- The option loop of the model is a quiet path. -/
theorem loop_quiet (f : Nat) (d : Dec) (r : List UInt8) (n : Nat) (hs : d.st = .options)
    (hi : OInv d.opt) (hr : r ≠ []) (hf : 6 * r.length + rank d.opt.st < f) :
    ∃ o1 h1 k, OptDec.loop f d.opt d.holder r n = .ok (o1, h1, n + k) ∧ k ≤ r.length ∧ OInv o1 ∧
      Quiet d r
        { d with opt := o1, holder := h1, st := if o1.st = .payload then .optionsDone else .options }
        (r.drop k) ∧
      meas { d with opt := o1, holder := h1, st := if o1.st = .payload then .optionsDone else .options }
        (r.drop k) < meas d r ∧
      (inHeader d.opt.st = true → o1.st ≠ .optionValueDone) ∧
      (k < r.length → paused o1.st = true) ∧ (k = r.length → o1.st ≠ .valueStart) := by
  induction f generalizing d r n with
  | zero => omega
  | succ f ih =>
    cases r with
    | nil => exact absurd rfl hr
    | cons b bs =>
      obtain ⟨o', c, he, hi', hrk⟩ := step_ok d.opt b hi
      have hg : Going d := going_of_eq hs (by simp) (by simp) (by simp)
      have hps := pureStep_eq he
      have hm : micro d b = ({ d with opt := o', holder := upd o' d.holder, st := if o'.st = .payload then .optionsDone else .options }, c) := by
        simp [micro, hs, hps]
      have hih : inHeader d.opt.st = true → o'.st ≠ .optionValueDone := by
        intro h hc
        rcases step_inHeader h he with h1 | h1 | h1 <;> simp [hc, inHeader] at h1
      rw [loop_cons f d.opt o' c d.holder b bs n he]
      have hme : c = false → meas { d with opt := o', holder := upd o' d.holder, st := if o'.st = .payload then .optionsDone else .options }
          (b :: bs) < meas d (b :: bs) := by
        intro hc
        have := micro_rank d b (by rw [hm]; exact hc)
        rw [hm] at this
        unfold meas; simp only [] at this; omega
      have hmt : meas { d with opt := o', holder := upd o' d.holder, st := if o'.st = .payload then .optionsDone else .options }
          bs < meas d (b :: bs) := by
        have := drank_le { d with opt := o', holder := upd o' d.holder, st := if o'.st = .payload then .optionsDone else .options }
        unfold meas; simp only [List.length_cons]; omega
      by_cases hp : paused o'.st = true
      · rw [if_pos hp]
        cases c
        · refine ⟨o', upd o' d.holder, 0, rfl, by simp, hi', ?_, hme rfl, hih, fun _ => hp, by simp⟩
          exact Quiet.one hg hm
        · refine ⟨o', upd o' d.holder, 1, rfl, by simp, hi', ?_, hmt, hih, fun _ => hp, ?_⟩
          · exact Quiet.one hg hm
          · -- a consumed byte never leads to `valueStart`
            intro _ hv
            exact step_consumed he hv
      · rw [if_neg hp]
        have hnp : o'.st ≠ .payload := by intro h; simp [h, paused] at hp
        have hnv : o'.st ≠ .valueStart := by intro h; simp [h, paused] at hp
        have hnd : o'.st ≠ .optionValueDone := by intro h; simp [h, paused] at hp
        have hm' : micro d b = ({ d with opt := o', holder := upd o' d.holder, st := .options }, c) := by
          rw [hm]; simp [hnp]
        have hn : Silent { d with opt := o', holder := upd o' d.holder, st := .options } := by simp [Silent, hnv, hnd, hnp]
        have hinh : inHeader d.opt.st = true → inHeader o'.st = true := by
          intro h
          rcases step_inHeader h he with h1 | h1 | h1
          · exact h1
          · exact absurd h1 hnv
          · exact absurd h1 hnp
        simp only [hnp, if_false] at hme hmt
        cases c
        · simp only [Bool.false_eq_true, if_false]
          obtain ⟨o1, h1, k, e, hk, ho, hfac, hmm, hd, hpp, hvv⟩ := ih
            { d with opt := o', holder := upd o' d.holder, st := .options } (b :: bs) n rfl hi' (by simp)
            (by have := hrk rfl; simp only []; omega)
          refine ⟨o1, h1, k, e, hk, ho, ?_, ?_, fun h => hd (hinh h), hpp, hvv⟩
          · exact Quiet.cons hg hm' hn hfac
          · have := hme rfl; simp only [] at hmm ⊢; omega
        · simp only [if_true]
          by_cases hbs : bs = []
          · subst hbs
            have hl : OptDec.loop f o' (upd o' d.holder) [] (n + 1) = .ok (o', upd o' d.holder, n + 1) := by
              cases f with
              | zero => simp at hf
              | succ f => rfl
            refine ⟨o', upd o' d.holder, 1, hl, by simp, hi', ?_, ?_, hih, by simp, fun _ => hnv⟩
            · have := Quiet.one (bs := []) hg hm'
              simpa [hnp] using this
            · simpa [hnp] using hmt
          · obtain ⟨o1, h1, k, e, hk, ho, hfac, hmm, hd, hpp, hvv⟩ := ih
              { d with opt := o', holder := upd o' d.holder, st := .options } bs (n + 1) rfl hi' hbs
              (by have := rank_le o'.st; simp only [List.length_cons] at hf ⊢; omega)
            refine ⟨o1, h1, k + 1, ?_, by simp; omega, ho, ?_, ?_, fun h => hd (hinh h), ?_, ?_⟩
            · rw [e]; congr 3; omega
            · exact Quiet.cons hg hm' hn hfac
            · simp only [List.drop_succ_cons] at hmm ⊢; omega
            · intro h; exact hpp (by simp only [List.length_cons] at h; omega)
            · intro h; exact hvv (by simp only [List.length_cons] at h; omega)

/-- One concrete step, seen as a quiet path. -/
theorem step_quiet (d : Dec) (c : Ctx) (hi : DInv d c) (hh : HOK d c.remainder) (hr : c.remainder ≠ [])
    (hg : Going d) :
    ∃ d1 k, k ≤ c.remainder.length ∧ Quiet d c.remainder d1 (c.remainder.drop k) ∧
      meas d1 (c.remainder.drop k) < meas d c.remainder ∧ HOK d1 (c.remainder.drop k) ∧
      d.step c = .ok (fin c.last (c.remainder.drop k) d1, { c with pos := c.pos + k }) ∧
      (d1.st = .payload → c.remainder.drop k ≠ []) ∧ (Going d1 ∨ d1.st = .payload) ∧
      (d1.st = .options → c.remainder.drop k ≠ [] → paused d1.opt.st = true) ∧
      (d1.st = .options → c.remainder.drop k = [] → d1.opt.st ≠ .valueStart) := by
  obtain ⟨b, bs, hrb⟩ : ∃ b bs, c.remainder = b :: bs := List.exists_cons_of_ne_nil hr
  have hmic : ∀ d1, micro d b = (d1, false) → Quiet d c.remainder d1 (c.remainder.drop 0) := by
    intro d1 hm
    rw [hrb]; exact Quiet.one hg hm
  have hmr : ∀ d1, micro d b = (d1, false) → meas d1 (c.remainder.drop 0) < meas d c.remainder := by
    intro d1 hm
    have := micro_rank d b (by rw [hm])
    rw [hm] at this
    exact meas_lt0 this
  have hlen : c.remainder.length = c.chunk.length - c.pos := by simp [Ctx.remainder]
  have hpos := hi.pos
  cases hs : d.st
  case uninitialized =>
    have hm : micro d b = ({ d with st := .header, hpos := 0 }, false) := by simp [micro, hs]
    refine ⟨_, 0, by simp, hmic _ hm, hmr _ hm, ?_, ?_, by simp, Or.inl (by simp [Going]), by simp, by simp⟩
    · simp only [HOK, hs] at hh; simpa [HOK] using hh
    · simp [step, hs, fin]
  case header =>
    obtain ⟨d0, k, dn, e, hk0, hk, hf, hdn⟩ := headerLoop_quiet d c.remainder 0 hs (hi.header hs) hr
    have ht := headerLoop_tkl d c.remainder 0 hr (hi.header hs) (by simpa [HOK, hs] using hh) e
    refine ⟨_, k, hk, hf, meas_lt hk0 hk, ?_, ?_, ?_, ?_, by cases dn <;> simp, by cases dn <;> simp⟩
    · cases dn <;> simp [HOK, ht.1, ht.2]
    · simp only [step, hs, e, Nat.zero_add]
      rw [fin_of_ne (by cases dn <;> simp)]
    · cases dn <;> simp
    · left; cases dn <;> simp [Going]
  case headerDone =>
    have hm : micro d b = ({ d with st := if d.hdr.tokenLength > 0 then .tokenStart else .tokenDone }, false) := by
      simp [micro, hs]
    refine ⟨_, 0, by simp, hmic _ hm, hmr _ hm, ?_, ?_, ?_, ?_, by split <;> simp, by split <;> simp⟩
    · simp only [HOK, hs] at hh; split <;> simpa [HOK] using hh
    · simp only [step, hs]
      rw [fin_of_ne (by split <;> simp)]
      split <;> simp
    · split <;> simp
    · left; split <;> simp [Going]
  case tokenStart =>
    have hm : micro d b = ({ d with st := .token, tpos := 0, opt := { d.opt with st := .garbage } }, false) := by
      simp [micro, hs]
    refine ⟨_, 0, by simp, hmic _ hm, hmr _ hm, ?_, ?_, by simp, Or.inl (by simp [Going]), by simp, by simp⟩
    · simp only [HOK, hs] at hh; simpa [HOK] using hh
    · simp [step, hs, fin]
  case token =>
    have h8 : d.hdr.tokenLength.toNat ≤ 8 := by simpa [HOK, hs] using hh
    obtain ⟨d0, k, dn, e, hk0, hk, hf, hdn⟩ := tokenLoop_quiet d c.remainder 0 hs hi.tbuf
      (hi.token hs).1 h8 hr
    have ht := tokenLoop_hdr _ _ _ e
    refine ⟨_, k, hk, hf, meas_lt hk0 hk, ?_, ?_, ?_, ?_, by cases dn <;> simp, by cases dn <;> simp⟩
    · cases dn <;> simp [HOK, ht, h8]
    · simp only [step, hs, e, Nat.zero_add]
      rw [fin_of_ne (by cases dn <;> simp)]
    · cases dn <;> simp
    · left; cases dn <;> simp [Going]
  case tokenDone =>
    have hm : micro d b = ({ d with st := .optionsStart }, false) := by simp [micro, hs]
    refine ⟨_, 0, by simp, hmic _ hm, hmr _ hm, ?_, ?_, by simp, Or.inl (by simp [Going]), by simp, by simp⟩
    · simp only [HOK, hs] at hh; simpa [HOK] using hh
    · simp [step, hs, fin]
  case optionsStart =>
    have hm : micro d b = ({ d with st := .options, opt := { d.opt with st := .firstByte }, holder := ⟨0, 0⟩ },
        false) := by simp [micro, hs]
    obtain ⟨o1, h1, k, e, hk, ho, hf, hme, hd, hp, hv⟩ := loop_quiet (OptDec.fuelFor c.remainder)
      { d with st := .options, opt := { d.opt with st := .firstByte }, holder := ⟨0, 0⟩ } c.remainder 0 rfl
      (by simp [OInv]) hr (by simp [OptDec.fuelFor, rank])
    have hd := hd rfl
    refine ⟨{ d with opt := o1, holder := h1, st := if o1.st = .payload then .optionsDone else .options }, k, hk, ?_, ?_, ?_, ?_, ?_, ?_, fun _ hne => hp (by have := List.length_pos_iff.mpr hne; simp at this; omega), fun _ he => hv (by have := List.drop_eq_nil_iff.mp he; omega)⟩
    · rw [hrb] at hf ⊢
      exact Quiet.cons hg hm (by simp [Silent]) hf
    · have := hmr _ hm; simp only [List.drop_zero] at this hme ⊢; omega
    · simp only [HOK, hs] at hh; split <;> simpa [HOK] using hh
    · have : (c.remainder.length == 0 && c.last) = false := by simp [hr]
      simp only [step, hs, OptDec.process, this, e, Nat.zero_add]
      rw [fin_of_opt hd]
      by_cases hp : o1.st = .payload <;> simp [hp]
    · split <;> simp
    · left; split <;> simp [Going]
  case options =>
    obtain ⟨o1, h1, k, e, hk, ho, hf, hme, hd, hp, hv⟩ := loop_quiet (OptDec.fuelFor c.remainder)
      d c.remainder 0 hs (hi.options hs) hr
      (by have := rank_le d.opt.st; simp only [OptDec.fuelFor]; omega)
    refine ⟨_, k, hk, hf, hme, ?_, ?_, ?_, ?_, fun _ hne => hp (by have := List.length_pos_iff.mpr hne; simp at this; omega), fun _ he => hv (by have := List.drop_eq_nil_iff.mp he; omega)⟩
    · simp only [HOK, hs] at hh; split <;> simpa [HOK] using hh
    · have : (c.remainder.length == 0 && c.last) = false := by simp [hr]
      simp only [step, hs, OptDec.process, this, e, Nat.zero_add]
      by_cases hp : o1.st = .payload
      · simp [hp, fin]
      · by_cases hend : c.pos + k = c.chunk.length
        · have hnil : c.remainder.drop k = [] := by
            apply List.drop_eq_nil_of_le; omega
          cases hl : c.last <;> by_cases hvd : o1.st = .optionValueDone <;> simp [hp, fin, hend, hnil, hvd]
        · have hnil : c.remainder.drop k ≠ [] := by
            intro h; have := List.drop_eq_nil_iff.mp h; omega
          rw [fin_of_r hnil]
          simp [hp, hend]
    · split <;> simp
    · left; split <;> simp [Going]
  case optionsDone =>
    have hop : d.opt.st = .payload := by
      rcases hi.optionsDone hs with h | ⟨_, h⟩
      · exact h
      · exfalso; rw [hrb] at hlen; simp at hlen; omega
    have hm : micro d b = ({ d with st := .payload }, false) := by simp [micro, hs]
    refine ⟨_, 0, by simp, hmic _ hm, hmr _ hm, ?_, ?_, by simpa using hr, Or.inr rfl, by simp, by simp⟩
    · simp only [HOK, hs] at hh; simpa [HOK] using hh
    · simp [step, hs, fin, hop]
  all_goals exact absurd hg (by simp [Going, hs])


/-- What is reported on leaving a state when `r` is the rest of the message. -/
def lnote (d : Dec) (r : List UInt8) : List LEvent :=
  match d.st with
  | .headerDone => [.header d.hdr]
  | .tokenDone => if d.hdr.tokenLength = 0 then [] else [.token (d.tbuf.take d.hdr.tokenLength.toNat) true]
  | .options =>
    if d.opt.st = .valueStart then
      .option d.holder.number d.opt.length ::
        (if d.opt.length = 0 then []
          else [.value d.holder.number (r.take d.opt.length.toNat) (decide (d.opt.length.toNat ≤ r.length))])
    else []
  | _ => []

/-- Everything reported for the rest `r` of a message. -/
def lfeed (d : Dec) (r : List UInt8) : List LEvent :=
  match r with
  | [] => []
  | b :: bs =>
    if d.st = .payload then [.payload (b :: bs) true, .complete]
    else if d.st = .payloadDone ∨ d.st = .done then []
    else
      let m := micro d b
      if m.2 then lnote d (b :: bs) ++ lfeed m.1 bs else lnote d (b :: bs) ++ lfeed m.1 (b :: bs)
termination_by 11 * r.length + drank d
decreasing_by
  · have := drank_le (micro d b).1
    simp only [List.length_cons]; omega
  · rename_i h
    have := micro_rank d b (by simpa using h)
    simp only [List.length_cons]; omega

theorem lfeed_nil (d : Dec) : lfeed d [] = [] := by rw [lfeed]

theorem lfeed_cons (d : Dec) (b : UInt8) (bs : List UInt8) (h : Going d) (d1 : Dec) (c : Bool)
    (hm : micro d b = (d1, c)) :
    lfeed d (b :: bs) = lnote d (b :: bs) ++ lfeed d1 (if c then bs else b :: bs) := by
  unfold Going at h
  have h1 : d.st ≠ .payload := fun e => h (Or.inl e)
  have h2 : ¬ (d.st = .payloadDone ∨ d.st = .done) := fun e => h (Or.inr e)
  rw [lfeed, if_neg h1, if_neg h2]
  simp only [hm]
  cases c <;> simp

theorem lfeed_payload (d : Dec) (r : List UInt8) (h : d.st = .payload) (hr : r ≠ []) :
    lfeed d r = [.payload r true, .complete] := by
  obtain ⟨b, bs, rfl⟩ := List.exists_cons_of_ne_nil hr
  rw [lfeed, if_pos h]

theorem lnote_silent (d : Dec) (r : List UInt8) (h : Silent d) : lnote d r = [] := by
  unfold Silent at h
  cases hs : d.st <;> simp only [hs] at h <;> simp [lnote, hs, h]

/-- A quiet path, with the rest of the message `f` behind the buffer. -/
theorem quiet_lfeed {d d1 : Dec} {r r1 : List UInt8} (q : Quiet d r d1 r1) (f : List UInt8) :
    lfeed d (r ++ f) = lnote d (r ++ f) ++ lfeed d1 (r1 ++ f) := by
  induction q with
  | @one d b bs d1 c hg hm =>
    rw [List.cons_append, lfeed_cons d b _ hg d1 c hm]
    cases c <;> simp
  | @cons d b bs d1 c d2 r2 hg hm hs _ ih =>
    rw [List.cons_append, lfeed_cons d b _ hg d1 c hm]
    have : (if c = true then bs ++ f else b :: (bs ++ f)) = (if c = true then bs else b :: bs) ++ f := by
      cases c <;> simp
    rw [this, ih, lnote_silent d1 _ hs]; simp

/-- The remaining length kept by the older dispatch does not influence what is owed. -/
def setLen (d : Dec) (x : UInt16) : Dec := { d with holder := { d.holder with length := x } }

theorem micro_setLen (d : Dec) (x : UInt16) (b : UInt8) :
    ∃ y, micro (setLen d x) b = (setLen (micro d b).1 y, (micro d b).2) := by
  cases hs : d.st <;> simp only [micro, setLen, hs]
  case uninitialized => exact ⟨x, rfl⟩
  case header => refine ⟨x, ?_⟩; simp only [putHeader]; split <;> simp [hs]
  case headerDone => exact ⟨x, rfl⟩
  case tokenStart => exact ⟨x, rfl⟩
  case token => refine ⟨x, ?_⟩; simp only [putToken]; split <;> simp [hs]
  case tokenDone => exact ⟨x, rfl⟩
  case optionsStart => exact ⟨0, rfl⟩
  case options =>
    refine ⟨(upd (pureStep d.opt b).1 ⟨d.holder.number, x⟩).length, ?_⟩
    congr 1
    simp only [Dec.mk.injEq, true_and]
    cases h : (pureStep d.opt b).1.st <;> simp [upd, h]
  case optionsDone => exact ⟨x, rfl⟩
  all_goals exact ⟨x, rfl⟩

theorem lnote_setLen (d : Dec) (x : UInt16) (r : List UInt8) : lnote (setLen d x) r = lnote d r := rfl

theorem lfeed_setLen (d : Dec) (x : UInt16) (r : List UInt8) : lfeed (setLen d x) r = lfeed d r := by
  fun_induction lfeed d r generalizing x with
  | case1 d => rw [lfeed_nil]
  | case2 d b bs h => exact lfeed_payload _ _ h (by simp)
  | case3 d b bs h1 h2 => rw [lfeed, if_neg (by exact h1), if_pos (by exact h2)]
  | case4 d b bs h1 h2 m hc ih =>
    obtain ⟨y, hy⟩ := micro_setLen d x b
    have hg : Going (setLen d x) := by
      unfold Going; intro h; rcases h with h | h; exact h1 h; exact h2 h
    rw [lfeed_cons _ b bs hg _ _ hy, lnote_setLen]
    have hc' : (micro d b).2 = true := hc
    rw [hc', if_pos rfl, ih]
  | case5 d b bs h1 h2 m hc ih =>
    obtain ⟨y, hy⟩ := micro_setLen d x b
    have hg : Going (setLen d x) := by
      unfold Going; intro h; rcases h with h | h; exact h1 h; exact h2 h
    rw [lfeed_cons _ b bs hg _ _ hy, lnote_setLen]
    have hc' : (micro d b).2 = false := by simpa using hc
    rw [hc']
    simp only [Bool.false_eq_true, if_false]
    rw [ih]

/-- The length kept for the caller is the length of the option wherever it is looked at. -/
def HL (d : Dec) : Prop :=
  d.st = .options →
    match d.opt.st with
    | .optionLengthDone | .optionDeltaAndLengthDone | .valueStart => d.holder.length = d.opt.length
    | .optionDelta | .optionDeltaDone => d.opt.rawLength < 13 → d.holder.length = d.opt.length
    | _ => True

theorem hl_step {o o' : OptDec} {b : UInt8} {c : Bool} {h : Holder} (hi : OInv o) (e : o.step b = .ok (o', c))
    (hl : match o.st with
      | .optionLengthDone | .optionDeltaAndLengthDone | .valueStart => h.length = o.length
      | .optionDelta | .optionDeltaDone => o.rawLength < 13 → h.length = o.length
      | _ => True) :
    match o'.st with
    | .optionLengthDone | .optionDeltaAndLengthDone | .valueStart => (upd o' h).length = o'.length
    | .optionDelta | .optionDeltaDone => o'.rawLength < 13 → (upd o' h).length = o'.length
    | _ => True := by
  unfold OInv at hi
  cases hs : o.st <;> simp only [hs] at hl hi <;> simp only [OptDec.step, hs] at e
  case firstByte => split at e <;> cases e <;> simp
  case firstByteDone =>
    cases e
    by_cases h1 : 13 ≤ o.rawDelta <;> by_cases h2 : 13 ≤ o.rawLength <;> simp only [ge_iff_le, h1, h2, if_true, if_false, upd]
    · intro h; exact absurd h2 (UInt8.not_le.mpr h)
    · intro h; exact absurd h2 (UInt8.not_le.mpr h)
  case optionDelta =>
    have key : ∀ o2 : OptDec, o.write b = .ok o2 → o2.rawLength = o.rawLength ∧ (o.rawLength < 13 → o2.length = o.length) := by
      intro o2 hw
      have hp : o.pos = 1 ∨ o.pos = 2 := by rcases hi.2 with h | h; exact Or.inl h; exact Or.inr h.2
      rcases hp with hp | hp <;> simp [OptDec.write, hp] at hw <;> subst hw <;>
        refine ⟨rfl, fun h => ?_⟩ <;> simp only [OptDec.length, OptDec.rawLength, OptDec.getValue] at h ⊢ <;> simp [h]
    cases hw : o.write b with
    | error x => simp [hw] at e
    | ok o2 =>
      obtain ⟨k1, k2⟩ := key o2 hw
      have h2 := write_st hw
      simp only [hw] at e
      split at e <;> cases e
      · simp only [upd]
        intro h0
        have h' : o.rawLength < 13 := by rw [← k1]; exact h0
        show h.length = _
        rw [hl h', ← k2 h']; rfl
      · simp only [h2, hs, upd]
        intro h
        have h' : o.rawLength < 13 := by rw [← k1]; exact h
        rw [hl h', ← k2 h']; rfl
  case optionDeltaDone =>
    split at e <;> cases e
    · rename_i h
      simp only [upd]
      refine hl ?_
      simpa using h
    · simp
  case optionLength =>
    cases hw : o.write b with
    | error x => simp [hw] at e
    | ok o2 =>
      have h2 := write_st hw
      simp only [hw] at e
      split at e <;> cases e
      · simp [upd]
      · simp [h2, hs]
  case optionLengthDone =>
    split at e <;> cases e
    · simp only [upd]; exact hl
    · simp only [upd]; intro _; exact hl
  case optionDeltaAndLengthDone => cases e; simp only [upd]; exact hl
  case valueStart =>
    cases e
    by_cases h0 : ((o.setValueLength o.length).valueLength == 0) = true <;> simp [h0]
  case optionValue =>
    split at e <;> cases e
    · simp
    · simp [OptDec.setValueLength, hs]
  case optionValueDone => cases e; simp
  case payload => cases e; simp [hs]
  all_goals exact hi.elim

/-- What a running decoder keeps besides the safety invariant. -/
def LInv (d : Dec) : Prop := (d.st = .options → OInv d.opt) ∧ HL d ∧ (d.st = .header → d.hpos.toNat < 4) ∧
  (d.st = .options → d.opt.st ≠ .payload)

theorem micro_linv (d : Dec) (b : UInt8) (h : LInv d) : LInv (micro d b).1 := by
  refine ⟨?_, ?_, micro_hp d b, ?_⟩
  · cases hs : d.st <;> simp only [micro, hs]
    case header => simp only [putHeader]; split <;> simp [hs]
    case headerDone => split <;> simp
    case token => simp only [putToken]; split <;> simp [hs]
    case optionsStart => simp [OInv]
    case options =>
      obtain ⟨o', c, e, hi', -⟩ := step_ok d.opt b (h.1 hs)
      rw [pureStep_eq e]; intro _; exact hi'
    all_goals simp [hs]
  · unfold HL
    cases hs : d.st <;> simp only [micro, hs]
    case header => simp only [putHeader]; split <;> simp [hs]
    case headerDone => split <;> simp
    case token => simp only [putToken]; split <;> simp [hs]
    case optionsStart => simp
    case options =>
      obtain ⟨o', c, e, hi', -⟩ := step_ok d.opt b (h.1 hs)
      rw [pureStep_eq e]
      intro _
      exact hl_step (h.1 hs) e (h.2.1 hs)
    all_goals simp [hs]
  · cases hs : d.st <;> simp only [micro, hs]
    case header => simp only [putHeader]; split <;> simp [hs]
    case headerDone => split <;> simp
    case token => simp only [putToken]; split <;> simp [hs]
    case optionsStart => simp
    case options => split <;> simp_all
    all_goals simp [hs]

theorem quiet_linv {d d1 : Dec} {r r1 : List UInt8} (q : Quiet d r d1 r1) (h : LInv d) : LInv d1 := by
  induction q with
  | @one d b bs d1 c hg hm => have := micro_linv d b h; rwa [hm] at this
  | @cons d b bs d1 c d2 r2 hg hm hs _ ih => apply ih; have := micro_linv d b h; rwa [hm] at this

theorem quiet_hok {d d1 : Dec} {r r1 : List UInt8} (q : Quiet d r d1 r1) (f : List UInt8) (hl : LInv d)
    (h : HOK d (r ++ f)) : HOK d1 (r1 ++ f) := by
  induction q with
  | @one d b bs d1 c hg hm =>
    have := micro_hok d b (bs ++ f) hl.2.2.1 h
    rw [hm] at this; cases c <;> simpa using this
  | @cons d b bs d1 c d2 r2 hg hm hs _ ih =>
    have h1 := micro_hok d b (bs ++ f) hl.2.2.1 h
    have h2 := micro_linv d b hl
    rw [hm] at h1 h2
    apply ih h2
    cases c <;> simpa using h1

theorem loop_value (r : List UInt8) : ∀ (f : Nat) (o : OptDec) (h : Holder) (n v : Nat), o.st = .optionValue →
    o.valueLength.toNat = v → 0 < v → r.length < f →
    (r.length < v → ∃ o', OptDec.loop f o h r n = .ok (o', h, n + r.length) ∧ o'.st = .optionValue ∧ o'.valueLength.toNat = v - r.length) ∧
    (v ≤ r.length → ∃ o', OptDec.loop f o h r n = .ok (o', h, n + v) ∧ o'.st = .optionValueDone) := by
  induction r with
  | nil =>
    intro f o h n v ho hv hv0 hf
    obtain ⟨f, rfl⟩ : ∃ g, f = g + 1 := ⟨f - 1, by simp at hf; omega⟩
    exact ⟨fun _ => ⟨o, rfl, ho, by simpa using hv⟩, fun h => by simp at h; omega⟩
  | cons b bs ih =>
    intro f o h n v ho hv hv0 hf
    obtain ⟨f, rfl⟩ : ∃ g, f = g + 1 := ⟨f - 1, by omega⟩
    have hsub : (o.valueLength - 1).toNat = v - 1 := by
      rw [UInt16.toNat_sub_of_le _ _ (by rw [UInt16.le_iff_toNat_le, hv]; simpa using Nat.succ_le_of_lt hv0), hv]; simp
    by_cases h1 : v = 1
    · have hz : o.valueLength - 1 = 0 := by apply UInt16.toNat_inj.1; rw [hsub, h1]; rfl
      have he : o.step b = .ok ({ o.setValueLength (o.valueLength - 1) with st := .optionValueDone }, true) := by
        simp only [OptDec.step, ho, setValueLength_get, hz]; simp
      refine ⟨fun h => by simp at h; omega, fun _ => ⟨{ o.setValueLength (o.valueLength - 1) with st := .optionValueDone }, ?_, rfl⟩⟩
      rw [loop_cons f o _ true h b bs n he, h1]
      simp [paused, upd]
    · have hz : o.valueLength - 1 ≠ 0 := by
        intro hc; rw [hc] at hsub; simp at hsub; omega
      have he : o.step b = .ok (o.setValueLength (o.valueLength - 1), true) := by
        simp only [OptDec.step, ho, setValueLength_get]; simp [hz]
      have hst : (o.setValueLength (o.valueLength - 1)).st = .optionValue := ho
      have a1 : n + 1 + bs.length = n + (bs.length + 1) := by omega
      have a2 : v - 1 - bs.length = v - (bs.length + 1) := by omega
      have a3 : n + 1 + (v - 1) = n + v := by omega
      obtain ⟨i1, i2⟩ := ih f (o.setValueLength (o.valueLength - 1)) h (n + 1) (v - 1) hst (by rw [setValueLength_get, hsub]) (by omega)
        (by simp only [List.length_cons] at hf; omega)
      have hu : upd (o.setValueLength (o.valueLength - 1)) h = h := by simp [upd, hst]
      rw [loop_cons f o _ true h b bs n he, hst]
      simp only [paused, Bool.false_eq_true, if_false, if_true, hu, List.length_cons]
      constructor
      · intro hlt
        obtain ⟨o', e1, e2, e3⟩ := i1 (Nat.lt_sub_of_add_lt hlt)
        exact ⟨o', by rw [e1, a1], e2, by rw [e3, a2]⟩
      · intro hle
        obtain ⟨o', e1, e2⟩ := i2 (Nat.sub_le_of_le_add hle)
        exact ⟨o', by rw [e1, a3], e2⟩

/-- One step inside an option value of which `v` bytes are missing. -/
theorem step_value (d : Dec) (c : Ctx) (v : Nat) (hs : d.st = .options) (hp : c.pos ≤ c.chunk.length) (hr : c.remainder ≠ []) (hv0 : 0 < v)
    (ho : (d.opt.st = .optionValue ∧ d.opt.valueLength.toNat = v) ∨ (d.opt.st = .valueStart ∧ d.opt.length.toNat = v)) :
    ∃ o' s', d.step c = .ok ({ d with opt := o', st := s' }, { c with pos := c.pos + min v c.remainder.length }) ∧
      (c.remainder.length < v → o'.st = .optionValue ∧ o'.valueLength.toNat = v - c.remainder.length ∧ s' = .options) ∧
      (v ≤ c.remainder.length → o'.st = .optionValueDone) ∧ (s' = .options ∨ s' = .optionsDone) := by
  have key : ∃ o', OptDec.process d.opt d.holder c.remainder c.last = .ok (o', d.holder, min v c.remainder.length) ∧
      (c.remainder.length < v → o'.st = .optionValue ∧ o'.valueLength.toNat = v - c.remainder.length) ∧
      (v ≤ c.remainder.length → o'.st = .optionValueDone) := by
    have hb : (c.remainder.length == 0 && c.last) = false := by simp [hr]
    simp only [OptDec.process, hb, Bool.false_eq_true, if_false]
    have main : ∀ (o : OptDec) (f : Nat), o.st = .optionValue → o.valueLength.toNat = v → c.remainder.length < f →
        ∃ o', OptDec.loop f o d.holder c.remainder 0 = .ok (o', d.holder, min v c.remainder.length) ∧
        (c.remainder.length < v → o'.st = .optionValue ∧ o'.valueLength.toNat = v - c.remainder.length) ∧
        (v ≤ c.remainder.length → o'.st = .optionValueDone) := by
      intro o f h1 h2 hf
      obtain ⟨i1, i2⟩ := loop_value c.remainder f o d.holder 0 v h1 h2 hv0 hf
      by_cases hlt : c.remainder.length < v
      · obtain ⟨o', e1, e2, e3⟩ := i1 hlt
        refine ⟨o', ?_, fun _ => ⟨e2, e3⟩, fun h => by omega⟩
        rw [e1]; congr 3; omega
      · obtain ⟨o', e1, e2⟩ := i2 (by omega)
        refine ⟨o', ?_, fun h => absurd h hlt, fun _ => e2⟩
        rw [e1]; congr 3; omega
    rcases ho with ⟨h1, h2⟩ | ⟨h1, h2⟩
    · exact main d.opt _ h1 h2 (by simp only [OptDec.fuelFor]; omega)
    · obtain ⟨b, bs, hrb⟩ := List.exists_cons_of_ne_nil hr
      have hne : d.opt.length ≠ 0 := by intro h; rw [h] at h2; simp at h2; omega
      have he : d.opt.step b = .ok ({ d.opt.setValueLength d.opt.length with st := .optionValue }, false) := by
        simp only [OptDec.step, h1, setValueLength_get]; simp [hne]
      have hl := loop_cons (6 * c.remainder.length + 6) d.opt _ false d.holder b bs 0 he
      rw [← hrb] at hl
      simp only [paused, Bool.false_eq_true, if_false, upd] at hl
      rw [show OptDec.fuelFor c.remainder = 6 * c.remainder.length + 6 + 1 from rfl, hl]
      exact main _ _ rfl (by show (d.opt.setValueLength d.opt.length).valueLength.toNat = v; rw [setValueLength_get, h2]) (by omega)
  obtain ⟨o', e, k1, k2⟩ := key
  have hnp : o'.st ≠ .payload := by
    by_cases h : c.remainder.length < v
    · rw [(k1 h).1]; simp
    · rw [k2 (by omega)]; simp
  simp only [Dec.step, hs, e, beq_iff_eq, hnp, if_false]
  by_cases hend : (c.pos + min v c.remainder.length == c.chunk.length && c.last) = true
  · rw [if_pos hend]
    refine ⟨o', _, rfl, fun h => ⟨(k1 h).1, (k1 h).2, ?_⟩, k2, by split <;> simp⟩
    simp [(k1 h).1]
  · rw [if_neg hend]
    exact ⟨o', .options, by rw [← hs], fun h => ⟨(k1 h).1, (k1 h).2, rfl⟩, k2, Or.inl rfl⟩

theorem micro_value (d : Dec) (b : UInt8) (h1 : (micro d b).1.st = .options) (h2 : (micro d b).1.opt.st = .optionValue)
    (hl : LInv d) : d.st = .options ∧ (d.opt.st = .optionValue ∨ (d.opt.st = .valueStart ∧ d.opt.length ≠ 0)) := by
  cases hs : d.st <;> simp only [micro, hs] at h1 h2
  case header => simp only [putHeader] at h1; split at h1 <;> simp [hs] at h1
  case headerDone => split at h1 <;> simp at h1
  case token => simp only [putToken] at h1; split at h1 <;> simp [hs] at h1
  case optionsStart => simp at h2
  case options =>
    refine ⟨rfl, ?_⟩
    obtain ⟨o', c, e, hi', -⟩ := step_ok d.opt b (hl.1 hs)
    rw [pureStep_eq e] at h2
    simp only at h2
    cases ho : d.opt.st <;> simp only [OptDec.step, ho] at e
    case firstByte => split at e <;> cases e <;> simp at h2
    case firstByteDone => cases e; revert h2; dsimp only; repeat' split
                          all_goals simp
    case optionDelta =>
      cases hw : d.opt.write b with
      | error x => simp [hw] at e
      | ok o2 =>
        have h3 := write_st hw
        simp only [hw] at e
        split at e <;> cases e <;> simp [h3, ho] at h2
    case optionDeltaDone => split at e <;> cases e <;> simp at h2
    case optionLength =>
      cases hw : d.opt.write b with
      | error x => simp [hw] at e
      | ok o2 =>
        have h3 := write_st hw
        simp only [hw] at e
        split at e <;> cases e <;> simp [h3, ho] at h2
    case optionLengthDone => split at e <;> cases e <;> simp at h2
    case optionDeltaAndLengthDone => cases e; simp at h2
    case valueStart =>
      right
      refine ⟨rfl, fun hz => ?_⟩
      cases e
      simp [setValueLength_get, hz] at h2
    case optionValue => exact Or.inl rfl
    case optionValueDone => cases e; simp at h2
    case payload => cases e; simp [ho] at h2
    case optionDone => cases e; simp [ho] at h2
    case garbage => cases e; simp [ho] at h2
  all_goals simp_all

theorem quiet_value {d d1 : Dec} {r r1 : List UInt8} (q : Quiet d r d1 r1) (hl : LInv d) (h1 : d1.st = .options)
    (h2 : d1.opt.st = .optionValue) :
    d.st = .options ∧ (d.opt.st = .optionValue ∨ (d.opt.st = .valueStart ∧ d.opt.length ≠ 0)) := by
  induction q with
  | @one d b bs d1 c hg hm => exact micro_value d b (by rw [hm]; exact h1) (by rw [hm]; exact h2) hl
  | @cons d b bs d1 c d2 r2 hg hm hs _ ih =>
    have hl1 : LInv d1 := by have := micro_linv d b hl; rwa [hm] at this
    obtain ⟨k1, k2⟩ := ih hl1 h1 h2
    rcases k2 with k2 | ⟨k2, -⟩
    · exact micro_value d b (by rw [hm]; exact k1) (by rw [hm]; exact k2) hl
    · simp [Silent, k1, k2] at hs

end Verif.Proofs
