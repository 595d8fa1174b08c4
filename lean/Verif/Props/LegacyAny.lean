import Verif.Props.Legacy
import Verif.Props.DecoderAnyCuts
import Verif.Spec.LegacyAny
import Verif.Model.Pump

/-! # The older dispatch on arbitrary bytes (C47, C58) -/
namespace Verif.Props
open Verif.Model Verif.Proofs Verif.Spec Header Dec OptDec

/-- Calls announcing a noted option. -/
def spotCalls (s : Spot) : List LEvent :=
  .option s.number (UInt16.ofNat s.len) ::
    (if s.len = 0 then [] else [.value s.number (s.rest.take s.len) (decide (s.len ≤ s.rest.length))])

/-- The states from the end of the token to the end of the options. -/
def PastToken (d : Dec) : Prop := d.st = .tokenDone ∨ d.st = .optionsStart ∨ d.st = .options ∨ d.st = .optionsDone

theorem pastToken_going {d : Dec} (h : PastToken d) : Going d := by
  unfold Going
  rcases h with h | h | h | h <;> simp [h]

theorem micro_pastToken (d : Dec) (b : UInt8) (h : PastToken d) :
    (PastToken (micro d b).1 ∧ (micro d b).1.st ≠ .tokenDone) ∨ ((micro d b).1.st = .payload ∧ (micro d b).2 = false) := by
  rcases h with h | h | h | h <;> simp only [micro, h]
  · left; simp [PastToken]
  · left; simp [PastToken]
  · left
    split <;> simp [PastToken]
  · right; simp

/-- A value is never begun by the byte that ends the header of its option. -/
theorem micro_begin (d : Dec) (b : UInt8) (hl : LInv d) (hs : (micro d b).1.st = .options)
    (hv : (micro d b).1.opt.st = .valueStart) (h0 : PastToken d) : (micro d b).2 = false := by
  rcases h0 with h | h | h | h <;> simp only [micro, h] at hs hv ⊢
  obtain ⟨o', c, e, -, -⟩ := step_ok d.opt b (hl.1 h)
  rw [pureStep_eq e] at hs hv ⊢
  simp only at hs hv ⊢
  cases c
  · rfl
  · exact (step_consumed e hv).elim

theorem spotNote_calls (d : Dec) (r : List UInt8) (hl : LInv d) (h : PastToken d) (ht : d.st ≠ .tokenDone) :
    (spotNote d r).flatMap spotCalls = lnote d r := by
  rcases h with h | h | h | h
  · exact absurd h ht
  · simp [spotNote, lnote, h]
  · by_cases ho : d.opt.st = .valueStart
    · have hL : d.holder.length = d.opt.length := by have := hl.2.1 h; simpa [ho] using this
      simp only [spotNote, lnote, h, ho, hL, and_self, if_true, List.flatMap_cons, List.flatMap_nil, List.append_nil, spotCalls]
      by_cases h0 : d.opt.length = 0
      · simp [h0]
      · have h1 : 0 < d.opt.length.toNat := Nat.pos_of_ne_zero fun h => h0 (UInt16.toNat_inj.1 h)
        have hgt : d.opt.length > 0 := by rw [gt_iff_lt, UInt16.lt_iff_toNat_lt]; exact h1
        have h2 : d.opt.length.toNat ≠ 0 := by omega
        simp [hgt, h0, h2]
    · simp [spotNote, lnote, h, ho]
  · simp [spotNote, lnote, h]

theorem feed_left_payload (d : Dec) (r : List UInt8) (h : d.st = .payload) : (feed true d r).2.2 = r := by
  rw [feed_stop _ _ _ (by simp [Going, h])]

/-- The calls of the older dispatch from the end of the token on. -/
theorem lfeed_spots (n : Nat) : ∀ (d : Dec) (r : List UInt8), meas d r < n → PastToken d → LInv d →
    lfeed d r = (if r = [] then [] else lnote d r) ++ ((spots d r).flatMap spotCalls ++
      (if (feed true d r).2.2 = [] then [] else [.payload (feed true d r).2.2 true, .complete])) := by
  induction n with
  | zero => intro d r hm; exact absurd hm (Nat.not_lt_zero _)
  | succ n ih =>
    intro d r hm hd hl
    cases r with
    | nil => simp [lfeed_nil, spots_nil, feed_nil]
    | cons b bs =>
      obtain ⟨d1, c, hmc⟩ : ∃ d1 c, micro d b = (d1, c) := ⟨_, _, rfl⟩
      have hg := pastToken_going hd
      have hl1 := micro_linv d b hl
      have hd1 := micro_pastToken d b hd
      have hbg := micro_begin d b hl
      rw [hmc] at hl1 hd1 hbg
      simp only at hl1 hd1 hbg
      rw [lfeed_cons d b bs hg d1 c hmc, spots_cons d b bs hg d1 c hmc, feed_cons true d b bs hg d1 c hmc,
        if_neg (show ¬ b :: bs = [] by simp)]
      congr 1
      simp only
      rcases hd1 with ⟨hd1, ht⟩ | ⟨hp, hc⟩
      · have hm1 : meas d1 (if c then bs else b :: bs) < n := by
          cases c
          · have := micro_rank d b (by rw [hmc])
            rw [hmc] at this
            simp only [] at this
            simp only [meas, Bool.false_eq_true, if_false] at hm ⊢
            omega
          · have := drank_le d1
            simp only [meas, if_true, List.length_cons] at hm ⊢
            omega
        rw [ih d1 _ hm1 hd1 hl1, List.flatMap_append, List.append_assoc]
        congr 1
        rw [← spotNote_calls d1 _ hl1 hd1 ht]
        by_cases hr : (if c = true then bs else b :: bs) = []
        · rw [if_pos hr, spotNote]
          by_cases hv : d1.st = .options ∧ d1.opt.st = .valueStart
          · have := hbg hv.1 hv.2 hd
            subst this
            simp at hr
          · rw [if_neg hv]; rfl
        · rw [if_neg hr]
      · subst hc
        simp only [Bool.false_eq_true, if_false]
        rw [lfeed_payload d1 _ hp (by simp), spots_stop d1 _ (by simp [Going, hp]), feed_left_payload d1 _ hp]
        simp [spotNote, hp]

/-- The options noted from the beginning of an option on, for arbitrary bytes. -/
theorem spots_told (r : List UInt8) (S : Nat) (d : Dec) (hds : d.st = .options) (hr : Ready d.opt)
    (hn : d.holder.number = UInt16.ofNat S) : (spots d r).flatMap spotCalls = toldOpts S r := by
  generalize hm : r.length = m
  induction m using Nat.strongRecOn generalizing r S d with
  | ind m ih =>
    cases r with
    | nil => simp [toldOpts_nil, spots_nil]
    | cons w bs =>
      by_cases hw : w = 0xFF
      · subst hw
        have : spots d (0xFF :: bs) = [] := by
          apply spots_of_no_option (l := false)
          rw [marker_feed false d bs hds hr]
          have : optsOf (feed false { d with st := .optionsDone, opt := { d.opt with st := .payload } } bs).1 = [] := by
            rw [optsOf_feed, spots_optionsDone _ rfl]; rfl
          simpa [optsOf] using this
        simp [toldOpts_marker, this]
      · have hh := any_header d.opt d.holder w bs hr hw
        cases h1 : readExt (w.toNat / 16) bs with
        | none =>
          rw [h1] at hh
          obtain ⟨o', l, a1, a2, a3, q, hc⟩ := hh
          rw [q.2.1.2 d hds rfl rfl, spots_nil, toldOpts_cut_delta hw h1]; rfl
        | some p =>
          obtain ⟨delta, bs1⟩ := p
          simp only [h1] at hh
          have hSd : d.holder.number + UInt16.ofNat delta = UInt16.ofNat (S + delta) := by rw [hn]; simp
          cases h2 : readExt (w.toNat % 16) bs1 with
          | none =>
            rw [h2] at hh
            obtain ⟨o', l, a1, a2, a3, q, hc⟩ := hh
            rw [q.2.1.2 d hds rfl rfl, spots_nil, toldOpts_cut_length hw h1 h2]; rfl
          | some p =>
            obtain ⟨len, bs2⟩ := p
            simp only [h2] at hh
            obtain ⟨o', a1, q, he⟩ := hh
            rw [toldOpts_option hw h1 h2, q.2.1.2 d hds rfl rfl]
            by_cases hb2 : bs2 = []
            · rw [if_pos hb2, hb2, spots_nil]; rfl
            · rw [if_neg hb2]
              obtain ⟨B, hB, hcase⟩ := hend_spots
                { d with opt := o', holder := ⟨d.holder.number + UInt16.ofNat delta, UInt16.ofNat len⟩ } bs2 len hds he rfl hb2
              have hrec : B.flatMap spotCalls = toldOpts (S + delta) (bs2.drop (len % 65536)) := by
                rcases hcase with ⟨hlt, rfl⟩ | ⟨hle, o2, g1, rfl⟩
                · rw [List.drop_of_length_le (by omega), toldOpts_nil]; rfl
                · have hlt1 := readExt_length h1
                  have hlt2 := readExt_length h2
                  exact ih (bs2.drop (len % 65536)).length (by simp at hm ⊢; omega) (bs2.drop (len % 65536)) (S + delta)
                    { d with opt := o2, holder := ⟨d.holder.number + UInt16.ofNat delta, UInt16.ofNat len⟩ } hds
                    (Or.inr g1) hSd rfl
              have hlm : UInt16.ofNat (len % 65536) = UInt16.ofNat len := by apply UInt16.toNat_inj.1; simp
              rw [hB, List.flatMap_cons, hrec]
              simp only [spotCalls, hSd, hlm, List.cons_append]

theorem payload_told (r : List UInt8) (d : Dec) (hds : d.st = .options) (hr : Ready d.opt) :
    (if (feed true d r).2.2 = [] then [] else [LEvent.payload (feed true d r).2.2 true, .complete]) =
      toldPayload (readRest 0 0 r).2 := by
  have h := any_payload r 0 0 d hds hr
  have he := feed_end_payload (meas d r + 1) d r (by omega) (by simp [Going, hds])
  cases hp : (readRest 0 0 r).2 with
  | none =>
    rw [hp] at h
    rw [if_pos (Classical.byContradiction fun hn => h (he hn))]; rfl
  | some p =>
    rw [hp] at h
    obtain ⟨-, h1, h2⟩ := h
    cases p with
    | nil => rw [if_pos (Classical.byContradiction fun hn => h1 rfl (he hn))]; rfl
    | cons x xs =>
      rw [(h2 (by simp)).1, if_neg (by simp)]; rfl

theorem linv_early (d : Dec) (h1 : d.st ≠ .options) (h2 : d.st ≠ .header) : LInv d :=
  ⟨fun h => absurd h h1, fun h => absurd h h1, fun h => absurd h h2, fun h => absurd h h1⟩

/-- From the end of the token on. -/
theorem lfeed_after_token (d : Dec) (r : List UInt8) (hs : d.st = .tokenDone) :
    lfeed d r = (if r = [] then [] else lnote d r) ++ (toldOpts 0 r ++ toldPayload (readRest 0 0 r).2) := by
  cases r with
  | nil => simp [lfeed_nil, toldOpts_nil, readRest_nil, toldPayload]
  | cons b bs =>
    have hg : Going d := by simp [Going, hs]
    generalize hd2 : ({ d with st := .options, opt := { d.opt with st := .firstByte }, holder := ⟨0, 0⟩ } : Dec) = d2
    have h2 : PastToken d2 := by rw [← hd2]; simp [PastToken]
    have h2s : d2.st = .options := by rw [← hd2]
    have h2r : Ready d2.opt := by rw [← hd2]; exact Or.inl rfl
    have h2l : LInv d2 := by
      rw [← hd2]
      exact ⟨fun _ => by simp [OInv], fun _ => by simp, fun h => by simp at h, fun _ => by simp⟩
    rw [lfeed_cons d b bs hg { d with st := .optionsStart } false (by simp [micro, hs]), if_neg (show ¬ b :: bs = [] by simp)]
    simp only [Bool.false_eq_true, if_false]
    rw [lfeed_cons _ b bs (by simp [Going]) d2 false (by simp [micro, hd2])]
    simp only [Bool.false_eq_true, if_false]
    rw [lfeed_spots _ d2 _ (Nat.lt_succ_self _) h2 h2l, spots_told _ 0 d2 h2s h2r (by rw [← hd2]; rfl), payload_told _ d2 h2s h2r]
    have : lnote d2 (b :: bs) = [] := by rw [← hd2]; simp [lnote]
    rw [this]
    rw [if_neg (show ¬ b :: bs = [] by simp)]
    simp [lnote]

theorem lfeed_header (d : Dec) (b0 b1 b2 b3 : UInt8) (r : List UInt8) (hs : d.st = .uninitialized) :
    lfeed d (b0 :: b1 :: b2 :: b3 :: r) = lfeed { d with st := .headerDone, hdr := ⟨b0, b1, b2, b3⟩, hpos := 4 } r := by
  have m0 : ∀ b, micro d b = ({ d with st := .header, hpos := 0 }, false) := by intro b; simp [micro, hs]
  rw [lfeed_cons d b0 _ (by simp [Going, hs]) _ _ (m0 b0)]
  simp only [Bool.false_eq_true, if_false]
  rw [lfeed_cons _ b0 _ (by simp [Going]) { d with st := .header, hpos := 1, hdr := { d.hdr with b0 := b0 } } true
    (by simp [micro, putHeader, writeHeader])]
  simp only [if_true]
  rw [lfeed_cons _ b1 _ (by simp [Going]) { d with st := .header, hpos := 2, hdr := { d.hdr with b0 := b0, b1 := b1 } } true
    (by simp [micro, putHeader, writeHeader])]
  simp only [if_true]
  rw [lfeed_cons _ b2 _ (by simp [Going]) { d with st := .header, hpos := 3, hdr := { d.hdr with b0 := b0, b1 := b1, b2 := b2 } } true
    (by simp [micro, putHeader, writeHeader])]
  simp only [if_true]
  rw [lfeed_cons _ b3 _ (by simp [Going]) { d with st := .headerDone, hpos := 4, hdr := ⟨b0, b1, b2, b3⟩ } true
    (by simp [micro, putHeader, writeHeader])]
  simp [lnote, hs]

theorem lfeed_token_loop (t p : List UInt8) (d : Dec) (r : List UInt8) (hs : d.st = .token)
    (ht : t ≠ []) (htk : d.hdr.tokenLength.toNat = p.length + t.length) (h8 : p.length + t.length ≤ 8)
    (hb : d.tbuf.length = 8) (hp : d.tpos.toNat = p.length) (htb : d.tbuf.take p.length = p) :
    ∃ d', d'.st = .tokenDone ∧ d'.hdr = d.hdr ∧ d'.tbuf.take d.hdr.tokenLength.toNat = p ++ t ∧
      lfeed d (t ++ r) = lfeed d' r := by
  induction t generalizing p d with
  | nil => exact absurd rfl ht
  | cons b bs ih =>
    have hadd : (d.tpos + 1).toNat = p.length + 1 := by
      simp only [List.length_cons] at h8
      rw [UInt8.toNat_add]; simp; omega
    have htb' : (d.tbuf.set d.tpos.toNat b).take (p.length + 1) = p ++ [b] := by
      rw [hp]
      have hlt : p.length < (d.tbuf.set p.length b).length := by simp [hb]; simp at h8; omega
      rw [List.take_succ_eq_append_getElem hlt]
      rw [List.take_set_of_le (by omega), htb]
      simp
    have hln : ∀ r, lnote d r = [] := fun r => by simp [lnote, hs]
    by_cases hbs : bs = []
    · subst hbs
      have hge : d.tpos + 1 ≥ d.hdr.tokenLength := by
        rw [ge_iff_le, UInt8.le_iff_toNat_le, hadd, htk]; simp
      have hm : micro d b = ({ d with tbuf := d.tbuf.set d.tpos.toNat b, tpos := d.tpos + 1, opt := { d.opt with st := .garbage }, st := .tokenDone }, true) := by
        simp [micro, hs, putToken, hge]
      refine ⟨{ d with tbuf := d.tbuf.set d.tpos.toNat b, tpos := d.tpos + 1, opt := { d.opt with st := .garbage }, st := .tokenDone },
        rfl, rfl, ?_, ?_⟩
      · simpa [htk] using htb'
      · rw [List.cons_append, lfeed_cons d b _ (by simp [Going, hs]) _ _ hm, hln]
        simp
    · have hlt : ¬ (d.tpos + 1 ≥ d.hdr.tokenLength) := by
        rw [ge_iff_le, UInt8.le_iff_toNat_le, hadd, htk]
        have := List.length_pos_iff.mpr hbs
        simp; omega
      have hm : micro d b = ({ d with tbuf := d.tbuf.set d.tpos.toNat b, tpos := d.tpos + 1, opt := { d.opt with st := .garbage } }, true) := by
        simp [micro, hs, putToken, hlt]
      obtain ⟨d', e1, e2, e3, e4⟩ := ih (p ++ [b])
        { d with tbuf := d.tbuf.set d.tpos.toNat b, tpos := d.tpos + 1, opt := { d.opt with st := .garbage } } hs hbs
        (by simp only [htk]; simp; omega) (by simp at h8 ⊢; omega) (by simp [hb]) (by simp [hadd]) (by simpa using htb')
      refine ⟨d', e1, e2, by simpa using e3, ?_⟩
      rw [List.cons_append, lfeed_cons d b _ (by simp [Going, hs]) _ _ hm, hln]
      simp only [if_true, List.nil_append]
      exact e4

/-- All calls of the older dispatch for four header bytes, a token and any bytes. -/
theorem lfeed_any (junk : Dec) (hj : junk.tbuf.length = 8) (b0 b1 b2 b3 : UInt8) (tok rest : List UInt8)
    (ht : tok.length = (b0 &&& 0x0F).toNat) (h8 : tok.length ≤ 8) :
    lfeed (fresh junk) (b0 :: b1 :: b2 :: b3 :: (tok ++ rest)) = toldAny b0 b1 b2 b3 tok rest := by
  rw [lfeed_header (fresh junk) b0 b1 b2 b3 _ rfl]
  generalize hd1 : ({ fresh junk with st := .headerDone, hdr := ⟨b0, b1, b2, b3⟩, hpos := 4 } : Dec) = d1
  have hd1s : d1.st = .headerDone := by rw [← hd1]
  have hd1h : d1.hdr.tokenLength.toNat = tok.length := by rw [← hd1, ht]; rfl
  have hd1b : d1.tbuf.length = 8 := by rw [← hd1]; exact hj
  have hd1d : d1.hdr = ⟨b0, b1, b2, b3⟩ := by rw [← hd1]
  have hln : ∀ r, lnote d1 r = [.header ⟨b0, b1, b2, b3⟩] := fun r => by simp [lnote, hd1s, hd1d]
  unfold toldAny
  cases tok with
  | nil =>
    have hz : d1.hdr.tokenLength = 0 := UInt8.toNat_inj.1 (by simpa using hd1h)
    cases rest with
    | nil => simp [lfeed_nil, toldOpts_nil, readRest_nil, toldPayload]
    | cons b bs =>
      rw [List.nil_append, lfeed_cons d1 b bs (by simp [Going, hd1s]) { d1 with st := .tokenDone } false
        (by simp [micro, hd1s, hz]), hln]
      simp only [Bool.false_eq_true, if_false]
      rw [lfeed_after_token _ _ rfl]
      simp [lnote, hz]
  | cons b bs =>
    have hgt : d1.hdr.tokenLength > 0 := by rw [gt_iff_lt, UInt8.lt_iff_toNat_lt, hd1h]; simp
    have hz : d1.hdr.tokenLength ≠ 0 := by intro h; rw [h] at hd1h; simp at hd1h
    have m1 : micro d1 b = ({ d1 with st := .tokenStart }, false) := by simp [micro, hd1s, hgt]
    have m2 : micro { d1 with st := .tokenStart } b =
        ({ d1 with st := .token, tpos := 0, opt := { d1.opt with st := .garbage } }, false) := by simp [micro]
    obtain ⟨d', e1, e2, e3, e4⟩ := lfeed_token_loop (b :: bs) []
      { d1 with st := .token, tpos := 0, opt := { d1.opt with st := .garbage } } rest rfl (by simp)
      (by simpa using hd1h) (by simpa using h8) hd1b (by simp) (by simp)
    rw [List.cons_append, lfeed_cons d1 b _ (by simp [Going, hd1s]) _ _ m1, hln]
    simp only [Bool.false_eq_true, if_false]
    rw [lfeed_cons _ b _ (by simp [Going]) _ _ m2]
    simp only [Bool.false_eq_true, if_false]
    rw [← List.cons_append, e4, lfeed_after_token d' rest e1]
    have hl' : lnote d' rest = [.token (b :: bs) true] := by
      simp only at e2 e3
      simp only [lnote, e1, e2, hz, if_false]
      rw [e3]; rfl
    rw [hl']
    cases rest <;> simp [lnote]

/-- C47, for arbitrary bytes behind header and token, cut in any way (the last buffer not empty): exactly these calls are
made, once the parts of values and payload are joined. -/
theorem legacy_any_exact (junk : Dec) (hj : junk.tbuf.length = 8) (b0 b1 b2 b3 : UInt8) (tok rest : List UInt8)
    (ht : tok.length = (b0 &&& 0x0F).toNat) (h8 : tok.length ≤ 8) (cs : List (List UInt8)) (l : List UInt8)
    (hcut : cs.flatten ++ l = b0 :: b1 :: b2 :: b3 :: (tok ++ rest)) (hl : l ≠ []) :
    ∃ N d' evs, (∀ fuel, N ≤ fuel → legacyChunks fuel (fresh junk) cs l = .ok (d', evs)) ∧
      glue evs = toldAny b0 b1 b2 b3 tok rest := by
  obtain ⟨N, d', evs, h1, h2, -⟩ := legacy_parts junk hj cs l
    (by rw [hcut]; rw [ht] at h8; simpa [HOK, fresh] using h8) (Or.inl hl)
  exact ⟨N, d', evs, h1, by rw [h2, hcut, lfeed_any junk hj b0 b1 b2 b3 tok rest ht h8]⟩

/-- C47, for arbitrary bytes in one buffer: exactly these calls, none in parts. -/
theorem legacy_any_one (junk : Dec) (hj : junk.tbuf.length = 8) (b0 b1 b2 b3 : UInt8) (tok rest : List UInt8)
    (ht : tok.length = (b0 &&& 0x0F).toNat) (h8 : tok.length ≤ 8) :
    ∃ N d', ∀ fuel, N ≤ fuel → legacyChunks fuel (fresh junk) [] (b0 :: b1 :: b2 :: b3 :: (tok ++ rest)) =
      .ok (d', toldAny b0 b1 b2 b3 tok rest) := by
  obtain ⟨N, d', h⟩ := legacy_one junk hj (b0 :: b1 :: b2 :: b3 :: (tok ++ rest))
    (by rw [ht] at h8; simpa [HOK, fresh] using h8) (by simp)
  exact ⟨N, d', fun fuel hf => by rw [h fuel hf, lfeed_any junk hj b0 b1 b2 b3 tok rest ht h8]⟩

/-- C58, for a first datagram whose first chunk holds header, token and arbitrary bytes: exactly what the observer is
told, whatever the other chunks hold. -/
theorem pump_first_any (junk : Dec) (hj : junk.tbuf.length = 8) (b0 b1 b2 b3 : UInt8) (tok rest : List UInt8)
    (ht : tok.length = (b0 &&& 0x0F).toNat) (h8 : tok.length ≤ 8) (more : List (List UInt8)) :
    ∃ N d', ∀ fuel, N ≤ fuel → pump fuel (fresh junk) [(b0 :: b1 :: b2 :: b3 :: (tok ++ rest)) :: more] =
      .ok (d', [toldAny b0 b1 b2 b3 tok rest]) := by
  obtain ⟨N, d', h⟩ := legacy_any_one junk hj b0 b1 b2 b3 tok rest ht h8
  refine ⟨N, d', fun fuel hf => ?_⟩
  have := h fuel hf
  simp only [legacyChunks] at this
  simp only [pump, pumpDispatch, List.headD_cons]
  split at this
  · cases this
  · rename_i e
    simp only [Except.ok.injEq, Prod.mk.injEq] at this
    rw [e]
    simp [this.1, this.2]

/-- The option numbers announced. -/
def toldNumbers (es : List LEvent) : List UInt16 :=
  es.filterMap fun e => match e with | .option n _ => some n | _ => none

theorem toldOpts_kind (S : Nat) (r : List UInt8) :
    ∀ e ∈ toldOpts S r, (∃ n l, e = .option n l) ∨ ∃ n v l, e = .value n v l := by
  fun_induction toldOpts S r with
  | case1 | case2 | case3 | case4 | case5 => intro e he; cases he
  | case6 S b bs hb delta bs1 h1 len bs2 h2 hne ih =>
    intro e he
    rcases List.mem_cons.mp he with rfl | he
    · exact Or.inl ⟨_, _, rfl⟩
    · rcases List.mem_append.mp he with he | he
      · split at he
        · cases he
        · rw [List.mem_singleton.mp he]; exact Or.inr ⟨_, _, _, rfl⟩
      · exact ih e he

/-- C47, for arbitrary bytes: completion is told exactly when at least one byte follows a payload marker. -/
theorem legacy_any_complete_iff (b0 b1 b2 b3 : UInt8) (tok rest : List UInt8) :
    LEvent.complete ∈ toldAny b0 b1 b2 b3 tok rest ↔ ∃ x xs, (readRest 0 0 rest).2 = some (x :: xs) := by
  have h : LEvent.complete ∉ toldOpts 0 rest := by
    intro h
    rcases toldOpts_kind 0 rest _ h with ⟨n, l, e⟩ | ⟨n, v, l, e⟩ <;> cases e
  have h1 : LEvent.complete ∉ (if tok = [] ∧ rest = [] then [] else [LEvent.header ⟨b0, b1, b2, b3⟩]) := by
    split <;> simp
  have h2 : LEvent.complete ∉ (if tok = [] ∨ rest = [] then [] else [LEvent.token tok true]) := by
    split <;> simp
  simp only [toldAny, List.mem_append, h, h1, h2, false_or]
  cases (readRest 0 0 rest).2 with
  | none => simp [toldPayload]
  | some p => cases p <;> simp [toldPayload]

/-- C47, for arbitrary bytes: the options announced are those read, in order; at most the last one is missing. -/
theorem legacy_any_numbers (S : Nat) (r : List UInt8) :
    ∃ t, t.length ≤ 1 ∧ (scan S r).map UInt16.ofNat = toldNumbers (toldOpts S r) ++ t := by
  fun_induction toldOpts S r with
  | case1 => exact ⟨[], by simp, by simp [scan, toldNumbers]⟩
  | case2 => exact ⟨[], by simp, by simp [scan, toldNumbers]⟩
  | case3 S b bs hb h1 => exact ⟨[UInt16.ofNat S], by simp, by rw [scan_cut_delta hb h1]; rfl⟩
  | case4 S b bs hb delta bs1 h1 h2 => exact ⟨[UInt16.ofNat (S + delta)], by simp, by rw [scan_cut_length hb h1 h2]; rfl⟩
  | case5 S b bs hb delta bs1 h1 len h2 => exact ⟨[UInt16.ofNat (S + delta)], by simp, by rw [scan_option hb h1 h2]; simp [scan, toldNumbers]⟩
  | case6 S b bs hb delta bs1 h1 len bs2 h2 hne ih =>
    obtain ⟨t, ht, e⟩ := ih
    refine ⟨t, ht, ?_⟩
    rw [scan_option hb h1 h2, List.map_cons, e]
    have h0 : toldNumbers (if len % 65536 = 0 then [] else
        [LEvent.value (UInt16.ofNat (S + delta)) (bs2.take (len % 65536)) (decide (len % 65536 ≤ bs2.length))]) = [] := by
      split <;> rfl
    simp only [toldNumbers, List.filterMap_cons, List.filterMap_append] at h0 ⊢
    rw [h0]; rfl

-- a token, an option, one whose value is cut off by the end: told as unfinished
example : toldAny 0x41 1 0 7 [0xAA] [0xB1, 0x61, 0x05, 0x62, 0x63] =
    [.header ⟨0x41, 1, 0, 7⟩, .token [0xAA] true, .option 11 1, .value 11 [0x61] true, .option 11 5, .value 11 [0x62, 0x63] false] := by
  simp [toldAny, toldOpts, readRest, readExt, toldPayload]
-- a marker with nothing behind it, and an option header with nothing behind it
example : toldAny 0x40 1 0 7 [] [0xB1, 0x61, 0xFF] = [.header ⟨0x40, 1, 0, 7⟩, .option 11 1, .value 11 [0x61] true] := by
  simp [toldAny, toldOpts, readRest, readExt, toldPayload]
example : toldAny 0x40 1 0 7 [] [0xB1, 0x61, 0x01] = [.header ⟨0x40, 1, 0, 7⟩, .option 11 1, .value 11 [0x61] true] := by
  simp [toldAny, toldOpts, readRest, readExt, toldPayload]

end Verif.Props
