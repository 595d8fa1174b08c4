import Verif.Proofs.AnyReport
import Verif.Proofs.CutValues
import Verif.Spec.CutsAny

/-! # Which part of each option value is reported, for arbitrary bytes -/
namespace Verif.Proofs
open Verif.Model Header Dec OptDec Spec

theorem readExt_suffix {nib : Nat} {bs : List UInt8} {v : Nat} {r : List UInt8}
    (h : readExt nib bs = some (v, r)) : ∃ q, bs = q ++ r := by
  unfold readExt at h
  split at h
  · cases h; exact ⟨[], rfl⟩
  · split at h
    · cases h
    · rename_i b bs
      split at h
      · cases h; exact ⟨[b], rfl⟩
      · split at h
        · split at h
          · cases h
          · rename_i c bs; cases h; exact ⟨[b, c], rfl⟩
        · cases h; exact ⟨[b], rfl⟩

theorem restOfBuffer_end (bufs : List (List UInt8)) : ∀ k, bufs.flatten.length ≤ k → restOfBuffer k bufs = [] := by
  induction bufs with
  | nil => intro k _; rfl
  | cons c cs ih =>
    intro k hk
    simp only [List.flatten_cons, List.length_append] at hk
    rw [restOfBuffer, if_neg (by omega), ih _ (by omega)]

/-- At the end of an option header, with a byte to follow: the option is noted, then its value is read. -/
theorem hend_spots (dH : Dec) (bs : List UInt8) (len : Nat) (hs : dH.st = .options) (he : HEnd dH.opt len)
    (hl : dH.holder.length = UInt16.ofNat len) (hne : bs ≠ []) :
    ∃ B, spots dH bs = ⟨dH.holder.number, len % 65536, bs⟩ :: B ∧
      ((bs.length < len % 65536 ∧ B = []) ∨
       (len % 65536 ≤ bs.length ∧ ∃ o', o'.st = .optionValueDone ∧ B = spots { dH with opt := o' } (bs.drop (len % 65536)))) := by
  obtain ⟨b, bt, hb⟩ := List.exists_cons_of_ne_nil hne
  have hvt : (UInt16.ofNat len).toNat = len % 65536 := by simp
  generalize hV : ({ dH with opt := { dH.opt with st := .valueStart } } : Dec) = dV
  have hm : ∀ b, micro dH b = (dV, false) := by
    intro b
    rw [← hV]
    simp [micro, hs, pureStep_eq (he.1 b), upd]
  have hVs : dV.st = .options := by rw [← hV]; exact hs
  have h2 : ({ dH.opt with st := .valueStart } : OptDec).length = UInt16.ofNat len := he.2.1
  have hnote : ∀ r, spotNote dV r = [⟨dH.holder.number, len % 65536, r⟩] := by
    intro r
    rw [spotNote, if_pos (by rw [← hV]; exact ⟨hs, rfl⟩), ← hV]
    simp only [hl, h2, hvt]
    by_cases hv : len % 65536 = 0
    · simp [hv]
    · have : UInt16.ofNat len > 0 := by
        rw [gt_iff_lt, UInt16.lt_iff_toNat_lt, hvt]
        simp; omega
      rw [if_pos this]
  have hfirst : ∀ bs, bs ≠ [] → spots dH bs = ⟨dH.holder.number, len % 65536, bs⟩ :: spots dV bs := by
    intro bs hne
    obtain ⟨b, bt, hb⟩ := List.exists_cons_of_ne_nil hne
    rw [hb, spots_cons dH b bt (by simp [Going, hs]) dV false (hm b)]
    simp only [Bool.false_eq_true, if_false, hnote]
    rfl
  refine ⟨spots dV bs, hfirst bs hne, ?_⟩
  by_cases hlt : bs.length < len % 65536
  · left
    refine ⟨hlt, ?_⟩
    obtain ⟨o', -, g2⟩ := hend_cut false dH bs len hs he hl hne hlt
    have h := optsOf_feed false dH bs
    rw [g2, hfirst bs hne] at h
    have h := congrArg List.length h
    simp [optsOf] at h
    exact h
  · right
    refine ⟨by omega, ?_⟩
    by_cases hv : len % 65536 = 0
    · have hl0 : ({ dH.opt with st := .valueStart } : OptDec).length = 0 := by
        rw [h2]; apply UInt16.toNat_inj.1; rw [hvt, hv]; rfl
      have hvs : OptDec.step { dH.opt with st := .valueStart } b =
          .ok ({ OptDec.setValueLength { dH.opt with st := .valueStart } 0 with st := .optionValueDone }, false) := by
        simp only [OptDec.step, hl0, setValueLength_get]; simp
      have hm2 : micro dV b =
          ({ dV with opt := { OptDec.setValueLength { dH.opt with st := .valueStart } 0 with st := .optionValueDone } }, false) := by
        rw [← hV]
        simp [micro, hs, pureStep_eq hvs, upd]
      refine ⟨{ OptDec.setValueLength { dH.opt with st := .valueStart } 0 with st := .optionValueDone }, rfl, ?_⟩
      rw [hv, List.drop_zero, hb, spots_cons dV b bt (by simp [Going, hVs]) _ _ hm2, ← hV]
      simp [spotNote]
    · generalize hvv : bs.take (len % 65536) = v
      have hlen : v.length = len % 65536 := by rw [← hvv]; simp; omega
      have hvne : v ≠ [] := by intro h; rw [h] at hlen; simp at hlen; omega
      have he' : HEnd dH.opt v.length := by
        rw [hlen]
        obtain ⟨x1, x2, x3⟩ := he
        exact ⟨x1, by rw [x2]; apply UInt16.toNat_inj.1; simp, x3⟩
      obtain ⟨o', g1, g2⟩ := hend_phase false dH v [] hs he' (by rw [hlen]; omega)
        (by rw [hl, hlen]; apply UInt16.toNat_inj.1; simp) (by simpa using hvne)
      rw [List.append_nil, feed_nil] at g2
      obtain ⟨x, xs, hx⟩ := List.exists_cons_of_ne_nil hvne
      have g3 : feed false dH v = (note dV v false ++ (feed false dV v).1, (feed false dV v).2) := by
        rw [hx, feed_cons false dH x xs (by simp [Going, hs]) dV false (hm x)]
        rfl
      rw [g2] at g3
      simp only [Prod.mk.injEq] at g3
      have g4 : spots dV v = [] := by
        have h := congrArg (List.length ∘ optsOf) g3.1
        simp only [Function.comp, optsOf_append, optsOf_note, hnote, optsOf_feed, List.length_append, List.length_map] at h
        simp [optsOf] at h
        exact h
      refine ⟨o', g1, ?_⟩
      have hsp : bs = v ++ bs.drop (len % 65536) := by rw [← hvv, List.take_append_drop]
      rw [show spots dV bs = spots dV (v ++ bs.drop (len % 65536)) by rw [← hsp], spots_append, g4, ← g3.2]
      rfl

/-- What is shown of an item. -/
def Item.shown (i : Item) : UInt16 × List UInt8 × Bool := (UInt16.ofNat i.number, i.value, i.complete)

theorem spots_any (r : List UInt8) (S pl : Nat) (d : Dec) (hds : d.st = .options) (hr : Ready d.opt)
    (hn : d.holder.number = UInt16.ofNat S) :
    ∃ X : List Item, (readRest S pl r).1.map Item.shown = (spots d r).map Spot.shown ++ X.map Item.shown ∧
      ∀ (bufs : List (List UInt8)) (pre : List UInt8), bufs.flatten = pre ++ r →
        (cutRest bufs pre.length S pl r).map Item.shown =
          (spots d r).map (fun s => (s.cut bufs).shown) ++ X.map Item.shown := by
  generalize hm : r.length = m
  induction m using Nat.strongRecOn generalizing r S pl d with
  | ind m ih =>
    cases r with
    | nil => exact ⟨[], by simp [readRest_nil, spots_nil], fun bufs pre _ => by simp [cutRest_nil, spots_nil]⟩
    | cons w bs =>
      by_cases hw : w = 0xFF
      · subst hw
        have : spots d (0xFF :: bs) = [] := by
          apply spots_of_no_option (l := false)
          rw [marker_feed false d bs hds hr]
          have : optsOf (feed false { d with st := .optionsDone, opt := { d.opt with st := .payload } } bs).1 = [] := by
            rw [optsOf_feed, spots_optionsDone _ rfl]; rfl
          simpa [optsOf] using this
        exact ⟨[], by simp [readRest_marker, this], fun bufs pre _ => by simp [cutRest_marker, this]⟩
      · have hh := any_header d.opt d.holder w bs hr hw
        cases h1 : readExt (w.toNat / 16) bs with
        | none =>
          rw [h1] at hh
          obtain ⟨o', l, a1, a2, a3, q, hc⟩ := hh
          have hs0 : spots d (w :: bs) = [] := by rw [q.2.1.2 d hds rfl rfl, spots_nil]
          refine ⟨[⟨S, [], cutMark pl (w.toNat % 16)⟩], ?_, fun bufs pre _ => ?_⟩
          · rw [readRest_cut_delta hw h1, hs0]; rfl
          · rw [cutRest_cut_delta hw h1, hs0]; rfl
        | some p =>
          obtain ⟨delta, bs1⟩ := p
          simp only [h1] at hh
          have hSd : d.holder.number + UInt16.ofNat delta = UInt16.ofNat (S + delta) := by rw [hn]; simp
          cases h2 : readExt (w.toNat % 16) bs1 with
          | none =>
            rw [h2] at hh
            obtain ⟨o', l, a1, a2, a3, q, hc⟩ := hh
            have hs0 : spots d (w :: bs) = [] := by rw [q.2.1.2 d hds rfl rfl, spots_nil]
            refine ⟨[⟨S + delta, [], cutMark pl (w.toNat % 16)⟩], ?_, fun bufs pre _ => ?_⟩
            · rw [readRest_cut_length hw h1 h2, hs0]; rfl
            · rw [cutRest_cut_length hw h1 h2, hs0]; rfl
          | some p =>
            obtain ⟨len, bs2⟩ := p
            simp only [h2] at hh
            obtain ⟨o', a1, q, he⟩ := hh
            obtain ⟨q1, hq1⟩ := readExt_suffix h1
            obtain ⟨q2, hq2⟩ := readExt_suffix h2
            have hsp : w :: bs = (w :: (q1 ++ q2)) ++ bs2 := by rw [hq1, hq2]; simp
            have hk : ∀ pre : List UInt8, pre.length + ((w :: bs).length - bs2.length) = (pre ++ (w :: (q1 ++ q2))).length := by
              intro pre; rw [hsp]; simp; omega
            have hspots := q.2.1.2 d hds rfl rfl
            by_cases hb2 : bs2 = []
            · subst hb2
              rw [spots_nil] at hspots
              refine ⟨[⟨S + delta, [], decide (len % 65536 ≤ 0)⟩], ?_, fun bufs pre hpre => ?_⟩
              · rw [readRest_option hw h1 h2, hspots]; simp [readRest_nil]
              · rw [cutRest_option hw h1 h2, hspots, hk, restOfBuffer_end bufs _ (by rw [hpre, hsp]; simp)]
                simp [cutRest_nil]
            · obtain ⟨B, hB, hcase⟩ := hend_spots
                { d with opt := o', holder := ⟨d.holder.number + UInt16.ofNat delta, UInt16.ofNat len⟩ } bs2 len hds he rfl hb2
              rw [hB] at hspots
              simp only [hSd] at hspots
              -- the first option
              have hfst : ∀ (bufs : List (List UInt8)) (pre : List UInt8), bufs.flatten = pre ++ (w :: bs) →
                  ((⟨UInt16.ofNat (S + delta), len % 65536, bs2⟩ : Spot).cut bufs).shown =
                    Item.shown ⟨S + delta, (restOfBuffer (pre ++ (w :: (q1 ++ q2))).length bufs).take (len % 65536),
                      decide (len % 65536 ≤ (restOfBuffer (pre ++ (w :: (q1 ++ q2))).length bufs).length)⟩ := by
                intro bufs pre hpre
                rw [Spot.shown, Spot.cut, firstPart_eq (pre ++ (w :: (q1 ++ q2))) bs2 hb2 bufs (by rw [hpre, hsp]; simp)]
                rfl
              have hrec : ∃ X : List Item, (readRest (S + delta) (len % 65536) (bs2.drop (len % 65536))).1.map Item.shown =
                    B.map Spot.shown ++ X.map Item.shown ∧
                  ∀ (bufs : List (List UInt8)) (pre : List UInt8), bufs.flatten = pre ++ bs2.drop (len % 65536) → len % 65536 ≤ bs2.length →
                    (cutRest bufs pre.length (S + delta) (len % 65536) (bs2.drop (len % 65536))).map Item.shown =
                      B.map (fun s => (s.cut bufs).shown) ++ X.map Item.shown := by
                rcases hcase with ⟨hlt, rfl⟩ | ⟨hle, o2, g1, rfl⟩
                · refine ⟨[], ?_, fun bufs pre _ h => by omega⟩
                  rw [List.drop_of_length_le (by omega), readRest_nil]; rfl
                · have hlt1 := readExt_length h1
                  have hlt2 := readExt_length h2
                  obtain ⟨X, i1, i2⟩ := ih (bs2.drop (len % 65536)).length (by simp at hm ⊢; omega) (bs2.drop (len % 65536)) (S + delta)
                    (len % 65536) { d with opt := o2, holder := ⟨d.holder.number + UInt16.ofNat delta, UInt16.ofNat len⟩ } hds
                    (Or.inr g1) hSd rfl
                  exact ⟨X, i1, fun bufs pre h _ => i2 bufs pre h⟩
              obtain ⟨X, i1, i2⟩ := hrec
              refine ⟨X, ?_, fun bufs pre hpre => ?_⟩
              · rw [readRest_option hw h1 h2, hspots]
                simp only [List.map_cons, i1]
                rfl
              · rw [cutRest_option hw h1 h2, hspots, hk, List.map_cons, List.map_cons, hfst bufs pre hpre, List.cons_append]
                congr 1
                by_cases hle : len % 65536 ≤ bs2.length
                · have e : (pre ++ (w :: (q1 ++ q2))).length + len % 65536 = (pre ++ (w :: (q1 ++ q2)) ++ bs2.take (len % 65536)).length := by
                    simp; omega
                  rw [e]
                  refine i2 bufs _ ?_ hle
                  rw [hpre, hsp, List.append_assoc, List.append_assoc, List.take_append_drop]
                · rcases hcase with ⟨hlt, rfl⟩ | ⟨hle', -⟩
                  · rw [List.drop_of_length_le (by omega), readRest_nil] at i1
                    rw [List.drop_of_length_le (by omega), cutRest_nil]
                    simpa using i1
                  · exact absurd hle' hle

/-- The payload: where it starts. -/
theorem any_payload (r : List UInt8) (S pl : Nat) (d : Dec) (hds : d.st = .options) (hr : Ready d.opt) :
    match (readRest S pl r).2 with
    | none => (feed true d r).2.1.st ≠ .payload
    | some p => (∃ q, r = q ++ p) ∧ (p = [] → (feed true d r).2.1.st ≠ .payload) ∧
        (p ≠ [] → (feed true d r).2.2 = p ∧ (feed true d r).2.1.st = .payload) := by
  generalize hm : r.length = m
  induction m using Nat.strongRecOn generalizing r S pl d with
  | ind m ih =>
    cases r with
    | nil => simp [readRest_nil, feed_nil, hds]
    | cons w bs =>
      by_cases hw : w = 0xFF
      · subst hw
        rw [readRest_marker, marker_feed true d bs hds hr]
        refine ⟨⟨[0xFF], rfl⟩, ?_, fun h => ?_⟩
        · rintro rfl; simp [feed_nil]
        · rw [payload_feed true _ bs rfl h]; exact ⟨rfl, rfl⟩
      · have hh := any_header d.opt d.holder w bs hr hw
        cases h1 : readExt (w.toNat / 16) bs with
        | none =>
          rw [h1] at hh
          obtain ⟨o', l, a1, a2, a3, q, hc⟩ := hh
          rw [readRest_cut_delta hw h1, q.1 d true hds rfl rfl, feed_nil]
          simp [hds]
        | some p =>
          obtain ⟨delta, bs1⟩ := p
          simp only [h1] at hh
          cases h2 : readExt (w.toNat % 16) bs1 with
          | none =>
            rw [h2] at hh
            obtain ⟨o', l, a1, a2, a3, q, hc⟩ := hh
            rw [readRest_cut_length hw h1 h2, q.1 d true hds rfl rfl, feed_nil]
            simp [hds]
          | some p =>
            obtain ⟨len, bs2⟩ := p
            simp only [h2] at hh
            obtain ⟨o', a1, q, he⟩ := hh
            obtain ⟨q1, hq1⟩ := readExt_suffix h1
            obtain ⟨q2, hq2⟩ := readExt_suffix h2
            have hsp : w :: bs = (w :: (q1 ++ q2)) ++ bs2 := by rw [hq1, hq2]; simp
            rw [readRest_option hw h1 h2]
            simp only
            by_cases hb2 : bs2 = []
            · subst hb2
              rw [q.1 d true hds rfl rfl, feed_nil, List.drop_nil, readRest_nil]
              simp [hds]
            · by_cases hlt : bs2.length < len % 65536
              · obtain ⟨o2, g1, g2⟩ := hend_cut true
                  { d with opt := o', holder := ⟨d.holder.number + UInt16.ofNat delta, UInt16.ofNat len⟩ } bs2 len hds he rfl hb2 hlt
                rw [q.1 d true hds rfl rfl, g2, List.drop_of_length_le (by omega), readRest_nil]
                simp [hds]
              · have hlen : (bs2.take (len % 65536)).length = len % 65536 := by simp; omega
                have he' : HEnd o' (bs2.take (len % 65536)).length := by
                  rw [hlen]
                  obtain ⟨x1, x2, x3⟩ := he
                  exact ⟨x1, by rw [x2]; apply UInt16.toNat_inj.1; simp, x3⟩
                obtain ⟨o2, g1, g2⟩ := hend_phase true
                  { d with opt := o', holder := ⟨d.holder.number + UInt16.ofNat delta, UInt16.ofNat len⟩ }
                  (bs2.take (len % 65536)) (bs2.drop (len % 65536)) hds he' (by rw [hlen]; omega)
                  (by rw [hlen]; apply UInt16.toNat_inj.1; simp) (by simpa using hb2)
                rw [List.take_append_drop] at g2
                have hlt1 := readExt_length h1
                have hlt2 := readExt_length h2
                have hrec := ih (bs2.drop (len % 65536)).length (by simp at hm ⊢; omega) (bs2.drop (len % 65536)) (S + delta)
                  (len % 65536)
                  { d with opt := o2, holder := ⟨d.holder.number + UInt16.ofNat delta, UInt16.ofNat len⟩ } hds (Or.inr g1) rfl
                rw [q.1 d true hds rfl rfl, g2]
                cases hp : (readRest (S + delta) (len % 65536) (bs2.drop (len % 65536))).2 with
                | none => rw [hp] at hrec; exact hrec
                | some p =>
                  rw [hp] at hrec
                  obtain ⟨⟨x, hx⟩, hrec⟩ := hrec
                  refine ⟨⟨(w :: (q1 ++ q2)) ++ bs2.take (len % 65536) ++ x, ?_⟩, hrec⟩
                  rw [List.append_assoc, ← hx, List.append_assoc, List.take_append_drop, hsp]

/-- The option made up at the end, when an empty buffer is the last one: the last option once more, if it has a value and is
complete.  `S` is the number so far. -/
def madeUpLast (S : Nat) (is : List Item) : List Nat :=
  match is.getLast? with
  | none => [S]
  | some i => if i.complete = true ∧ i.value ≠ [] then [i.number] else []

theorem readRest_some_item (S pl : Nat) (r : List UInt8) (hr : r ≠ []) (hp : (readRest S pl r).2 = none) : (readRest S pl r).1 ≠ [] := by
  obtain ⟨w, bs, rfl⟩ := List.exists_cons_of_ne_nil hr
  by_cases hw : w = 0xFF
  · subst hw; rw [readRest_marker] at hp; cases hp
  · cases h1 : readExt (w.toNat / 16) bs with
    | none => rw [readRest_cut_delta hw h1]; simp
    | some p =>
      obtain ⟨delta, bs1⟩ := p
      cases h2 : readExt (w.toNat % 16) bs1 with
      | none => rw [readRest_cut_length hw h1 h2]; simp
      | some p => obtain ⟨len, bs2⟩ := p; rw [readRest_option hw h1 h2]; simp

/-- All bytes without payload have been read and nothing more comes. -/
theorem quiet_end (r : List UInt8) (S pl : Nat) (d : Dec) (hds : d.st = .options) (hr : Ready d.opt)
    (hn : d.holder.number = UInt16.ofNat S) (hpl : d.holder.length.toNat = pl) (hne : r ≠ [] ∨ d.opt.st = .optionValueDone)
    (hp : (readRest S pl r).2 = none) :
    ∃ es d', feed false d r = (es, d', []) ∧ d'.st = .options ∧ ∃ k e, (∀ c, AtEof c → Finish k d' c e) ∧
      es ++ e = (readRest S pl r).1.map Item.event ++
        (madeUpLast S (readRest S pl r).1).map (fun n => .option (UInt16.ofNat n) [] true) ++ [.optionsCompleted, .completed] := by
  generalize hm : r.length = m
  induction m using Nat.strongRecOn generalizing r S pl d with
  | ind m ih =>
    cases r with
    | nil =>
      obtain ⟨k, hk⟩ := finish_ready hds hr
      refine ⟨[], d, feed_nil .., hds, k, _, hk, ?_⟩
      simp [readRest_nil, madeUpLast, hn]
    | cons w bs =>
      by_cases hw : w = 0xFF
      · subst hw; rw [readRest_marker] at hp; cases hp
      · have hh := any_header d.opt d.holder w bs hr hw
        have cut : ∀ (o' : OptDec) (h' : Holder), CutHdr o'.st → OInv o' → Q d.opt d.holder (w :: bs) o' h' [] →
            ∃ es d', feed false d (w :: bs) = (es, d', []) ∧ d'.st = .options ∧ ∃ k e, (∀ c, AtEof c → Finish k d' c e) ∧
              es ++ e = [.option h'.number [] (decide (h'.length = 0 ∨ EofZero o')), .optionsCompleted, .completed] := by
          intro o' h' a1 a3 q
          obtain ⟨k, hf⟩ := finish_hdr (d := { d with opt := o', holder := h' }) hds a3 a1
          exact ⟨[], { d with opt := o', holder := h' }, by rw [q.1 d false hds rfl rfl, feed_nil], hds, k, _, hf, rfl⟩
        cases h1 : readExt (w.toNat / 16) bs with
        | none =>
          rw [h1] at hh
          rw [readRest_cut_delta hw h1]
          obtain ⟨o', l, a1, a2, a3, q, hc⟩ := hh
          have hi : CutHdr o'.st := by
            rcases hc.2 with ⟨-, -, h | h⟩ | ⟨-, -, h | h | h⟩ <;> simp [CutHdr, h]
          have := cut o' _ hi a3 q
          rw [cutMark_eq hc, hpl, hn] at this
          simpa [Item.event, madeUpLast] using this
        | some p =>
          obtain ⟨delta, bs1⟩ := p
          simp only [h1] at hh
          have hSd : d.holder.number + UInt16.ofNat delta = UInt16.ofNat (S + delta) := by rw [hn]; simp
          cases h2 : readExt (w.toNat % 16) bs1 with
          | none =>
            rw [h2] at hh
            rw [readRest_cut_length hw h1 h2]
            obtain ⟨o', l, a1, a2, a3, q, hc⟩ := hh
            have hi : CutHdr o'.st := by
              rcases hc.2 with ⟨-, -, h | h⟩ | ⟨-, -, h | h | h⟩ <;> simp [CutHdr, h]
            have := cut o' _ hi a3 q
            rw [cutMark_eq hc, hpl, hSd] at this
            simpa [Item.event, madeUpLast] using this
          | some p =>
            obtain ⟨len, bs2⟩ := p
            simp only [h2] at hh
            rw [readRest_option hw h1 h2] at hp ⊢
            simp only at hp ⊢
            obtain ⟨o', a1, q, he⟩ := hh
            have hvt : (UInt16.ofNat len).toNat = len % 65536 := by simp
            by_cases hb2 : bs2 = []
            · subst hb2
              obtain ⟨i1, i2⟩ := hend_hdr he
              have := cut o' _ i1 he.2.2.2.2.2 q
              have hd : decide (UInt16.ofNat len = 0 ∨ EofZero o') = decide (len % 65536 ≤ ([] : List UInt8).length) := by
                rw [decide_eq_decide, i2, ← UInt16.toNat_inj]; simp
              simp only [hd, hSd] at this
              simpa [readRest_nil, Item.event, madeUpLast] using this
            · by_cases hlt : bs2.length < len % 65536
              · obtain ⟨o2, g1, g2⟩ := hend_cut false
                  { d with opt := o', holder := ⟨d.holder.number + UInt16.ofNat delta, UInt16.ofNat len⟩ } bs2 len hds he rfl hb2 hlt
                rw [List.drop_of_length_le (by omega), List.take_of_length_le (by omega), readRest_nil,
                  decide_eq_false (by omega)]
                obtain ⟨k, hf⟩ := finish_val
                  (d := { d with opt := o2, holder := ⟨d.holder.number + UInt16.ofNat delta, UInt16.ofNat len⟩ }) hds
                  (by simp [OInv, g1]) (Or.inr g1)
                refine ⟨_, { d with opt := o2, holder := ⟨d.holder.number + UInt16.ofNat delta, UInt16.ofNat len⟩ }, by
                  rw [q.1 d false hds rfl rfl, g2], hds, k, _, hf, ?_⟩
                simp [Item.event, hSd, madeUpLast]
              · have hlen : (bs2.take (len % 65536)).length = len % 65536 := by simp; omega
                have he' : HEnd o' (bs2.take (len % 65536)).length := by
                  rw [hlen]
                  obtain ⟨x1, x2, x3⟩ := he
                  exact ⟨x1, by rw [x2]; apply UInt16.toNat_inj.1; simp, x3⟩
                obtain ⟨o2, g1, g2⟩ := hend_phase false
                  { d with opt := o', holder := ⟨d.holder.number + UInt16.ofNat delta, UInt16.ofNat len⟩ }
                  (bs2.take (len % 65536)) (bs2.drop (len % 65536)) hds he' (by rw [hlen]; omega)
                  (by rw [hlen]; apply UInt16.toNat_inj.1; simp) (by simpa using hb2)
                rw [List.take_append_drop] at g2
                have hlt1 := readExt_length h1
                have hlt2 := readExt_length h2
                obtain ⟨es, d', f1, f2, k, e, f3, f4⟩ := ih (bs2.drop (len % 65536)).length (by simp at hm ⊢; omega)
                  (bs2.drop (len % 65536)) (S + delta) (len % 65536)
                  { d with opt := o2, holder := ⟨d.holder.number + UInt16.ofNat delta, UInt16.ofNat len⟩ } hds (Or.inr g1) hSd
                  hvt (Or.inr g1) hp rfl
                refine ⟨.option (d.holder.number + UInt16.ofNat delta) (bs2.take (len % 65536)) true :: es, d', ?_, f2, k, e, f3, ?_⟩
                · rw [q.1 d false hds rfl rfl, g2, f1]
                · have hlast : madeUpLast S ((⟨S + delta, bs2.take (len % 65536), decide (len % 65536 ≤ bs2.length)⟩ : Item) ::
                      (readRest (S + delta) (len % 65536) (bs2.drop (len % 65536))).1) =
                      madeUpLast (S + delta) (readRest (S + delta) (len % 65536) (bs2.drop (len % 65536))).1 := by
                    by_cases hd : bs2.drop (len % 65536) = []
                    · rw [hd, readRest_nil]
                      have : bs2.take (len % 65536) = bs2 := List.take_of_length_le (by simpa using hd)
                      simp [madeUpLast, this, hb2]
                      omega
                    · obtain ⟨i, is, hi⟩ := List.exists_cons_of_ne_nil (readRest_some_item _ _ _ hd hp)
                      rw [hi]
                      simp [madeUpLast, List.getLast?_cons]
                  rw [List.cons_append, f4, hlast, decide_eq_true (by omega)]
                  simp [Item.event, hSd]

/-- All bytes have been read, the last of them is the payload marker. -/
theorem marker_end (r : List UInt8) (S pl : Nat) (d : Dec) (hds : d.st = .options) (hr : Ready d.opt)
    (hn : d.holder.number = UInt16.ofNat S) (hp : (readRest S pl r).2 = some []) :
    ∃ d', feed false d r = ((readRest S pl r).1.map Item.event ++ [.optionsCompleted], d', []) ∧ d'.st = .optionsDone ∧
      d'.opt.st = .payload := by
  generalize hm : r.length = m
  induction m using Nat.strongRecOn generalizing r S pl d with
  | ind m ih =>
    cases r with
    | nil => simp [readRest_nil] at hp
    | cons w bs =>
      by_cases hw : w = 0xFF
      · subst hw
        rw [readRest_marker] at hp ⊢
        simp only [Option.some.injEq] at hp
        subst hp
        rw [marker_feed false d [] hds hr, feed_nil]
        exact ⟨{ d with st := .optionsDone, opt := { d.opt with st := .payload } }, rfl, rfl, rfl⟩
      · have hh := any_header d.opt d.holder w bs hr hw
        cases h1 : readExt (w.toNat / 16) bs with
        | none => rw [readRest_cut_delta hw h1] at hp; cases hp
        | some p =>
          obtain ⟨delta, bs1⟩ := p
          simp only [h1] at hh
          have hSd : d.holder.number + UInt16.ofNat delta = UInt16.ofNat (S + delta) := by rw [hn]; simp
          cases h2 : readExt (w.toNat % 16) bs1 with
          | none => rw [readRest_cut_length hw h1 h2] at hp; cases hp
          | some p =>
            obtain ⟨len, bs2⟩ := p
            simp only [h2] at hh
            rw [readRest_option hw h1 h2] at hp ⊢
            simp only at hp ⊢
            obtain ⟨o', a1, q, he⟩ := hh
            by_cases hlt : bs2.length ≤ len % 65536
            · rw [List.drop_of_length_le hlt, readRest_nil] at hp; cases hp
            · have hlen : (bs2.take (len % 65536)).length = len % 65536 := by simp; omega
              have hb2 : bs2 ≠ [] := by intro h; subst h; simp at hlt
              have he' : HEnd o' (bs2.take (len % 65536)).length := by
                rw [hlen]
                obtain ⟨x1, x2, x3⟩ := he
                exact ⟨x1, by rw [x2]; apply UInt16.toNat_inj.1; simp, x3⟩
              obtain ⟨o2, g1, g2⟩ := hend_phase false
                { d with opt := o', holder := ⟨d.holder.number + UInt16.ofNat delta, UInt16.ofNat len⟩ }
                (bs2.take (len % 65536)) (bs2.drop (len % 65536)) hds he' (by rw [hlen]; omega)
                (by rw [hlen]; apply UInt16.toNat_inj.1; simp) (by simpa using hb2)
              rw [List.take_append_drop] at g2
              have hlt1 := readExt_length h1
              have hlt2 := readExt_length h2
              obtain ⟨d', f1, f2, f3⟩ := ih (bs2.drop (len % 65536)).length (by simp at hm ⊢; omega)
                (bs2.drop (len % 65536)) (S + delta) (len % 65536)
                { d with opt := o2, holder := ⟨d.holder.number + UInt16.ofNat delta, UInt16.ofNat len⟩ } hds (Or.inr g1) hSd hp rfl
              refine ⟨d', ?_, f2, f3⟩
              rw [q.1 d false hds rfl rfl, g2, f1, decide_eq_true (by omega)]
              simp [Item.event, hSd]

end Verif.Proofs
