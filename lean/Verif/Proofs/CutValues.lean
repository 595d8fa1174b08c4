import Verif.Proofs.SplitAll
import Verif.Proofs.WireFeed

/-! # Which part of an option value is reported -/
namespace Verif.Proofs
open Verif.Model Header Dec OptDec Spec

theorem optsOf_feed (l : Bool) (d : Dec) (r : List UInt8) : optsOf (feed l d r).1 = (spots d r).map Spot.shown := by
  fun_induction feed l d r with
  | case1 d => simp [spots_nil, optsOf]
  | case2 d x bs hst => rw [spots_stop d _ (fun h => h hst)]; rfl
  | case3 d x bs hst m hc f ih =>
    rw [spots_cons d x bs hst m.1 m.2 rfl, hc]
    simp only [if_true, optsOf_append, optsOf_note, List.map_append]
    rw [← ih]
  | case4 d x bs hst m hc f ih =>
    have hc' : m.2 = false := by simpa using hc
    rw [spots_cons d x bs hst m.1 m.2 rfl, hc']
    simp only [Bool.false_eq_true, if_false, optsOf_append, optsOf_note, List.map_append]
    rw [← ih]

/-- More bytes in the buffer. -/
def Spot.more (b : List UInt8) (s : Spot) : Spot := { s with rest := s.rest ++ b }

theorem spotNote_more (d : Dec) (r b : List UInt8) : spotNote d (r ++ b) = (spotNote d r).map (Spot.more b) := by
  unfold spotNote
  split <;> rfl

theorem spots_append (d : Dec) (a b : List UInt8) :
    spots d (a ++ b) = (spots d a).map (Spot.more b) ++ spots (feed false d a).2.1 b := by
  fun_induction feed false d a with
  | case1 d => simp [spots_nil]
  | case2 d x bs hst =>
    have hg : ¬ Going d := fun h => h hst
    rw [spots_stop d _ hg, spots_stop d _ hg, spots_stop d _ hg]; rfl
  | case3 d x bs hst m hc f ih =>
    rw [List.cons_append, spots_cons d x bs hst m.1 m.2 rfl, spots_cons d x (bs ++ b) hst m.1 m.2 rfl, hc]
    simp only [if_true]
    rw [ih, spotNote_more, List.map_append, List.append_assoc]
  | case4 d x bs hst m hc f ih =>
    have hc' : m.2 = false := by simpa using hc
    rw [List.cons_append, spots_cons d x bs hst m.1 m.2 rfl, spots_cons d x (bs ++ b) hst m.1 m.2 rfl, hc']
    simp only [Bool.false_eq_true, if_false]
    rw [List.cons_append] at ih
    rw [ih, ← List.cons_append, spotNote_more, List.map_append, List.append_assoc]

/-- An option is reported only with a byte left, and with no more bytes than there are. -/
theorem spots_rest (d : Dec) (r : List UInt8) : ∀ s ∈ spots d r, s.rest ≠ [] ∧ s.rest.length ≤ r.length := by
  have hnote : ∀ (d : Dec) (r : List UInt8), ∀ s ∈ spotNote d r, s.rest = r ∧ d.st = .options ∧ d.opt.st = .valueStart := by
    intro d r s hs
    unfold spotNote at hs
    split at hs
    · rename_i h; simp only [List.mem_singleton] at hs; subst hs; exact ⟨rfl, h⟩
    · simp at hs
  fun_induction spots d r with
  | case1 d => simp
  | case2 d x bs hst => simp
  | case3 d x bs hst m hc ih =>
    intro s hs
    rcases List.mem_append.1 hs with hs | hs
    · obtain ⟨-, h1, h2⟩ := hnote _ _ s hs
      exact absurd h2 (micro_nv d x hc hst h1).1
    · obtain ⟨h1, h2⟩ := ih s hs
      exact ⟨h1, by simp; omega⟩
  | case4 d x bs hst m hc ih =>
    intro s hs
    rcases List.mem_append.1 hs with hs | hs
    · obtain ⟨h1, -⟩ := hnote _ _ s hs
      rw [h1]; simp
    · exact ih s hs

/-- An empty buffer makes no difference. -/
theorem spots_idle (d : Dec) (r : List UInt8) : spots (idle d) r = spots d r := by
  cases r with
  | nil => rw [spots_nil, spots_nil]
  | cons b bs =>
    cases hs : d.st
    case uninitialized =>
      rw [spots_cons d b bs (by simp [Going, hs]) (idle d) false (by simp [micro, hs, idle])]
      simp [spotNote, idle, hs]
    case headerDone =>
      rw [spots_cons d b bs (by simp [Going, hs]) (idle d) false (by simp [micro, hs, idle])]
      by_cases ht : d.hdr.tokenLength > 0 <;> simp [spotNote, idle, hs, ht]
    case tokenStart =>
      rw [spots_cons d b bs (by simp [Going, hs]) (idle d) false (by simp [micro, hs, idle])]
      simp [spotNote, idle, hs]
    case tokenDone =>
      rw [spots_cons d b bs (by simp [Going, hs]) (idle d) false (by simp [micro, hs, idle])]
      simp [spotNote, idle, hs]
    case optionsStart =>
      rw [spots_cons d b bs (by simp [Going, hs]) (idle d) false (by simp [micro, hs, idle])]
      simp [spotNote, idle, hs]
    all_goals simp [idle, hs]

theorem optsOf_idleEv (d : Dec) : optsOf (idleEv d) = [] := by
  unfold idleEv
  cases d.st <;> try rfl
  simp only
  split <;> rfl

/-- The options reported for a list of buffers. -/
def bufOpts : Dec → List (List UInt8) → List (UInt16 × List UInt8 × Bool)
  | _, [] => []
  | d, c :: cs => (spots d c).map Spot.shown ++ bufOpts (if c = [] then idle d else (feed false d c).2.1) cs

theorem spots_optionsDone (d : Dec) (hs : d.st = .optionsDone) (r : List UInt8) : spots d r = [] := by
  cases r with
  | nil => exact spots_nil d
  | cons b bs =>
    rw [spots_cons d b bs (by simp [Going, hs]) { d with st := .payload } false (by simp [micro, hs])]
    rw [spots_stop _ _ (by simp [Going])]
    simp [spotNote]

theorem bufOpts_quiet (cs : List (List UInt8)) (d : Dec) (hd : d.st = .optionsDone ∨ ¬ Going d) : bufOpts d cs = [] := by
  induction cs generalizing d with
  | nil => rfl
  | cons c cs ih =>
    have h1 : spots d c = [] := by
      rcases hd with h | h
      · exact spots_optionsDone d h c
      · exact spots_stop d c h
    rw [bufOpts, h1, List.map_nil, List.nil_append]
    apply ih
    by_cases hc : c = []
    · rw [if_pos hc]
      have : idle d = d := by
        unfold Going at hd
        cases hs : d.st <;> simp [hs] at hd <;> simp [idle, hs]
      rw [this]; exact hd
    · rw [if_neg hc]
      rcases hd with h | h
      · rw [payload_feed false d c h hc]; right; simp [Going]
      · rw [feed_stop false d c h]; exact .inr h

/-- The part of `r`, the end of the buffers, that lies in the buffer in which it starts. -/
def firstPart (r : List UInt8) : List (List UInt8) → List UInt8
  | [] => []
  | c :: cs => if cs.flatten.length < r.length then r.take (r.length - cs.flatten.length) else firstPart r cs

def Spot.cut (bufs : List (List UInt8)) (s : Spot) : Spot := { s with rest := firstPart s.rest bufs }

theorem bufOpts_eq (cs : List (List UInt8)) (d : Dec) :
    bufOpts d cs = (spots d cs.flatten).map fun s => (s.cut cs).shown := by
  induction cs generalizing d with
  | nil => simp [bufOpts, spots_nil]
  | cons c cs ih =>
    have later : ∀ d : Dec, (spots d cs.flatten).map (fun s => (s.cut (c :: cs)).shown) =
        (spots d cs.flatten).map (fun s => (s.cut cs).shown) := by
      intro d
      refine List.map_congr_left fun s hs => ?_
      have := (spots_rest d cs.flatten s hs).2
      rw [Spot.cut, Spot.cut, firstPart, if_neg (by omega)]
    rw [bufOpts, ih, List.flatten_cons]
    by_cases hc : c = []
    · subst hc
      simp only [if_true, spots_nil, List.map_nil, List.nil_append]
      rw [spots_idle, later]
    · rw [if_neg hc, spots_append, List.map_append, later, List.map_map]
      congr 1
      refine List.map_congr_left fun s hs => ?_
      have := (spots_rest d c s hs).1
      have hp := List.length_pos_iff.2 this
      have : (Spot.more cs.flatten s).cut (c :: cs) = s := by
        simp only [Spot.cut, Spot.more, firstPart, List.length_append]
        rw [if_pos (by omega)]
        simp
      rw [Function.comp, this]

theorem firstPart_eq (pre r : List UInt8) (hr : r ≠ []) : ∀ bufs : List (List UInt8), bufs.flatten = pre ++ r →
    firstPart r bufs = restOfBuffer pre.length bufs := by
  intro bufs
  induction bufs generalizing pre with
  | nil => intro h; exact absurd (List.append_eq_nil_iff.1 (by simpa using h.symm)).2 hr
  | cons c cs ih =>
    intro h
    have hlen := congrArg List.length h
    rw [List.flatten_cons] at h
    simp only [List.flatten_cons, List.length_append] at hlen
    rw [firstPart, restOfBuffer]
    by_cases hk : pre.length < c.length
    · rw [if_pos (by omega), if_pos hk]
      have h1 := congrArg (List.drop pre.length) h
      rw [List.drop_left, List.drop_append_of_le_length (by omega)] at h1
      rw [← h1, List.length_append]
      simp
    · rw [if_neg (by omega), if_neg hk]
      obtain ⟨p, hp⟩ : ∃ p, pre = c ++ p := by
        refine ⟨pre.drop c.length, ?_⟩
        have h1 := congrArg (List.take c.length) h
        rw [List.take_left, List.take_append_of_le_length (by omega)] at h1
        rw [h1, List.length_take, Nat.min_eq_left (by omega), List.take_append_drop]
      subst hp
      rw [List.append_assoc] at h
      rw [ih p (List.append_cancel_left h)]
      simp

theorem behindHead_hdr {hdr : List UInt8} {delta len : Nat} (h : HdrOf hdr delta len) (t : List UInt8) : behindHead (hdr ++ t) = t := by
  obtain ⟨w, e1, e2, rfl, -, r1, r2⟩ := h
  obtain ⟨x, hx, -⟩ := r1 (e2 ++ t)
  obtain ⟨y, hy, -⟩ := r2 t
  simp only [List.cons_append, List.append_assoc, behindHead, hx, hy]

/-- The options of a message, each with all bytes from its value on. -/
def wireSpots : List Opt → List UInt8 → List Spot
  | [], _ => []
  | o :: os, bs => ⟨UInt16.ofNat o.number, o.value.length, behindHead bs⟩ :: wireSpots os ((behindHead bs).drop o.value.length)

theorem wireSpots_shown {prev : Nat} {os : List Opt} {ob : List UInt8} (h : IsOpts prev os ob) (t : List UInt8) :
    (wireSpots os (ob ++ t)).map Spot.shown = optsOf (optEvents os) := by
  induction h with
  | nil => rfl
  | @cons prev o os hdr ob h1 h2 h3 hh h4 ih =>
    rw [List.append_assoc, List.append_assoc, wireSpots, behindHead_hdr hh, List.drop_left, List.map_cons, ih]
    simp [Spot.shown, optsOf, optEvents]

theorem wireSpots_cut {prev : Nat} {os : List Opt} {ob : List UInt8} (h : IsOpts prev os ob) (t : List UInt8) (bufs : List (List UInt8)) :
    ∀ pre : List UInt8, bufs.flatten = pre ++ (ob ++ t) →
    optsOf (cutOptions bufs pre.length os (ob ++ t)) = (wireSpots os (ob ++ t)).map fun s => (s.cut bufs).shown := by
  induction h with
  | nil => intro _ _; rfl
  | @cons prev o os hdr ob h1 h2 h3 hh h4 ih =>
    intro pre hb
    rw [List.append_assoc, List.append_assoc] at hb ⊢
    have e1 : pre.length + ((hdr ++ (o.value ++ (ob ++ t))).length - (o.value ++ (ob ++ t)).length) = (pre ++ hdr).length := by
      simp
    have e2 : (pre ++ hdr).length + o.value.length = (pre ++ hdr ++ o.value).length := by
      rw [List.length_append (as := pre ++ hdr)]
    have ih := ih (pre ++ hdr ++ o.value) (by rw [hb]; simp)
    rw [wireSpots, cutOptions]
    simp only [behindHead_hdr hh, List.drop_left, e1, e2, List.map_cons]
    rw [← ih]
    simp only [optsOf, List.filterMap_cons, List.cons.injEq, and_true]
    by_cases hr : o.value ++ (ob ++ t) = []
    · have hv : o.value = [] := (List.append_eq_nil_iff.1 hr).1
      simp [hv, Spot.shown, Spot.cut]
    · rw [Spot.shown, Spot.cut]
      simp only [firstPart_eq (pre ++ hdr) _ hr bufs (by rw [hb]; simp)]
      simp only [List.length_take, Prod.mk.injEq, true_and, decide_eq_decide]
      omega

theorem spots_of_no_option {l : Bool} {d : Dec} {r : List UInt8} (h : optsOf (feed l d r).1 = []) : spots d r = [] := by
  rw [optsOf_feed] at h
  exact List.map_eq_nil_iff.1 h

/-- The options of a message, from the first one on; `t` is empty or starts with the marker.  Only a last option without value of a
message without payload may be missing. -/
theorem spots_options {prev : Nat} {os : List Opt} {ob : List UInt8} (h : IsOpts prev os ob) (t : List UInt8)
    (ht : t = [] ∨ ∃ p, t = 0xFF :: p) : ∀ d : Dec, d.st = .options → Ready d.opt → d.holder.number = UInt16.ofNat prev →
    ∃ B, wireSpots os (ob ++ t) = spots d (ob ++ t) ++ B ∧ ∀ s ∈ B, s.len = 0 := by
  induction h with
  | nil =>
    intro d hs hr _
    refine ⟨[], ?_, by simp⟩
    rw [List.nil_append, List.append_nil, wireSpots]
    rcases ht with rfl | ⟨p, rfl⟩
    · rw [spots_nil]
    · symm
      apply spots_of_no_option (l := false)
      rw [marker_feed false d p hs hr]
      have : optsOf (feed false { d with st := .optionsDone, opt := { d.opt with st := .payload } } p).1 = [] := by
        rw [optsOf_feed, spots_optionsDone _ rfl]; rfl
      simpa [optsOf] using this
  | @cons prev o os hdr ob h1 h2 h3 hh h4 ih =>
    intro d hs hr hn
    have hnum : d.holder.number + UInt16.ofNat (o.number - prev) = UInt16.ofNat o.number := by
      rw [hn]; apply UInt16.toNat_inj.1; simp [UInt16.toNat_add]; omega
    obtain ⟨o1, q, he⟩ := header_wire d.opt d.holder hdr (o.number - prev) o.value.length [] hr hh
    rw [hnum] at q
    generalize hH : ({ d with opt := o1, holder := ⟨UInt16.ofNat o.number, UInt16.ofNat o.value.length⟩ } : Dec) = dH
    have hfe : feed false d hdr = ([], dH, []) := by
      have := q.1 d false hs rfl rfl
      rw [List.append_nil, feed_nil, hH] at this
      exact this
    have hHs : dH.st = .options := by rw [← hH]; exact hs
    have hHo : dH.opt = o1 := by rw [← hH]
    have hHh : dH.holder = ⟨UInt16.ofNat o.number, UInt16.ofNat o.value.length⟩ := by rw [← hH]
    rw [List.append_assoc, List.append_assoc, spots_append, hfe, spots_of_no_option (l := false) (d := d) (r := hdr) (by rw [hfe]; rfl),
      wireSpots, behindHead_hdr hh, List.drop_left]
    simp only [List.map_nil, List.nil_append]
    by_cases hne : o.value ++ (ob ++ t) = []
    · obtain ⟨hv, hrest⟩ := List.append_eq_nil_iff.1 hne
      have hos : os = [] := h4.nil_iff.1 (List.append_eq_nil_iff.1 hrest).1
      subst hos
      refine ⟨[⟨UInt16.ofNat o.number, 0, []⟩], ?_, by simp⟩
      rw [hne, spots_nil, hv, wireSpots]; rfl
    · obtain ⟨b, bs, hb⟩ := List.exists_cons_of_ne_nil hne
      have hvt : (UInt16.ofNat o.value.length).toNat = o.value.length := by simp; omega
      generalize hV : ({ dH with opt := { dH.opt with st := .valueStart } } : Dec) = dV
      have hm : ∀ b, micro dH b = (dV, false) := by
        intro b
        rw [← hV]
        simp [micro, hHs, pureStep_eq (hHo ▸ he.1 b), upd]
      have hVs : dV.st = .options := by rw [← hV]; exact hHs
      have hnote : ∀ r, spotNote dV r = [⟨UInt16.ofNat o.number, o.value.length, r⟩] := by
        intro r
        have h2 : ({ dH.opt with st := .valueStart } : OptDec).length = UInt16.ofNat o.value.length := by rw [hHo]; exact he.2.1
        rw [spotNote, if_pos (by rw [← hV]; exact ⟨hHs, rfl⟩), ← hV]
        simp only [hHh, h2, hvt]
        by_cases hv : o.value = []
        · simp [hv]
        · have : UInt16.ofNat o.value.length > 0 := by
            rw [gt_iff_lt, UInt16.lt_iff_toNat_lt, hvt]
            exact List.length_pos_iff.mpr hv
          rw [if_pos this]
      have hfirst : spots dH (o.value ++ (ob ++ t)) =
          ⟨UInt16.ofNat o.number, o.value.length, o.value ++ (ob ++ t)⟩ :: spots dV (o.value ++ (ob ++ t)) := by
        rw [hb, spots_cons dH b bs (by simp [Going, hHs]) dV false (hm b)]
        simp only [Bool.false_eq_true, if_false, hnote]
        rfl
      rw [hfirst]
      suffices hsuff : ∃ d' : Dec, d'.st = .options ∧ Ready d'.opt ∧ d'.holder.number = UInt16.ofNat o.number ∧
          spots dV (o.value ++ (ob ++ t)) = spots d' (ob ++ t) by
        obtain ⟨d', g1, g2, g3, g4⟩ := hsuff
        obtain ⟨B, i1, i2⟩ := ih d' g1 g2 g3
        exact ⟨B, by rw [i1, g4]; rfl, i2⟩
      by_cases hv : o.value = []
      · rw [hv, List.nil_append] at hb ⊢
        have hl : ({ dH.opt with st := .valueStart } : OptDec).length = 0 := by rw [hHo]; rw [hv] at he; exact he.2.1
        have hvs : OptDec.step { dH.opt with st := .valueStart } b =
            .ok ({ OptDec.setValueLength { dH.opt with st := .valueStart } 0 with st := .optionValueDone }, false) := by
          simp only [OptDec.step, hl, setValueLength_get]; simp
        have hm2 : micro dV b =
            ({ dV with opt := { OptDec.setValueLength { dH.opt with st := .valueStart } 0 with st := .optionValueDone } }, false) := by
          rw [← hV]
          simp [micro, hHs, pureStep_eq hvs, upd]
        refine ⟨{ dV with opt := { OptDec.setValueLength { dH.opt with st := .valueStart } 0 with st := .optionValueDone } }, hVs, .inr rfl,
          ?_, ?_⟩
        · simp only; rw [← hV]; simp only [hHh]
        · rw [hb, spots_cons dV b bs (by simp [Going, hVs]) _ _ hm2]
          simp [spotNote]
      · obtain ⟨o', g1, g2⟩ := hend_phase false dH o.value [] hHs (hHo ▸ he) h3 (by rw [hHh]) (by simpa using hv)
        rw [List.append_nil, feed_nil] at g2
        obtain ⟨x, xs, hx⟩ := List.exists_cons_of_ne_nil hv
        have g3 : feed false dH o.value = (note dV o.value false ++ (feed false dV o.value).1, (feed false dV o.value).2) := by
          rw [hx, feed_cons false dH x xs (by simp [Going, hHs]) dV false (hm x)]
          rfl
        rw [g2] at g3
        simp only [Prod.mk.injEq] at g3
        have g4 : spots dV o.value = [] := by
          have h := congrArg (List.length ∘ optsOf) g3.1
          simp only [Function.comp, optsOf_append, optsOf_note, hnote, optsOf_feed, List.length_append, List.length_map] at h
          simp [optsOf] at h
          exact h
        refine ⟨{ dH with opt := o' }, hHs, .inr g1, by rw [hHh], ?_⟩
        rw [spots_append, g4, ← g3.2]
        rfl

theorem optsOf_chunkEnd (l : Bool) (d : Dec) (r : List UInt8) :
    optsOf (chunkEnd l (feed l d r)).1 = (spots d r).map Spot.shown := by
  rw [← optsOf_feed l]
  have hf : ∀ (l : Bool) (r : List UInt8) (d : Dec), optsOf (finEv l r d) = [] := by
    intro l r d; unfold finEv; split <;> simp [optsOf]
  unfold chunkEnd
  split <;> simp only [optsOf_append, hf] <;> (try split) <;> simp [optsOf]

theorem optsOf_idles (n : Nat) (d : Dec) : optsOf (idles n d).2 = [] := by
  induction n generalizing d with
  | zero => rfl
  | succ n ih => rw [idles, optsOf_append, optsOf_idleEv, ih]; rfl

end Verif.Proofs
