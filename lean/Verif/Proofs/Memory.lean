import Verif.Spec.Memory
import Verif.Proofs.Bytes

/-!
# Two decoders with different leftovers in memory do the same
-/
namespace Verif.Proofs
open Verif.Model Verif.Model.Header Verif.Spec

/-- The option decoders agree on what is read before it is written. -/
def OAgree (o p : OptDec) : Prop :=
  o.st = p.st ∧
  match o.st with
  | .firstByteDone => o.b0 = p.b0 ∧ o.pos = 1 ∧ p.pos = 1
  | .optionDelta => o.b0 = p.b0 ∧ o.pos = p.pos ∧ (o.pos = 1 ∨ (o.pos = 2 ∧ o.b1 = p.b1))
  | .optionDeltaDone => o.b0 = p.b0 ∧ (13 ≤ o.rawDelta → o.b1 = p.b1) ∧ (o.rawDelta = 14 → o.b2 = p.b2)
  | .optionLength =>
    o.b0 = p.b0 ∧ o.pos = p.pos ∧ (o.pos = 1 ∨ (o.pos = 2 ∧ o.b1 = p.b1)) ∧ 13 ≤ o.rawLength
  | .optionLengthDone =>
    o.b0 = p.b0 ∧ (13 ≤ o.rawLength → o.b1 = p.b1) ∧ (o.rawLength = 14 → o.b2 = p.b2) ∧
      (¬ 13 ≤ o.rawLength → o.pos = 1 ∧ p.pos = 1)
  | .optionDeltaAndLengthDone => o.b0 = p.b0 ∧ ¬ 13 ≤ o.rawDelta ∧ ¬ 13 ≤ o.rawLength
  | .valueStart => o.b0 = p.b0 ∧ (13 ≤ o.rawLength → o.b1 = p.b1) ∧ (o.rawLength = 14 → o.b2 = p.b2)
  | .optionValue => o.b0 = p.b0 ∧ o.b1 = p.b1
  | _ => True

theorem getValue_agree (n e0 e1 f0 f1 : UInt8) (h0 : 13 ≤ n → e0 = f0) (h1 : n = 14 → e1 = f1) :
    OptDec.getValue n e0 e1 = OptDec.getValue n f0 f1 := by
  unfold OptDec.getValue
  by_cases a : n < 13
  · simp [a]
  · have a' : 13 ≤ n := by simpa [UInt8.le_iff_toNat_le, UInt8.lt_iff_toNat_lt] using a
    rw [h0 a']
    by_cases b : n = 14
    · rw [h1 b]
    · simp [b]

theorem raw_agree {o p : OptDec} (h : o.b0 = p.b0) : o.rawDelta = p.rawDelta ∧ o.rawLength = p.rawLength := by
  simp [OptDec.rawDelta, OptDec.rawLength, h]

/-- The same fault, or results in the relation. -/
def SameOut {α β : Type} (R : α → β → Prop) : Except Fault α → Except Fault β → Prop
  | .error e, .error f => e = f
  | .ok a, .ok b => R a b
  | _, _ => False

theorem ostep_value (b b0 b1 b2 b3 q : UInt8) :
    OptDec.step ⟨.optionValue, b0, b1, b2, b3, q⟩ b =
      if (ntoh (hton (ntoh b1 b0 - 1)).1 (hton (ntoh b1 b0 - 1)).2 == 0) = true then
        .ok (⟨.optionValueDone, (hton (ntoh b1 b0 - 1)).2, (hton (ntoh b1 b0 - 1)).1, b2, b3, q⟩, true)
      else .ok (⟨.optionValue, (hton (ntoh b1 b0 - 1)).2, (hton (ntoh b1 b0 - 1)).1, b2, b3, q⟩, true) := by
  simp only [OptDec.step, OptDec.setValueLength, OptDec.valueLength]
  rfl

theorem ostep_start (b b0 b1 b2 b3 q : UInt8) :
    OptDec.step ⟨.valueStart, b0, b1, b2, b3, q⟩ b =
      .ok (⟨if (ntoh (hton (OptDec.length ⟨.valueStart, b0, b1, b2, b3, q⟩)).1
          (hton (OptDec.length ⟨.valueStart, b0, b1, b2, b3, q⟩)).2 == 0) = true then .optionValueDone else .optionValue,
        (hton (OptDec.length ⟨.valueStart, b0, b1, b2, b3, q⟩)).2,
        (hton (OptDec.length ⟨.valueStart, b0, b1, b2, b3, q⟩)).1, b2, b3, q⟩, false) := by
  simp only [OptDec.step, OptDec.setValueLength, OptDec.valueLength]
  rfl

/-- One step of the option decoder: the same outcome, and agreement again. -/
theorem ostep_agree (o p : OptDec) (h : OAgree o p) (b : UInt8) :
    SameOut (fun x y => x.2 = y.2 ∧ OAgree x.1 y.1) (o.step b) (p.step b) := by
  obtain ⟨ost, ob0, ob1, ob2, ob3, opos⟩ := o
  obtain ⟨pst, pb0, pb1, pb2, pb3, ppos⟩ := p
  obtain ⟨hst, hr⟩ := h
  simp only at hst
  subst hst
  cases ost
  case firstByte =>
    by_cases hb : b = 0xFF <;> simp [OptDec.step, hb, SameOut, OAgree]
  case firstByteDone =>
    simp only at hr
    obtain ⟨rfl, rfl, rfl⟩ := hr
    simp only [OptDec.step, SameOut, OAgree, OptDec.rawDelta, OptDec.rawLength]
    by_cases h1 : (13 : UInt8) ≤ ob0 >>> 4 <;> by_cases h2 : (13 : UInt8) ≤ ob0 &&& 0x0F <;> simp [h1, h2]
    · intro h3
      rw [h3] at h2
      exact absurd (by decide) h2
    · intro h3
      rw [h3] at h1
      exact absurd (by decide) h1
  case optionDelta =>
    simp only at hr
    obtain ⟨rfl, rfl, h1⟩ := hr
    rcases h1 with rfl | ⟨rfl, rfl⟩
    · by_cases h3 : ob0 >>> 4 = 14 <;>
        simp [OptDec.step, SameOut, OAgree, OptDec.rawDelta, OptDec.write, OptDec.processOptionSize, h3]
    · by_cases h3 : ob0 >>> 4 = 14 <;>
        simp [OptDec.step, SameOut, OAgree, OptDec.rawDelta, OptDec.write, OptDec.processOptionSize, h3]
  case optionDeltaDone =>
    simp only at hr
    obtain ⟨rfl, h1, h2⟩ := hr
    by_cases h3 : (13 : UInt8) ≤ ob0 &&& 0x0F <;>
      simp [OptDec.step, SameOut, OAgree, OptDec.rawDelta, OptDec.rawLength, h3]
    intro h4
    rw [h4] at h3
    exact absurd (by decide) h3
  case optionLength =>
    simp only at hr
    obtain ⟨rfl, rfl, h1, h5⟩ := hr
    simp only [OptDec.rawLength] at h5
    rcases h1 with rfl | ⟨rfl, rfl⟩
    · by_cases h3 : ob0 &&& 15 = 14 <;>
        simp [OptDec.step, SameOut, OAgree, OptDec.rawDelta, OptDec.rawLength, OptDec.write, OptDec.processOptionSize, h3, h5]
    · by_cases h3 : ob0 &&& 15 = 14 <;>
        simp [OptDec.step, SameOut, OAgree, OptDec.rawDelta, OptDec.rawLength, OptDec.write, OptDec.processOptionSize, h3, h5]
  case optionLengthDone =>
    simp only [OptDec.rawLength] at hr
    obtain ⟨rfl, h1, h2, h3⟩ := hr
    by_cases h4 : (13 : UInt8) ≤ ob0 &&& 0x0F
    · simpa [OptDec.step, SameOut, OAgree, OptDec.rawLength, h4, h1 h4] using h2
    · obtain ⟨rfl, rfl⟩ := h3 h4
      simp [OptDec.step, SameOut, OAgree, OptDec.rawLength, h4]
  case optionDeltaAndLengthDone =>
    simp only [OptDec.rawLength] at hr
    obtain ⟨rfl, h1, h2⟩ := hr
    simp only [OptDec.step, SameOut, OAgree, OptDec.rawLength, true_and]
    refine ⟨fun h3 => absurd h3 h2, fun h3 => ?_⟩
    rw [h3] at h2
    exact absurd (by decide) h2
  case valueStart =>
    simp only [OptDec.rawLength] at hr
    obtain ⟨rfl, h1, h2⟩ := hr
    have hl : OptDec.length ⟨.valueStart, ob0, ob1, ob2, ob3, opos⟩ = OptDec.length ⟨.valueStart, ob0, pb1, pb2, pb3, ppos⟩ :=
      getValue_agree _ _ _ _ _ h1 h2
    rw [ostep_start, ostep_start, hl]
    generalize hton (OptDec.length ⟨.valueStart, ob0, pb1, pb2, pb3, ppos⟩) = v
    generalize (ntoh v.1 v.2 == 0) = z
    cases z
    · exact ⟨rfl, rfl, rfl, rfl⟩
    · exact ⟨rfl, rfl, trivial⟩
  case optionValue =>
    simp only at hr
    obtain ⟨rfl, rfl⟩ := hr
    rw [ostep_value, ostep_value]
    generalize hton (ntoh ob1 ob0 - 1) = v
    generalize (ntoh v.1 v.2 == 0) = z
    cases z
    · exact ⟨rfl, rfl, rfl, rfl⟩
    · exact ⟨rfl, rfl, trivial⟩
  all_goals exact ⟨rfl, rfl, trivial⟩

theorem OAgree.delta {o p : OptDec} (h : OAgree o p) (hs : o.st = .optionDeltaDone ∨ o.st = .optionDeltaAndLengthDone) :
    o.delta = p.delta := by
  obtain ⟨-, h⟩ := h
  rcases hs with hs | hs <;> rw [hs] at h <;> simp only at h
  · obtain ⟨h0, h1, h2⟩ := h
    rw [OptDec.delta, OptDec.delta, ← (raw_agree h0).1]
    exact getValue_agree _ _ _ _ _ h1 h2
  · obtain ⟨h0, h1, -⟩ := h
    rw [OptDec.delta, OptDec.delta, ← (raw_agree h0).1]
    refine getValue_agree _ _ _ _ _ (fun x => absurd x h1) (fun x => ?_)
    rw [x] at h1
    exact absurd (by decide) h1

theorem OAgree.length {o p : OptDec} (h : OAgree o p)
    (hs : o.st = .optionLengthDone ∨ o.st = .optionDeltaAndLengthDone ∨ o.st = .valueStart) : o.length = p.length := by
  obtain ⟨-, h⟩ := h
  rcases hs with hs | hs | hs <;> rw [hs] at h <;> simp only at h
  · obtain ⟨h0, h1, h2, -⟩ := h
    rw [OptDec.length, OptDec.length, ← (raw_agree h0).2]
    exact getValue_agree _ _ _ _ _ h1 h2
  · obtain ⟨h0, -, h1⟩ := h
    rw [OptDec.length, OptDec.length, ← (raw_agree h0).2]
    refine getValue_agree _ _ _ _ _ (fun x => absurd x h1) (fun x => ?_)
    rw [x] at h1
    exact absurd (by decide) h1
  · obtain ⟨h0, h1, h2⟩ := h
    rw [OptDec.length, OptDec.length, ← (raw_agree h0).2]
    exact getValue_agree _ _ _ _ _ h1 h2

theorem oloop_agree (fuel : Nat) : ∀ (o p : OptDec) (_ : OAgree o p) (h : Holder) (data : List UInt8) (n : Nat),
    SameOut (fun x y => x.2 = y.2 ∧ OAgree x.1 y.1) (OptDec.loop fuel o h data n) (OptDec.loop fuel p h data n) := by
  induction fuel with
  | zero => intro o p _ h data n; rfl
  | succ fuel ih =>
    intro o p ha h data n
    cases data with
    | nil => exact ⟨rfl, ha⟩
    | cons b bs =>
      have hs := ostep_agree o p ha b
      simp only [OptDec.loop]
      cases e1 : o.step b with
      | error e =>
        cases e2 : p.step b with
        | error f => rw [e1, e2] at hs; exact hs
        | ok y => rw [e1, e2] at hs; exact hs.elim
      | ok x =>
        cases e2 : p.step b with
        | error f => rw [e1, e2] at hs; exact hs.elim
        | ok y =>
          rw [e1, e2] at hs
          obtain ⟨o', k⟩ := x
          obtain ⟨p', k'⟩ := y
          obtain ⟨hk, ha'⟩ := hs
          simp only at hk ha'
          subst hk
          have hst := ha'.1
          simp only [← hst]
          cases hc : o'.st <;> simp only
          case optionDeltaDone => rw [ha'.delta (.inl hc)]; exact ih _ _ ha' _ _ _
          case optionDeltaAndLengthDone =>
            rw [ha'.delta (.inr hc), ha'.length (.inr (.inl hc))]; exact ih _ _ ha' _ _ _
          case optionLengthDone => rw [ha'.length (.inl hc)]; exact ih _ _ ha' _ _ _
          case valueStart => exact ⟨rfl, ha'⟩
          case optionValueDone => exact ⟨rfl, ha'⟩
          case payload => exact ⟨rfl, ha'⟩
          all_goals exact ih _ _ ha' _ _ _

theorem oprocess_agree (o p : OptDec) (ha : OAgree o p) (h : Holder) (chunk : List UInt8) (last : Bool) :
    SameOut (fun x y => x.2 = y.2 ∧ OAgree x.1 y.1) (OptDec.process o h chunk last) (OptDec.process p h chunk last) := by
  unfold OptDec.process
  cases hz : (chunk.length == 0 && last)
  · exact oloop_agree _ _ _ ha _ _ _
  · have hs := ostep_agree o p ha 0
    simp only [if_true]
    cases e1 : o.step 0 with
    | error e =>
      cases e2 : p.step 0 with
      | error f => rw [e1, e2] at hs; exact hs
      | ok y => rw [e1, e2] at hs; exact hs.elim
    | ok x =>
      cases e2 : p.step 0 with
      | error f => rw [e1, e2] at hs; exact hs.elim
      | ok y => rw [e1, e2] at hs; exact ⟨rfl, hs.2⟩

/-- The headers agree on the bytes already read. -/
def HAgree (h g : Header) (p : UInt8) : Prop :=
  (0 < p → h.b0 = g.b0) ∧ (1 < p → h.b1 = g.b1) ∧ (2 < p → h.b2 = g.b2) ∧ (3 < p → h.b3 = g.b3)

/-- What is to come does not depend on where the decoders differ. -/
def DAgree (d e : Dec) : Prop :=
  d.st = e.st ∧ d.tbuf.length = 8 ∧ e.tbuf.length = 8 ∧
  match d.st with
  | .header => (d.opt.st = .payload ↔ e.opt.st = .payload) ∧ d.hpos = e.hpos ∧ HAgree d.hdr e.hdr d.hpos
  | .headerDone => d.hdr = e.hdr ∧ ((d.opt.st = .payload ↔ e.opt.st = .payload) ∨ d.hdr.tokenLength > 0)
  | .tokenStart => d.hdr = e.hdr
  | .token => d.hdr = e.hdr ∧ (d.opt.st = .payload ↔ e.opt.st = .payload) ∧ d.tpos = e.tpos ∧
      d.tbuf.take d.tpos.toNat = e.tbuf.take d.tpos.toNat
  | .tokenDone => d.hdr = e.hdr ∧ (d.opt.st = .payload ↔ e.opt.st = .payload) ∧
      d.tbuf.take d.hdr.tokenLength.toNat = e.tbuf.take d.hdr.tokenLength.toNat
  | .options => d.holder = e.holder ∧ OAgree d.opt e.opt
  | _ => (d.opt.st = .payload ↔ e.opt.st = .payload)

theorem writeHeader_agree (h g : Header) (p b : UInt8) (ha : HAgree h g p) :
    SameOut (fun x y => HAgree x y (p + 1)) (Dec.writeHeader h p b) (Dec.writeHeader g p b) := by
  obtain ⟨h0, h1, h2, h3⟩ := ha
  unfold Dec.writeHeader
  by_cases e0 : p = 0
  · subst e0
    exact ⟨fun _ => rfl, fun x => absurd x (by decide), fun x => absurd x (by decide), fun x => absurd x (by decide)⟩
  by_cases e1 : p = 1
  · subst e1
    exact ⟨fun _ => h0 (by decide), fun _ => rfl, fun x => absurd x (by decide), fun x => absurd x (by decide)⟩
  by_cases e2 : p = 2
  · subst e2
    exact ⟨fun _ => h0 (by decide), fun _ => h1 (by decide), fun _ => rfl, fun x => absurd x (by decide)⟩
  by_cases e3 : p = 3
  · subst e3
    exact ⟨fun _ => h0 (by decide), fun _ => h1 (by decide), fun _ => h2 (by decide), fun _ => rfl⟩
  · simp [e0, e1, e2, e3, SameOut]

theorem headerLoop_agree (bs : List UInt8) : ∀ (n : Nat) (d e : Dec) (_ : d.hpos = e.hpos) (_ : HAgree d.hdr e.hdr d.hpos),
    SameOut (fun x y => x.2 = y.2 ∧ x.1.hpos = y.1.hpos ∧ HAgree x.1.hdr y.1.hdr x.1.hpos ∧ (x.2.2 = true → 4 ≤ x.1.hpos) ∧
        x.1.tbuf = d.tbuf ∧ y.1.tbuf = e.tbuf ∧ x.1.opt = d.opt ∧ y.1.opt = e.opt)
      (Dec.headerLoop d bs n) (Dec.headerLoop e bs n) := by
  induction bs with
  | nil => intro n d e hp h; exact ⟨rfl, hp, h, fun x => absurd x (by simp), rfl, rfl, rfl, rfl⟩
  | cons b bs ih =>
    intro n d e hp h
    have hw := writeHeader_agree d.hdr e.hdr d.hpos b h
    simp only [Dec.headerLoop]
    rw [← hp]
    cases e1 : Dec.writeHeader d.hdr d.hpos b with
    | error x =>
      cases e2 : Dec.writeHeader e.hdr d.hpos b with
      | error y => rw [e1, e2] at hw; exact hw
      | ok y => rw [e1, e2] at hw; exact hw.elim
    | ok x =>
      cases e2 : Dec.writeHeader e.hdr d.hpos b with
      | error y => rw [e1, e2] at hw; exact hw.elim
      | ok y =>
        rw [e1, e2] at hw
        simp only
        by_cases h4 : d.hpos + 1 ≥ 4
        · rw [if_pos h4, if_pos h4]
          exact ⟨rfl, rfl, hw, fun _ => h4, rfl, rfl, rfl, rfl⟩
        · rw [if_neg h4, if_neg h4]
          exact ih _ _ _ rfl hw

theorem writeAt_agree (t u : List UInt8) (ht : t.length = 8) (hu : u.length = 8) (p : Nat) (b : UInt8)
    (h : t.take p = u.take p) :
    (p < 8 ∧ ∃ t' u', writeAt t p b = some t' ∧ writeAt u p b = some u' ∧ t'.length = 8 ∧ u'.length = 8 ∧
      t'.take (p + 1) = u'.take (p + 1)) ∨ (writeAt t p b = none ∧ writeAt u p b = none) := by
  unfold writeAt
  by_cases hp : p < 8
  · left
    refine ⟨hp, t.set p b, u.set p b, by rw [if_pos (by omega)], by rw [if_pos (by omega)], by simp [ht], by simp [hu], ?_⟩
    rw [List.take_succ, List.take_succ, List.take_set_of_le (Nat.le_refl p), List.take_set_of_le (Nat.le_refl p), h,
      List.getElem?_set_self (by omega), List.getElem?_set_self (by omega)]
  · right
    exact ⟨by rw [if_neg (by omega)], by rw [if_neg (by omega)]⟩

theorem tokenLoop_agree (bs : List UInt8) : ∀ (n : Nat) (d e : Dec) (_ : d.hdr = e.hdr) (_ : d.tpos = e.tpos)
    (_ : d.tbuf.length = 8) (_ : e.tbuf.length = 8) (_ : d.tbuf.take d.tpos.toNat = e.tbuf.take d.tpos.toNat)
    (_ : d.opt.st = .payload ↔ e.opt.st = .payload),
    SameOut (fun x y => x.2 = y.2 ∧ x.1.hdr = y.1.hdr ∧ x.1.tpos = y.1.tpos ∧ x.1.tbuf.length = 8 ∧ y.1.tbuf.length = 8 ∧
        x.1.tbuf.take x.1.tpos.toNat = y.1.tbuf.take x.1.tpos.toNat ∧ (x.2.2 = true → x.1.hdr.tokenLength ≤ x.1.tpos) ∧
        (x.1.opt.st = .payload ↔ y.1.opt.st = .payload))
      (Dec.tokenLoop d bs n) (Dec.tokenLoop e bs n) := by
  induction bs with
  | nil => intro n d e h1 h2 h3 h4 h5 h6; exact ⟨rfl, h1, h2, h3, h4, h5, fun x => absurd x (by simp), h6⟩
  | cons b bs ih =>
    intro n d e h1 h2 h3 h4 h5 h6
    simp only [Dec.tokenLoop]
    rw [← h2, ← h1]
    rcases writeAt_agree d.tbuf e.tbuf h3 h4 d.tpos.toNat b h5 with ⟨hp, t', u', w1, w2, w3, w4, w5⟩ | ⟨w1, w2⟩
    · rw [w1, w2]
      simp only
      have hn : (d.tpos + 1).toNat = d.tpos.toNat + 1 := by
        rw [UInt8.toNat_add]; simp; omega
      by_cases hc : d.tpos + 1 ≥ d.hdr.tokenLength
      · rw [if_pos hc, if_pos hc]
        exact ⟨rfl, rfl, rfl, w3, w4, by simp only [hn]; exact w5, fun _ => hc, by simp⟩
      · rw [if_neg hc, if_neg hc]
        exact ih _ _ _ rfl rfl w3 w4 (by simp only [hn]; exact w5) (by simp)
    · rw [w1, w2]
      rfl

theorem take_agree {t u : List UInt8} {p q : Nat} (h : t.take p = u.take p) (hq : q ≤ p) : t.take q = u.take q := by
  have := congrArg (List.take q) h
  rwa [List.take_take, List.take_take, Nat.min_eq_left hq] at this

theorem dstep_agree (d e : Dec) (c : Ctx) (h : DAgree d e) :
    SameOut (fun x y => x.2 = y.2 ∧ DAgree x.1 y.1) (d.step c) (e.step c) := by
  obtain ⟨hst, hd, he, hr⟩ := h
  unfold Dec.step
  rw [← hst]
  cases hc : d.st <;> rw [hc] at hr <;> simp only at hr ⊢
  case uninitialized =>
    exact ⟨rfl, rfl, hd, he, hr, rfl, fun x => absurd x (by simp), fun x => absurd x (by simp), fun x => absurd x (by simp),
      fun x => absurd x (by simp)⟩
  case header =>
    obtain ⟨h1, h2, h3⟩ := hr
    have hl := headerLoop_agree c.remainder 0 d e h2 h3
    cases e1 : Dec.headerLoop d c.remainder 0 with
    | error x =>
      cases e2 : Dec.headerLoop e c.remainder 0 with
      | error y => rw [e1, e2] at hl; exact hl
      | ok y => rw [e1, e2] at hl; exact hl.elim
    | ok x =>
      cases e2 : Dec.headerLoop e c.remainder 0 with
      | error y => rw [e1, e2] at hl; exact hl.elim
      | ok y =>
        rw [e1, e2] at hl
        obtain ⟨d', n, k⟩ := x
        obtain ⟨e', n', k'⟩ := y
        obtain ⟨l1, l2, l3, l4, l5, l6, l7, l8⟩ := hl
        simp only [Prod.mk.injEq] at l1 l2 l3 l4 l5 l6 l7 l8
        obtain ⟨rfl, rfl⟩ := l1
        refine ⟨rfl, ?_⟩
        cases k
        · refine ⟨rfl, by simp [l5, hd], by simp [l6, he], ?_⟩
          simp only [Bool.false_eq_true, if_false]
          exact ⟨by rw [l7, l8]; exact h1, l2, l3⟩
        · refine ⟨rfl, by simp [l5, hd], by simp [l6, he], ?_⟩
          simp only [if_true]
          have h4 : (4 : UInt8) ≤ d'.hpos := l4 rfl
          have h4' : 4 ≤ d'.hpos.toNat := h4
          obtain ⟨m0, m1, m2, m3⟩ := l3
          refine ⟨?_, .inl (by rw [l7, l8]; exact h1)⟩
          have z : ∀ k : UInt8, k.toNat < 4 → k < d'.hpos := fun k hk => by
            rw [UInt8.lt_iff_toNat_lt]; omega
          have := m0 (z 0 (by decide))
          have := m1 (z 1 (by decide))
          have := m2 (z 2 (by decide))
          have := m3 (z 3 (by decide))
          cases hx : d'.hdr
          cases hy : e'.hdr
          simp_all
  case headerDone =>
    obtain ⟨h1, h2⟩ := hr
    rw [← h1]
    by_cases ht : d.hdr.tokenLength > 0
    · rw [if_pos ht, if_pos ht]
      exact ⟨rfl, rfl, hd, he, rfl⟩
    · rw [if_neg ht, if_neg ht]
      have h0 : d.hdr.tokenLength.toNat = 0 := by
        have : ¬ (0 < d.hdr.tokenLength.toNat) := fun x => ht (UInt8.lt_iff_toNat_lt.mpr x)
        omega
      exact ⟨rfl, rfl, hd, he, rfl, h2.resolve_right ht, by simp [h0]⟩
  case tokenStart => exact ⟨rfl, rfl, hd, he, hr, by simp, rfl, by simp⟩
  case token =>
    obtain ⟨h1, h2, h3, h4⟩ := hr
    have hl := tokenLoop_agree c.remainder 0 d e h1 h3 hd he h4 h2
    cases e1 : Dec.tokenLoop d c.remainder 0 with
    | error x =>
      cases e2 : Dec.tokenLoop e c.remainder 0 with
      | error y => rw [e1, e2] at hl; exact hl
      | ok y => rw [e1, e2] at hl; exact hl.elim
    | ok x =>
      cases e2 : Dec.tokenLoop e c.remainder 0 with
      | error y => rw [e1, e2] at hl; exact hl.elim
      | ok y =>
        rw [e1, e2] at hl
        obtain ⟨d', n, k⟩ := x
        obtain ⟨e', n', k'⟩ := y
        obtain ⟨l1, l2, l3, l4, l5, l6, l7, l8⟩ := hl
        simp only [Prod.mk.injEq] at l1 l2 l3 l4 l5 l6 l7 l8
        obtain ⟨rfl, rfl⟩ := l1
        refine ⟨rfl, ?_⟩
        cases k
        · exact ⟨rfl, l4, l5, l2, l8, l3, l6⟩
        · exact ⟨rfl, l4, l5, l2, l8, take_agree l6 (UInt8.le_iff_toNat_le.mp (l7 rfl))⟩
  case tokenDone => exact ⟨rfl, rfl, hd, he, hr.2.1⟩
  case optionsStart =>
    cases hz : (c.remainder.length == 0 && c.last)
    · simp only [Bool.false_eq_true, if_false]
      have hl := oprocess_agree { d.opt with st := .firstByte } { e.opt with st := .firstByte } ⟨rfl, trivial⟩
        { number := 0, length := 0 } c.remainder c.last
      cases e1 : OptDec.process { d.opt with st := .firstByte } { number := 0, length := 0 } c.remainder c.last with
      | error x =>
        cases e2 : OptDec.process { e.opt with st := .firstByte } { number := 0, length := 0 } c.remainder c.last with
        | error y => rw [e1, e2] at hl; exact hl
        | ok y => rw [e1, e2] at hl; exact hl.elim
      | ok x =>
        cases e2 : OptDec.process { e.opt with st := .firstByte } { number := 0, length := 0 } c.remainder c.last with
        | error y => rw [e1, e2] at hl; exact hl.elim
        | ok y =>
          rw [e1, e2] at hl
          obtain ⟨o, g, n⟩ := x
          obtain ⟨o', g', n'⟩ := y
          obtain ⟨l1, l2⟩ := hl
          simp only [Prod.mk.injEq] at l1 l2
          obtain ⟨rfl, rfl⟩ := l1
          refine ⟨rfl, ?_⟩
          have l3 := l2.1
          simp only [← l3]
          by_cases hp : o.st = .payload
          · simp only [hp, beq_self_eq_true, if_true]
            exact ⟨rfl, hd, he, by simp only; rw [← l3]⟩
          · have hp' : (o.st == OState.payload) = false := by simp [hp]
            simp only [hp', Bool.false_eq_true, if_false]
            exact ⟨rfl, hd, he, rfl, l2⟩
    · exact ⟨rfl, rfl, hd, he, hr⟩
  case options =>
    obtain ⟨h1, h2⟩ := hr
    have hl := oprocess_agree d.opt e.opt h2 d.holder c.remainder c.last
    rw [← h1]
    cases e1 : OptDec.process d.opt d.holder c.remainder c.last with
    | error x =>
      cases e2 : OptDec.process e.opt d.holder c.remainder c.last with
      | error y => rw [e1, e2] at hl; exact hl
      | ok y => rw [e1, e2] at hl; exact hl.elim
    | ok x =>
      cases e2 : OptDec.process e.opt d.holder c.remainder c.last with
      | error y => rw [e1, e2] at hl; exact hl.elim
      | ok y =>
        rw [e1, e2] at hl
        obtain ⟨o, g, n⟩ := x
        obtain ⟨o', g', n'⟩ := y
        obtain ⟨l1, l2⟩ := hl
        simp only [Prod.mk.injEq] at l1 l2
        obtain ⟨rfl, rfl⟩ := l1
        have l3 := l2.1
        simp only [← l3]
        by_cases hp : o.st = .payload
        · simp only [hp, beq_self_eq_true, if_true]
          exact ⟨rfl, rfl, hd, he, by simp only; rw [← l3]⟩
        · have hp' : (o.st == OState.payload) = false := by simp [hp]
          simp only [hp', Bool.false_eq_true, if_false]
          cases hz : (c.pos + n == c.chunk.length && c.last)
          · simp only [Bool.false_eq_true, if_false]
            exact ⟨rfl, rfl, hd, he, rfl, l2⟩
          · simp only [if_true]
            by_cases hv : o.st = .optionValueDone
            · simp only [hv, beq_self_eq_true, if_true]
              exact ⟨rfl, rfl, hd, he, by simp only; rw [← l3]⟩
            · have hv' : (o.st == OState.optionValueDone) = false := by simp [hv]
              simp only [hv', Bool.false_eq_true, if_false]
              exact ⟨rfl, rfl, hd, he, rfl, l2⟩
  case optionsDone =>
    by_cases hp : d.opt.st = .payload
    · have hp' := hr.mp hp
      simp only [hp, hp', beq_self_eq_true, if_true]
      exact ⟨rfl, rfl, hd, he, hr⟩
    · have hp' : ¬ e.opt.st = .payload := fun x => hp (hr.mpr x)
      have q : (d.opt.st == OState.payload) = false := by simp [hp]
      have q' : (e.opt.st == OState.payload) = false := by simp [hp']
      simp only [q, q', Bool.false_eq_true, if_false]
      cases hz : (c.pos == c.chunk.length && c.last)
      · simp only [Bool.false_eq_true, if_false]
        cases hb : c.chunk[c.pos]? with
        | none => rfl
        | some b =>
          simp only
          cases hf : b == 0xFF
          · exact ⟨rfl, rfl, hd, he, hr⟩
          · exact ⟨rfl, rfl, hd, he, hr⟩
      · exact ⟨rfl, rfl, hd, he, hr⟩
  case payload =>
    refine ⟨rfl, rfl, hd, he, ?_⟩
    cases c.last <;> exact hr
  case payloadDone => exact ⟨rfl, rfl, hd, he, hr⟩
  case done => exact ⟨rfl, rfl, hd, he, hr⟩

theorem dnotify_agree (d e : Dec) (c : Ctx) (h : DAgree d e) : d.notify c = e.notify c := by
  obtain ⟨hst, hd, he, hr⟩ := h
  unfold Dec.notify
  rw [← hst]
  cases hc : d.st <;> rw [hc] at hr <;> simp only at hr ⊢
  case headerDone => rw [hr.1]
  case tokenDone =>
    obtain ⟨h1, -, h3⟩ := hr
    rw [← h1, hd, he, h3]
  case options =>
    obtain ⟨h1, h2⟩ := hr
    rw [← h1, ← h2.1]
    by_cases hv : d.opt.st = .valueStart
    · have : d.optionValue c = e.optionValue c := by
        unfold Dec.optionValue
        rw [h2.length (.inr (.inr hv))]
      rw [this]
    · simp [hv]

/-- One call: the same outcome, and agreement again. -/
theorem stepNotify_agree (d e : Dec) (c : Ctx) (h : DAgree d e) :
    SameOut (fun x y => x.2 = y.2 ∧ x.1.st = y.1.st ∧ DAgree x.1 y.1) (d.stepNotify c) (e.stepNotify c) := by
  have hs := dstep_agree d e c h
  unfold Dec.stepNotify
  cases e1 : d.step c with
  | error x =>
    cases e2 : e.step c with
    | error y => rw [e1, e2] at hs; exact hs
    | ok y => rw [e1, e2] at hs; exact hs.elim
  | ok x =>
    cases e2 : e.step c with
    | error y => rw [e1, e2] at hs; exact hs.elim
    | ok y =>
      rw [e1, e2] at hs
      obtain ⟨d', c'⟩ := x
      obtain ⟨e', c''⟩ := y
      obtain ⟨l1, l2⟩ := hs
      simp only at l1 l2
      subst l1
      simp only [dnotify_agree d' e' c' l2]
      cases e'.notify c' with
      | error x => rfl
      | ok evs => exact ⟨rfl, l2.1, l2⟩

/-- Everything the caller sees. -/
theorem watch_agree (as : List Act) : ∀ (d e : Dec) (c : Ctx), DAgree d e → watch d c as = watch e c as := by
  induction as with
  | nil => intros; rfl
  | cons a as ih =>
    intro d e c h
    cases a with
    | buffer chunk last => exact ih d e _ h
    | call =>
      have hs := stepNotify_agree d e c h
      simp only [watch]
      cases e1 : d.stepNotify c with
      | error x =>
        cases e2 : e.stepNotify c with
        | error y => rw [e1, e2] at hs; rw [show x = y from hs]
        | ok y => rw [e1, e2] at hs; exact hs.elim
      | ok x =>
        cases e2 : e.stepNotify c with
        | error y => rw [e1, e2] at hs; exact hs.elim
        | ok y =>
          rw [e1, e2] at hs
          obtain ⟨d', c', evs⟩ := x
          obtain ⟨e', c'', evs'⟩ := y
          obtain ⟨l1, l2, l3⟩ := hs
          simp only [Prod.mk.injEq] at l1 l2 l3
          obtain ⟨rfl, rfl⟩ := l1
          simp only
          rw [l2, ih d' e' c' l3]

end Verif.Proofs
