import Verif.Props.PullAny
import Verif.Proofs.Legacy

/-! # C79: datagrams that end inside the value of an option -/
namespace Verif.Props
open Verif.Model Header Dec OptDec Spec Pull Proofs

/-- Inside a value of which `v` bytes are missing, at the end of the datagram. -/
structure AtCut (p : Pull) (n v : Nat) : Prop where
  st : p.d.st = .options
  ost : p.d.opt.st = .optionValue
  vl : p.d.opt.valueLength.toNat = v
  pos : 0 < v
  num : p.d.holder.number = UInt16.ofNat n
  rest : Rem p.c []

theorem current_nil {p : Pull} {n : Nat} (hn : p.d.holder.number = UInt16.ofNat n) (hr : Rem p.c []) :
    p.current = (UInt16.ofNat n, []) := by
  simp only [Pull.current, optionValue, hn, hr.1]
  split <;> simp

theorem AtCut.step {p : Pull} {n v : Nat} (h : AtCut p n v) :
    ∃ q, p.iterate = .ok q ∧ (v = 1 → AtE q) ∧ (1 < v → AtCut q n (v - 1)) := by
  have hat := h.rest.atEnd.mpr rfl
  have hsub : (p.d.opt.valueLength - 1).toNat = v - 1 := by
    rw [UInt16.toNat_sub_of_le _ _ (by rw [UInt16.le_iff_toNat_le, h.vl]; simpa using Nat.succ_le_of_lt h.pos), h.vl]; simp
  by_cases h1 : v = 1
  · have hz : p.d.opt.valueLength - 1 = 0 := by apply UInt16.toNat_inj.1; rw [hsub, h1]; rfl
    have he : p.d.opt.step 0 = .ok ({ p.d.opt.setValueLength (p.d.opt.valueLength - 1) with st := .optionValueDone }, true) := by
      simp only [OptDec.step, h.ost, setValueLength_get, hz]; simp
    refine ⟨⟨{ p.d with opt := { p.d.opt.setValueLength (p.d.opt.valueLength - 1) with st := .optionValueDone }, st := .optionsDone }, p.c⟩,
      ?_, fun _ => ⟨rfl, by simp, h.rest⟩, fun hv => by omega⟩
    have hs := h.st
    obtain ⟨⟨st, hdr, hpos, tpos, tbuf, opt, holder⟩, ⟨chunk, pos, last⟩⟩ := p
    have h3 := h.rest.2.2
    have h1 := h.rest.1
    simp only at hs h3 h1 he hat; subst hs; subst h3
    simp only [Bool.and_true, beq_iff_eq] at hat
    simp only [iterate, Dec.step, OptDec.process, h1, he]
    simp [hat]
  · have hz : p.d.opt.valueLength - 1 ≠ 0 := by
      intro hc; rw [hc] at hsub; have := h.pos; simp at hsub; omega
    have he : p.d.opt.step 0 = .ok (p.d.opt.setValueLength (p.d.opt.valueLength - 1), true) := by
      simp only [OptDec.step, h.ost, setValueLength_get]; simp [hz]
    have hst : (p.d.opt.setValueLength (p.d.opt.valueLength - 1)).st = .optionValue := h.ost
    refine ⟨⟨{ p.d with opt := p.d.opt.setValueLength (p.d.opt.valueLength - 1) }, p.c⟩, ?_, fun hv => absurd hv h1, fun hv =>
      ⟨h.st, hst, by rw [setValueLength_get, hsub], by omega, h.num, h.rest⟩⟩
    have hs := h.st
    obtain ⟨⟨st, hdr, hpos, tpos, tbuf, opt, holder⟩, ⟨chunk, pos, last⟩⟩ := p
    have h3 := h.rest.2.2
    have h1 := h.rest.1
    simp only at hs h3 h1 he hst hat; subst hs; subst h3
    simp only [Bool.and_true, beq_iff_eq] at hat
    simp only [iterate, Dec.step, OptDec.process, h1, he]
    simp [hst, hat]

/-- At an option with number `n` of whose `len` value bytes only `vb` are there. -/
structure AtHalf (p : Pull) (n len : Nat) (vb : List UInt8) : Prop where
  st : p.d.st = .options
  num : p.d.holder.number = UInt16.ofNat n
  rest : Rem p.c vb
  small : len < 65536
  short : vb.length < len
  where_ : (vb ≠ [] ∧ p.d.opt.st = .valueStart ∧ p.d.opt.length = UInt16.ofNat len) ∨ (vb = [] ∧ HEnd p.d.opt len)

theorem AtHalf.current {p : Pull} {n len : Nat} {vb : List UInt8} (h : AtHalf p n len vb) :
    p.current = (UInt16.ofNat n, vb) := by
  have hl : p.d.opt.length = UInt16.ofNat len := by
    rcases h.where_ with ⟨-, -, h⟩ | ⟨-, h⟩
    · exact h
    · exact h.2.1
  have h1 := h.small
  have h2 := h.short
  have hn : (UInt16.ofNat len).toNat = len := by simp; omega
  simp only [Pull.current, optionValue, h.num, hl, hn, h.rest.1]
  rw [if_neg (by omega)]

/-- Into an option whose value is cut off. -/
theorem Before.half {p : Pull} {prev n len : Nat} {hdr vb : List UInt8} (h : Before p prev (hdr ++ vb)) (hle : prev ≤ n)
    (hh : HdrOf hdr (n - prev) len) (hl : len < 65536) (hs : vb.length < len) :
    ∃ q, p.iterate = .ok q ∧ AtHalf q n len vb := by
  have key : ∀ (od : OptDec) (ho : Holder), Ready od → ho.number = UInt16.ofNat prev →
      ∃ o', OptDec.process od ho (hdr ++ vb) true = .ok (o', ⟨UInt16.ofNat n, UInt16.ofNat len⟩, hdr.length) ∧
        ((vb ≠ [] ∧ o'.st = .valueStart ∧ o'.length = UInt16.ofNat len) ∨ (vb = [] ∧ HEnd o' len)) ∧
        o'.st ≠ .payload ∧ o'.st ≠ .optionValueDone := by
    intro od ho hr hn
    by_cases hne : vb = []
    · obtain ⟨o', e, he⟩ := proc_header_end od ho hdr _ _ hr hh
      rw [hn, num_next hle] at e
      exact ⟨o', by rw [hne, List.append_nil]; exact e, Or.inr ⟨hne, he⟩, he.2.2.2.1, he.2.2.1⟩
    · obtain ⟨o', e, g1, g2⟩ := proc_header od ho hdr vb _ _ hr hh hne
      rw [hn, num_next hle] at e
      exact ⟨o', e, Or.inl ⟨hne, g1, g2⟩, by simp [g1], by simp [g1]⟩
  rcases h with ⟨hst, hz, hrem, hne⟩ | h
  · subst hz
    obtain ⟨o', e, hd, hnp, -⟩ := key { p.d.opt with st := .firstByte } ⟨0, 0⟩ (Or.inl rfl) rfl
    refine ⟨⟨{ p.d with opt := o', holder := ⟨UInt16.ofNat n, UInt16.ofNat len⟩, st := .options },
      { p.c with pos := p.c.pos + hdr.length }⟩, ?_, ⟨rfl, rfl, hrem.adv, hl, hs, hd⟩⟩
    have hl0 : (p.c.remainder.length == 0 && p.c.last) = false := by rw [hrem.1]; simp [hdrOf_ne hh]
    simp only [iterate, Dec.step, hst, hl0, Bool.false_eq_true, if_false]
    rw [hrem.1, hrem.2.2, e]
    simp [hnp]
  · obtain ⟨o', e, hd, hnp, hnd⟩ := key p.d.opt p.d.holder (Or.inr h.ost) h.num
    refine ⟨⟨{ p.d with opt := o', holder := ⟨UInt16.ofNat n, UInt16.ofNat len⟩ },
      { p.c with pos := p.c.pos + hdr.length }⟩, ?_, ⟨h.st, rfl, h.rest.adv, hl, hs, hd⟩⟩
    simp only [iterate, Dec.step, h.st]
    rw [h.rest.1, h.rest.2.2, e]
    simp only [beq_iff_eq, hnp, if_false, hnd]
    by_cases hc : ((p.c.pos + hdr.length == p.c.chunk.length && true) = true)
    · rw [if_pos hc]
    · rw [if_neg hc]

/-- At the value, all bytes of which are missing. -/
structure AtNone (p : Pull) (n len : Nat) : Prop where
  st : p.d.st = .options
  ost : p.d.opt.st = .valueStart
  len_ : p.d.opt.length = UInt16.ofNat len
  num : p.d.holder.number = UInt16.ofNat n
  rest : Rem p.c []

theorem AtNone.step {p : Pull} {n len : Nat} (h : AtNone p n len) (hl : len < 65536) (h0 : 0 < len) :
    ∃ q, p.iterate = .ok q ∧ AtCut q n len := by
  have hn : (UInt16.ofNat len).toNat = len := by simp; omega
  have hz : (UInt16.ofNat len == 0) = false := by
    rw [beq_eq_false_iff_ne]; intro hc; rw [hc] at hn; simp at hn; omega
  have he : p.d.opt.step 0 = .ok ({ p.d.opt.setValueLength (UInt16.ofNat len) with st := .optionValue }, false) := by
    simp only [OptDec.step, h.ost, h.len_, setValueLength_get, hz]; simp
  have hat := h.rest.atEnd.mpr rfl
  refine ⟨⟨{ p.d with opt := { p.d.opt.setValueLength (UInt16.ofNat len) with st := .optionValue } }, p.c⟩, ?_,
    ⟨h.st, rfl, by rw [show ({ p.d.opt.setValueLength (UInt16.ofNat len) with st := .optionValue } : OptDec).valueLength = UInt16.ofNat len from setValueLength_get p.d.opt _, hn],
      h0, h.num, h.rest⟩⟩
  have hs := h.st
  obtain ⟨⟨st, hdr, hpos, tpos, tbuf, opt, holder⟩, ⟨chunk, pos, last⟩⟩ := p
  have h3 := h.rest.2.2
  have h1 := h.rest.1
  simp only at hs h3 h1 he hat; subst hs; subst h3
  simp only [Bool.and_true, beq_iff_eq] at hat
  simp only [iterate, Dec.step, OptDec.process, h1, he]
  simp [hat]

theorem AtHalf.step {p : Pull} {n len : Nat} {vb : List UInt8} (h : AtHalf p n len vb) :
    ∃ q, p.iterate = .ok q ∧ (vb = [] → AtNone q n len) ∧ (vb ≠ [] → AtCut q n (len - vb.length)) := by
  rcases h.where_ with ⟨hne, hs, hl⟩ | ⟨hv, he⟩
  · have hn : p.d.opt.length.toNat = len := by rw [hl]; have := h.small; simp; omega
    obtain ⟨o', s', e, g1, -, -⟩ := step_value p.d p.c len h.st h.rest.2.1 (by rw [h.rest.1]; exact hne) (by have := h.short; omega) (Or.inr ⟨hs, hn⟩)
    have hr := h.rest.1
    have hsh := h.short
    rw [hr] at g1
    obtain ⟨a, b, rfl⟩ := g1 hsh
    have hmin : min len p.c.remainder.length = vb.length := by rw [hr]; omega
    rw [hmin] at e
    refine ⟨⟨{ p.d with opt := o', st := .options }, { p.c with pos := p.c.pos + vb.length }⟩, by simp [iterate, e], fun hc => absurd hc hne,
      fun _ => ⟨rfl, a, b, by omega, h.num, Rem.adv (a := vb) (t := []) (by simpa using h.rest)⟩⟩
  · subst hv
    have e : p.d.opt.step 0 = .ok ({ p.d.opt with st := .valueStart }, false) := he.1 0
    refine ⟨⟨{ p.d with opt := { p.d.opt with st := .valueStart } }, p.c⟩, ?_, fun _ => ⟨h.st, rfl, he.2.1, h.num, h.rest⟩, fun hc => absurd rfl hc⟩
    have hst := h.st
    obtain ⟨⟨st, hdr, hpos, tpos, tbuf, opt, holder⟩, ⟨chunk, pos, last⟩⟩ := p
    have h3 := h.rest.2.2
    have h1 := h.rest.1
    simp only at hst h3 h1 e; subst hst; subst h3
    simp only [iterate, Dec.step, OptDec.process, h1, e]
    simp

/-- `option_next` inside a value that does not come. -/
theorem AtCut.next {p : Pull} {n v : Nat} (h : AtCut p n v) :
    (v ≤ 2 → ∃ q, p.optionNext = .ok (false, q) ∧ q.d.st = .done ∧ Rem q.c []) ∧
    (2 < v → ∃ q, p.optionNext = .ok (true, q) ∧ AtCut q n (v - 2)) := by
  obtain ⟨q1, e1, a1, b1⟩ := h.step
  by_cases h1 : v = 1
  · obtain ⟨q2, e2, g1, g2⟩ := (a1 h1).step
    exact ⟨fun _ => ⟨q2, by simp [optionNext, e1, e2, g1], g1, g2⟩, fun hc => by omega⟩
  · have hc1 := b1 (by have := h.pos; omega)
    obtain ⟨q2, e2, a2, b2⟩ := hc1.step
    by_cases h2 : v = 2
    · obtain ⟨q3, e3, g1, g2⟩ := (a2 (by omega)).step
      exact ⟨fun _ => ⟨q3, by simp [optionNext, e1, e2, (a2 (by omega)).st, e3, g1], g1, g2⟩, fun hc => by omega⟩
    · have hc2 := b2 (by have := h.pos; omega)
      have : v - 1 - 1 = v - 2 := by omega
      rw [this] at hc2
      exact ⟨fun hc => by have := h.pos; omega, fun _ => ⟨q2, by simp [optionNext, e1, e2, hc2.st], hc2⟩⟩

/-- The walk with `option_next` over a value that does not come. -/
theorem AtCut.nextLoop : ∀ (v : Nat) {p : Pull} {n : Nat}, AtCut p n v → ∀ f,
    ∃ q, nextLoop ((v + 1) / 2 + 1 + f) true p = .ok (List.replicate ((v + 1) / 2) (UInt16.ofNat n, []), q) ∧ q.d.st = .done ∧ Rem q.c [] := by
  intro v
  induction v using Nat.strongRecOn with
  | ind v ih =>
    intro p n h f
    obtain ⟨ha, hb⟩ := h.next
    have hpos := h.pos
    by_cases h2 : v ≤ 2
    · obtain ⟨q, e, g1, g2⟩ := ha h2
      refine ⟨q, ?_, g1, g2⟩
      have : (v + 1) / 2 = 1 := by omega
      rw [this, show 1 + 1 + f = (f + 1) + 1 by omega]
      simp [Pull.nextLoop, e, current_nil h.num h.rest]
    · obtain ⟨q1, e1, h1⟩ := hb (by omega)
      obtain ⟨q, e, g1, g2⟩ := ih (v - 2) (by omega) h1 f
      refine ⟨q, ?_, g1, g2⟩
      have : (v + 1) / 2 = (v - 2 + 1) / 2 + 1 := by omega
      rw [this, show (v - 2 + 1) / 2 + 1 + 1 + f = ((v - 2 + 1) / 2 + 1 + f) + 1 by omega, List.replicate_succ]
      simp [Pull.nextLoop, e1, e, current_nil h.num h.rest]

/-- How many more options a walk with `option_next` shows after one of whose `len` value bytes only `have_` are there. -/
def madeUp (len have_ : Nat) : Nat := if have_ = 0 then (len + 1) / 2 else (len - have_) / 2

theorem AtHalf.nextLoop {p : Pull} {n len : Nat} {vb : List UInt8} (h : AtHalf p n len vb) (f : Nat) :
    ∃ q, nextLoop (madeUp len vb.length + 2 + f) true p =
      .ok ((UInt16.ofNat n, vb) :: List.replicate (madeUp len vb.length) (UInt16.ofNat n, []), q) ∧ q.d.st = .done ∧ Rem q.c [] := by
  have hsh := h.short
  have hsm := h.small
  have hcur := h.current
  obtain ⟨q1, e1, a1, b1⟩ := h.step
  by_cases hv : vb = []
  · obtain ⟨q2, e2, h2⟩ := (a1 hv).step hsm (by omega)
    obtain ⟨q, e, g1, g2⟩ := h2.nextLoop len f
    refine ⟨q, ?_, g1, g2⟩
    have : madeUp len vb.length = (len + 1) / 2 := by simp [madeUp, hv]
    have hn : p.optionNext = .ok (true, q2) := by simp [optionNext, e1, e2, h2.st]
    rw [this, show (len + 1) / 2 + 2 + f = ((len + 1) / 2 + 1 + f) + 1 by omega]
    simp [Pull.nextLoop, hn, e, hcur]
  · have hc := b1 hv
    have hz : vb.length ≠ 0 := by simpa using hv
    have hm : madeUp len vb.length = (len - vb.length) / 2 := by simp [madeUp, hv]
    obtain ⟨q2, e2, a2, b2⟩ := hc.step
    by_cases hone : len - vb.length = 1
    · obtain ⟨q3, e3, g1, g2⟩ := (a2 hone).step
      have hn : p.optionNext = .ok (false, q3) := by simp [optionNext, e1, e2, (a2 hone).st, e3, g1]
      refine ⟨q3, ?_, g1, g2⟩
      rw [hm, hone, show 1 / 2 + 2 + f = (f + 1) + 1 by omega]
      simp [Pull.nextLoop, hn, hcur]
    · have h2 := b2 (by omega)
      obtain ⟨q, e, g1, g2⟩ := h2.nextLoop _ f
      have hn : p.optionNext = .ok (true, q2) := by simp [optionNext, e1, e2, h2.st]
      refine ⟨q, ?_, g1, g2⟩
      have heq : (len - vb.length - 1 + 1) / 2 = (len - vb.length) / 2 := by congr 1; omega
      rw [heq] at e
      rw [hm, show (len - vb.length) / 2 + 2 + f = ((len - vb.length) / 2 + 1 + f) + 1 by omega]
      simp [Pull.nextLoop, hn, e, hcur]

/-- The number of the last option. -/
def lastNumber (prev : Nat) (os : List Opt) : Nat := (os.getLast?.map (·.number)).getD prev

theorem lastNumber_cons (prev : Nat) (o : Opt) (os : List Opt) : lastNumber prev (o :: os) = lastNumber o.number os := by
  cases os with
  | nil => rfl
  | cons x xs =>
    have : ∀ (l : List Opt), l ≠ [] → ∀ a b, ((l.getLast?.map (·.number)).getD a) = ((l.getLast?.map (·.number)).getD b) := by
      intro l hl a b
      rw [List.getLast?_eq_some_getLast hl]; rfl
    rw [lastNumber, List.getLast?_cons_cons, lastNumber]
    exact this _ (by simp) _ _

theorem opts_snoc {o : Opt} : ∀ {os : List Opt} {prev : Nat} {ob : List UInt8}, IsOpts prev (os ++ [o]) ob →
    ∃ ob1 hdr, ob = ob1 ++ (hdr ++ o.value) ∧ IsOpts prev os ob1 ∧ lastNumber prev os ≤ o.number ∧
      HdrOf hdr (o.number - lastNumber prev os) o.value.length ∧ o.value.length < 65536 := by
  intro os
  induction os with
  | nil =>
    intro prev ob h
    simp only [List.nil_append] at h
    cases h with
    | @cons _ _ _ hdr bs h1 h2 h3 h4 h5 =>
      cases h5
      exact ⟨[], hdr, by simp, .nil, h1, h4, h3⟩
  | cons x xs ih =>
    intro prev ob h
    rw [List.cons_append] at h
    cases h with
    | @cons _ _ _ hdr bs h1 h2 h3 h4 h5 =>
      obtain ⟨ob1, hdr1, rfl, g1, g2, g3, g4⟩ := ih h5
      refine ⟨hdr ++ x.value ++ ob1, hdr1, by simp, .cons h1 h2 h3 h4 g1, ?_, ?_, g4⟩ <;> rw [lastNumber_cons] <;> assumption

theorem half_after {os : List Opt} {ob : List UInt8} {n len : Nat} {hdr vb : List UInt8} : ∀ {p : Pull} {o1 : Opt},
    Shown p o1 (ob ++ (hdr ++ vb)) → IsOpts o1.number os ob → lastNumber o1.number os ≤ n →
    HdrOf hdr (n - lastNumber o1.number os) len → len < 65536 → vb.length < len → ∀ f,
    ∃ q, Pull.nextLoop (os.length + 1 + (madeUp len vb.length + 2 + f)) true p =
      .ok (optPair o1 :: os.map optPair ++ (UInt16.ofNat n, vb) :: List.replicate (madeUp len vb.length) (UInt16.ofNat n, []), q) ∧
      q.d.st = .done ∧ Rem q.c [] := by
  intro p o1 h hob hle hh hl hs
  generalize hk : o1.number = k at hob hle hh
  induction hob generalizing p o1 with
  | nil =>
    intro f
    subst hk
    simp only [List.nil_append] at h
    have hne : hdr ++ vb ≠ [] := by simp [hdrOf_ne hh]
    obtain ⟨q1, e1, h1⟩ := (h.atV hne).step_more hne
    obtain ⟨q2, e2, h2⟩ := Before.half (show Before q1 o1.number _ from Or.inr h1) hle hh hl hs
    have hn : p.optionNext = .ok (true, q2) := by simp [optionNext, e1, e2, h2.st]
    obtain ⟨q, e, g1, g2⟩ := h2.nextLoop f
    refine ⟨q, ?_, g1, g2⟩
    rw [show ([] : List Opt).length + 1 + (madeUp len vb.length + 2 + f) = (madeUp len vb.length + 2 + f) + 1 by simp; omega]
    simp [Pull.nextLoop, hn, e, h.current]
  | @cons prev o2 os hdr2 bs hle2 hlt hl2 hh2 hrest ih =>
    intro f
    subst hk
    rw [List.append_assoc] at h
    rw [lastNumber_cons] at hle hh
    obtain ⟨q1, e, h1⟩ := next_option (p := p) (o := o1) (o2 := o2) (hdr := hdr2) h hle2 hh2 hl2
    obtain ⟨q, e2, h2, h3⟩ := ih h1 rfl hle hh f
    refine ⟨q, ?_, h2, h3⟩
    rw [show (o2 :: os).length + 1 + (madeUp len vb.length + 2 + f) = (os.length + 1 + (madeUp len vb.length + 2 + f)) + 1 by simp; omega]
    simp [Pull.nextLoop, e, h.current, e2]

theorem half_all {os : List Opt} {ob : List UInt8} {n len : Nat} {hdr vb : List UInt8} {p : Pull} (hob : IsOpts 0 os ob)
    (hle : lastNumber 0 os ≤ n) (hh : HdrOf hdr (n - lastNumber 0 os) len) (hl : len < 65536) (hs : vb.length < len)
    (hst : p.d.st = .optionsStart) (hr : Rem p.c (ob ++ (hdr ++ vb))) (f : Nat) :
    ∃ q, nextAll (os.length + (madeUp len vb.length + 2 + f)) p =
      .ok (os.map optPair ++ (UInt16.ofNat n, vb) :: List.replicate (madeUp len vb.length) (UInt16.ofNat n, []), q) ∧
      q.d.st = .done ∧ Rem q.c [] := by
  cases hob with
  | nil =>
    simp only [List.nil_append] at hr
    have hne : hdr ++ vb ≠ [] := by simp [hdrOf_ne hh]
    obtain ⟨q2, e2, h2⟩ := Before.half (show Before p 0 _ from Or.inl ⟨hst, rfl, hr, hne⟩) hle hh hl hs
    obtain ⟨q, e, g1, g2⟩ := h2.nextLoop f
    refine ⟨q, ?_, g1, g2⟩
    simp [nextAll, beginOption, e2, h2.st, e]
  | @cons prev o os hdr2 bs hle2 hlt hl2 hh2 hrest =>
    rw [List.append_assoc] at hr
    rw [lastNumber_cons] at hle hh
    have hne : hdr2 ++ o.value ++ (bs ++ (hdr ++ vb)) ≠ [] := by simp [hdrOf_ne hh2]
    obtain ⟨q1, e1, h1, -⟩ := (show Before p 0 _ from Or.inl ⟨hst, rfl, hr, hne⟩).option hle2 hh2 hl2
    obtain ⟨q, e2, h2, h3⟩ := half_after h1 hrest hle hh hl hs f
    refine ⟨q, ?_, h2, h3⟩
    rw [show (o :: os).length + (madeUp len vb.length + 2 + f) = os.length + 1 + (madeUp len vb.length + 2 + f) by simp]
    simp [nextAll, beginOption, e1, h1.valid, e2]

/-- The datagram that is left of a message without payload when the last `lost` bytes do not arrive. -/
def cutWire (m : Msg) (ob : List UInt8) (lost : Nat) : List UInt8 := (wire m ob).take ((wire m ob).length - lost)

theorem cutWire_eq (m : Msg) (hp : m.payload = none) (a b : List UInt8) : cutWire m (a ++ b) b.length = wire m a := by
  simp only [cutWire, wire, hp, encPayload, List.append_nil, ← List.append_assoc]
  rw [List.length_append, Nat.add_sub_cancel, List.take_left']
  rfl

/-- C79 fails: when the end of the last option's value is lost, a walk with `option_next` shows the options that are
complete, the beginning of the last, and then the number of the last option again and again without a value: once for
every two bytes announced and missing. -/
theorem cut_option_made_up (m : Msg) (hm : m.Ok) (os : List Opt) (o : Opt) (ho : m.opts = os ++ [o]) (hp : m.payload = none)
    (ob : List UInt8) (hob : IsOpts 0 m.opts ob) (lost : Nat) (h0 : 0 < lost) (hlost : lost ≤ o.value.length)
    (junk : Dec) (hj : junk.tbuf.length = 8) (fuel : Nat) (hf : os.length + o.value.length + 2 ≤ fuel) :
    readWith (nextAll fuel) (make junk (cutWire m ob lost)) =
      .ok (reading m (os ++ ⟨o.number, o.value.take (o.value.length - lost)⟩ ::
        List.replicate (if lost = o.value.length then (lost + 1) / 2 else lost / 2) ⟨o.number, []⟩) .done) := by
  rw [ho] at hob
  obtain ⟨ob1, hdr, rfl, g1, g2, g3, g4⟩ := opts_snoc hob
  have hsplit : o.value = o.value.take (o.value.length - lost) ++ o.value.drop (o.value.length - lost) := (List.take_append_drop _ _).symm
  have hdl : (o.value.drop (o.value.length - lost)).length = lost := by rw [List.length_drop]; omega
  have hw : cutWire m (ob1 ++ (hdr ++ o.value)) lost = wire m (ob1 ++ (hdr ++ o.value.take (o.value.length - lost))) := by
    have := cutWire_eq m hp (ob1 ++ (hdr ++ o.value.take (o.value.length - lost))) (o.value.drop (o.value.length - lost))
    rw [hdl] at this
    rw [← this]
    congr 1
    simp
  have htl : (o.value.take (o.value.length - lost)).length = o.value.length - lost := by rw [List.length_take]; omega
  have hmu : madeUp o.value.length (o.value.take (o.value.length - lost)).length =
      if lost = o.value.length then (lost + 1) / 2 else lost / 2 := by
    rw [htl, madeUp]
    by_cases hc : lost = o.value.length
    · rw [if_pos (by omega), if_pos hc, hc]
    · rw [if_neg (by omega), if_neg hc, show o.value.length - (o.value.length - lost) = lost by omega]
  rw [hw]
  obtain ⟨p, h1, h2, -, h4⟩ := wire_head m hm (ob1 ++ (hdr ++ o.value.take (o.value.length - lost))) junk hj (nextAll fuel)
  rw [hp] at h2
  simp only [encPayload, List.append_nil] at h2
  have hmle : (if lost = o.value.length then (lost + 1) / 2 else lost / 2) ≤ o.value.length := by split <;> omega
  obtain ⟨f, rfl⟩ : ∃ f, fuel = os.length + (madeUp o.value.length (o.value.take (o.value.length - lost)).length + 2 + f) :=
    ⟨fuel - (os.length + (madeUp o.value.length (o.value.take (o.value.length - lost)).length + 2)), by rw [hmu]; omega⟩
  obtain ⟨q, e, k1, k2⟩ := half_all g1 g2 g3 g4 (by rw [htl]; omega) h1 h2 f
  rw [h4 _ _ e, Pull.payload, k2.1, k1, hmu]
  simp only [reading, hp, List.map_append, List.map_cons, List.map_replicate, Option.getD_none]
  rfl

/-- The iterator inside a value that does not come. -/
theorem AtCut.iterLoop : ∀ (v : Nat) {p : Pull} {n : Nat}, AtCut p n v → ∀ f,
    ∃ q, Pull.iterLoop ((v + 2) / 3 + 1 + f) p = .ok (List.replicate ((v + 2) / 3) (UInt16.ofNat n, []), q) ∧ Rem q.c [] ∧
      q.d.st = if v % 3 = 0 then .optionsDone else .done := by
  intro v
  induction v using Nat.strongRecOn with
  | ind v ih =>
    intro p n h f
    obtain ⟨ha, hb⟩ := h.next
    have hpos := h.pos
    by_cases h2 : v ≤ 2
    · obtain ⟨q, e, g1, g2⟩ := ha h2
      have : (v + 2) / 3 = 1 := by omega
      refine ⟨q, ?_, g2, by rw [if_neg (by omega)]; exact g1⟩
      rw [this, show 1 + 1 + f = (f + 1) + 1 by omega]
      rw [iterLoop_go h.st (iterNext_false e) (iterLoop_stop (by simp [g1]) f)]
      simp [current_nil h.num h.rest]
    · obtain ⟨q1, e1, h1⟩ := hb (by omega)
      obtain ⟨q2, e2, a2, b2⟩ := h1.step
      have hn : p.iterNext = .ok q2 := by rw [iterNext_true e1, e2]
      by_cases h3 : v = 3
      · have hE := a2 (by omega)
        have : (v + 2) / 3 = 1 := by omega
        refine ⟨q2, ?_, hE.rest, by rw [if_pos (by omega)]; exact hE.st⟩
        rw [this, show 1 + 1 + f = (f + 1) + 1 by omega]
        rw [iterLoop_go h.st hn (iterLoop_stop (by simp [hE.st]) f)]
        simp [current_nil h.num h.rest]
      · have h3' := b2 (by omega)
        obtain ⟨q, e, g1, g2⟩ := ih (v - 2 - 1) (by omega) h3' f
        refine ⟨q, ?_, g1, by rw [g2]; congr 1; apply propext; omega⟩
        have : (v + 2) / 3 = (v - 2 - 1 + 2) / 3 + 1 := by omega
        rw [this, show (v - 2 - 1 + 2) / 3 + 1 + 1 + f = ((v - 2 - 1 + 2) / 3 + 1 + f) + 1 by omega, List.replicate_succ]
        rw [iterLoop_go h.st hn e]
        simp [current_nil h.num h.rest]

/-- C79 fails for the iterator too: of a message whose only option has lost the end of its value, it shows the number
of that option once for every three bytes announced and missing, never the part of the value that did arrive. -/
theorem iterator_cut_made_up (m : Msg) (hm : m.Ok) (o : Opt) (ho : m.opts = [o]) (hp : m.payload = none)
    (ob : List UInt8) (hob : IsOpts 0 m.opts ob) (lost : Nat) (h0 : 0 < lost) (hlost : lost ≤ o.value.length)
    (junk : Dec) (hj : junk.tbuf.length = 8) (fuel : Nat) (hf : o.value.length + 3 ≤ fuel) :
    readWith (iterAll fuel) (make junk (cutWire m ob lost)) =
      .ok (reading m (List.replicate (if lost = o.value.length then lost / 3 + 1 else (lost + 2) / 3) ⟨o.number, []⟩)
        (if (if lost = o.value.length then lost % 3 = 2 else lost % 3 = 0) then .optionsDone else .done)) := by
  rw [ho] at hob
  obtain ⟨ob1, hdr, rfl, g1, g2, g3, g4⟩ := opts_snoc (os := []) (by simpa using hob)
  cases g1
  have hdl : (o.value.drop (o.value.length - lost)).length = lost := by rw [List.length_drop]; omega
  have hw : cutWire m ([] ++ (hdr ++ o.value)) lost = wire m (hdr ++ o.value.take (o.value.length - lost)) := by
    have := cutWire_eq m hp (hdr ++ o.value.take (o.value.length - lost)) (o.value.drop (o.value.length - lost))
    rw [hdl] at this
    rw [← this]
    congr 1
    simp
  have htl : (o.value.take (o.value.length - lost)).length = o.value.length - lost := by rw [List.length_take]; omega
  rw [hw]
  obtain ⟨p, h1, h2, -, h4⟩ := wire_head m hm (hdr ++ o.value.take (o.value.length - lost)) junk hj (iterAll fuel)
  rw [hp] at h2
  simp only [encPayload, List.append_nil] at h2
  obtain ⟨q1, e1, k1⟩ := Before.half (vb := o.value.take (o.value.length - lost))
    (show Before p 0 _ from Or.inl ⟨h1, rfl, h2, by simp [hdrOf_ne g3]⟩) g2 g3 g4 (by rw [htl]; omega)
  obtain ⟨q2, e2, a2, b2⟩ := k1.step
  have hnew : p.iterNew = .ok q2 := iterNew_two e1 e2
  have fin : ∀ k q s, Pull.iterLoop fuel q2 = .ok (List.replicate k (UInt16.ofNat o.number, []), q) → Rem q.c [] → q.d.st = s →
      readWith (iterAll fuel) (make junk (wire m (hdr ++ o.value.take (o.value.length - lost)))) =
        .ok (reading m (List.replicate k ⟨o.number, []⟩) s) := by
    intro k q s e hr hs
    subst hs
    rw [h4 _ _ (by rw [iterAll, hnew]; exact e), Pull.payload, hr.1]
    simp [reading, hp]
  by_cases hc : lost = o.value.length
  · have hN := a2 (by rw [hc]; simp)
    simp only [if_pos hc]
    obtain ⟨q3, e3, h3⟩ := hN.step g4 (by omega)
    obtain ⟨q4, e4, a4, b4⟩ := h3.step
    have hcur := current_nil hN.num hN.rest
    by_cases hl1 : o.value.length = 1
    · obtain ⟨q5, e5, k5, k6⟩ := (a4 hl1).step
      have hn : q2.optionNext = .ok (false, q5) := by simp [optionNext, e3, e4, (a4 hl1).st, e5, k5]
      obtain ⟨f, rfl⟩ : ∃ f, fuel = f + 1 + 1 := ⟨fuel - 2, by omega⟩
      refine fin _ q5 _ ?_ k6 (by rw [if_neg (by omega)]; exact k5)
      rw [iterLoop_go hN.st (iterNext_false hn) (iterLoop_stop (by simp [k5]) f), hc, hl1]
      simp [hcur]
    · have h4' := b4 (by omega)
      have hn : q2.optionNext = .ok (true, q4) := by simp [optionNext, e3, e4, h4'.st]
      obtain ⟨q5, e5, a5, b5⟩ := h4'.step
      have hn2 : q2.iterNext = .ok q5 := by rw [iterNext_true hn, e5]
      by_cases hl2 : o.value.length = 2
      · have hE := a5 (by omega)
        obtain ⟨f, rfl⟩ : ∃ f, fuel = f + 1 + 1 := ⟨fuel - 2, by omega⟩
        refine fin _ q5 _ ?_ hE.rest (by rw [if_pos (by omega)]; exact hE.st)
        rw [iterLoop_go hN.st hn2 (iterLoop_stop (by simp [hE.st]) f), hc, hl2]
        simp [hcur]
      · have h5 := b5 (by omega)
        obtain ⟨f, hfu⟩ : ∃ f, fuel = (o.value.length - 1 - 1 + 2) / 3 + 1 + f + 1 := ⟨fuel - ((o.value.length - 1 - 1 + 2) / 3 + 2), by omega⟩
        obtain ⟨q, e, k6, k7⟩ := AtCut.iterLoop _ h5 f
        refine fin _ q _ ?_ k6 (by rw [k7]; congr 1; apply propext; omega)
        rw [hfu, iterLoop_go hN.st hn2 e, hc, show o.value.length / 3 + 1 = (o.value.length - 1 - 1 + 2) / 3 + 1 by omega, List.replicate_succ, hcur]
  · have hC := b2 (by intro h; rw [h] at htl; simp at htl; omega)
    rw [htl, show o.value.length - (o.value.length - lost) = lost by omega] at hC
    simp only [if_neg hc]
    obtain ⟨f, hfu⟩ : ∃ f, fuel = (lost + 2) / 3 + 1 + f := ⟨fuel - ((lost + 2) / 3 + 1), by omega⟩
    obtain ⟨q, e, k6, k7⟩ := AtCut.iterLoop _ hC f
    exact fin _ q _ (by rw [hfu]; exact e) k6 k7

/-- C79 fails: for every length from 269 to 65535 there is a datagram of seven bytes — a header, an option header that
announces that length, and nothing more — of which a walk with `option_next` shows more than half that many options,
and a walk with the iterator more than a third, so up to 32769 and 21846. -/
theorem seven_bytes_many_options (len : Nat) (h1 : 269 ≤ len) (h2 : len < 65536) (code mid : Nat) (hc : code < 256) (hi : mid < 65536)
    (junk : Dec) (hj : junk.tbuf.length = 8) :
    ∃ bytes r r', bytes.length = 7 ∧
      (∀ fuel, len + 3 ≤ fuel → readWith (nextAll fuel) (make junk bytes) = .ok r ∧ readWith (iterAll fuel) (make junk bytes) = .ok r') ∧
      r.options.length = (len + 1) / 2 + 1 ∧ r'.options.length = len / 3 + 1 := by
  have hlen : (⟨0, List.replicate len 0⟩ : Opt).value.length = len := by simp
  have hm : (⟨1, 0, code, mid, [], [⟨0, List.replicate len 0⟩], none⟩ : Msg).Ok := by
    simp only [Msg.Ok, OptsOk, hlen]
    refine ⟨by omega, by omega, hc, hi, by simp, ⟨by omega, by omega, h2, trivial⟩, by simp⟩
  have hob := isOpts_encOpts 0 _ hm.2.2.2.2.2.1
  refine ⟨cutWire ⟨1, 0, code, mid, [], [⟨0, List.replicate len 0⟩], none⟩ (encOpts 0 [⟨0, List.replicate len 0⟩]) len, _, _, ?_,
    fun fuel hf => ⟨cut_option_made_up _ hm [] ⟨0, List.replicate len 0⟩ rfl rfl _ hob len (by omega) (by rw [hlen]; omega) junk hj fuel
      (by rw [hlen]; simp; omega),
      iterator_cut_made_up _ hm ⟨0, List.replicate len 0⟩ rfl rfl _ hob len (by omega) (by rw [hlen]; omega) junk hj fuel (by rw [hlen]; exact hf)⟩, ?_, ?_⟩
  · simp [cutWire, wire, encHeader, encOpts, optHeader, extBytes, encPayload, show ¬ len < 13 by omega, show ¬ len < 269 by omega]
    omega
  · simp [reading]
  · simp [reading]

/-- C79 fails: of fewer than four bytes a walk with `option_next` shows one option, whose number is whatever memory
held; a walk with the iterator shows none. -/
theorem pull_short_made_up (junk : Dec) (bytes : List UInt8) (h : bytes.length < 4) (fuel : Nat) (hf : 2 ≤ fuel) :
    ∃ r r', readWith (nextAll fuel) (make junk bytes) = .ok r ∧ r.completed = false ∧ r.options = [(junk.holder.number, [])] ∧
      readWith (iterAll fuel) (make junk bytes) = .ok r' ∧ r'.completed = false ∧ r'.options = [] := by
  obtain ⟨hd, p, e, hp, hn⟩ : ∃ hd p, (make junk bytes).header = .ok (hd, p) ∧ Starved p ∧ p.d.holder.number = junk.holder.number := by
    match bytes, h with
    | [], _ => exact ⟨_, _, rfl, ⟨Or.inl rfl, rfl⟩, rfl⟩
    | [_], _ => exact ⟨_, _, rfl, ⟨Or.inl rfl, rfl⟩, rfl⟩
    | [_, _], _ => exact ⟨_, _, rfl, ⟨Or.inl rfl, rfl⟩, rfl⟩
    | [_, _, _], _ => exact ⟨_, _, rfl, ⟨Or.inl rfl, rfl⟩, rfl⟩
  obtain ⟨f, rfl⟩ : ∃ f, fuel = f + 2 := ⟨fuel - 2, by omega⟩
  have hc : p.current = (junk.holder.number, []) := by
    simp only [Pull.current, optionValue, hn, hp.2]
    split <;> simp
  exact ⟨⟨hd, [], false, [p.current], p.payload, p.d.st⟩, ⟨hd, [], false, [], p.payload, p.d.st⟩,
    by simp only [readWith, e, hp.token, (hp.walks f).2], rfl, by rw [hc],
    by simp only [readWith, e, hp.token, (hp.walks (f + 1)).1], rfl, rfl⟩

-- `GET coap://host/abcd` of which the last two bytes were lost: the functions show the path twice, the iterator once
-- and empty
def cutSample : Msg := ⟨1, 0, 1, 7, [], [⟨11, [97, 98, 99, 100]⟩], none⟩

example : cutSample.Ok := by decide

example : readWith (nextAll 9) (make Dec.zero (cutWire cutSample (encOpts 0 cutSample.opts) 2)) =
    .ok (reading cutSample [⟨11, [97, 98]⟩, ⟨11, []⟩] .done) := by decide +kernel

example : readWith (iterAll 9) (make Dec.zero (cutWire cutSample (encOpts 0 cutSample.opts) 2)) =
    .ok (reading cutSample [⟨11, []⟩] .done) := by decide +kernel

-- an option behind a complete one, all of its nine bytes lost: five made-up options
example : readWith (nextAll 20) (make Dec.zero (cutWire ⟨1, 0, 1, 7, [], [⟨11, [97]⟩, ⟨15, List.replicate 9 0⟩], none⟩
      (encOpts 0 [⟨11, [97]⟩, ⟨15, List.replicate 9 0⟩]) 9)) =
    .ok (reading ⟨1, 0, 1, 7, [], [], none⟩ (⟨11, [97]⟩ :: ⟨15, []⟩ :: List.replicate 5 ⟨15, []⟩) .done) := by decide +kernel

-- bytes that are no message at all: reserved nibbles, a marker with nothing behind
example : announcedTkl [0xC2, 0xFF, 0xF0, 0x0F, 1, 2, 0xF3, 0xFF] ≤ 8 := by decide

example : (readWith (nextAll 40) (make Dec.zero [0xC2, 0xFF, 0xF0, 0x0F, 1, 2, 0xF3, 0xFF])).toOption.isSome = true := by
  decide +kernel

-- a token of fifteen bytes
example : readWith (nextAll 9) (make Dec.zero (0x4F :: List.replicate 12 1)) = .error .tokenOverflow := by decide +kernel

end Verif.Props
