import Verif.Model.PullDecoder
import Verif.Spec.Pull
import Verif.Proofs.WireFeed

/-! # Single steps of the pull-style decoder over an encoded message -/
namespace Verif.Proofs
open Verif.Model Header Dec OptDec Spec Pull

/-! ## The option decoder -/

/-- However much fuel shows it, the result of the loop is the result of `process`. -/
theorem process_of_loop {F : Nat} {o : OptDec} {h : Holder} {r : List UInt8} {x : OptDec × Holder × Nat} (hi : OInv o)
    (hr : r ≠ []) (e : loop F o h r 0 = .ok x) : OptDec.process o h r true = .ok x := by
  obtain ⟨o', h', k, e', -⟩ := loop_ok (fuelFor r) o h r 0 hi (by have := rank_le o.st; simp only [fuelFor]; omega)
  have h1 := loop_mono e (fuelFor r)
  have h2 := loop_mono e' F
  rw [Nat.add_comm, h2] at h1
  have : (r.length == 0 && true) = false := by simp [hr]
  simp only [OptDec.process, this, Bool.false_eq_true, if_false, e']
  exact h1

theorem ready_inv {o : OptDec} (h : Ready o) : OInv o := by rcases h with h | h <;> simp [OInv, h]

theorem hdrOf_ne {hdr : List UInt8} {a b : Nat} (h : HdrOf hdr a b) : hdr ≠ [] := by
  obtain ⟨w, e1, e2, rfl, -⟩ := h; simp

/-- An option header with something behind it. -/
theorem proc_header (o : OptDec) (h : Holder) (hdr t : List UInt8) (delta len : Nat) (hr : Ready o)
    (hh : HdrOf hdr delta len) (ht : t ≠ []) :
    ∃ o', OptDec.process o h (hdr ++ t) true =
        .ok (o', ⟨h.number + UInt16.ofNat delta, UInt16.ofNat len⟩, hdr.length) ∧
      o'.st = .valueStart ∧ o'.length = UInt16.ofNat len := by
  obtain ⟨o1, ⟨-, -, k, hk⟩, he⟩ := header_wire o h hdr delta len t hr hh
  obtain ⟨b, bs, rfl⟩ := List.exists_cons_of_ne_nil ht
  refine ⟨{ o1 with st := .valueStart }, process_of_loop (F := k + 1) (ready_inv hr) (by simp) ?_, rfl, he.2.1⟩
  rw [hk, loop_cons _ _ _ _ _ _ _ _ (he.1 b)]
  simp [paused, upd]

/-- An option header at the very end. -/
theorem proc_header_end (o : OptDec) (h : Holder) (hdr : List UInt8) (delta len : Nat) (hr : Ready o)
    (hh : HdrOf hdr delta len) :
    ∃ o', OptDec.process o h hdr true =
        .ok (o', ⟨h.number + UInt16.ofNat delta, UInt16.ofNat len⟩, hdr.length) ∧ HEnd o' len := by
  obtain ⟨o1, ⟨-, -, k, hk⟩, he⟩ := header_wire o h hdr delta len [] hr hh
  refine ⟨o1, process_of_loop (F := k + 1) (ready_inv hr) (hdrOf_ne hh) ?_, he⟩
  have := hk 1 0
  rw [List.append_nil] at this
  rw [this]; simp [loop]

theorem length_setZero (o : OptDec) : (o.setValueLength 0).length = 0 := by
  simp [OptDec.length, setValueLength, rawLength, getValue, hton]

/-- The bytes of a value. -/
theorem loop_value_all (v t : List UInt8) : ∀ (o : OptDec) (h : Holder) (n : Nat), o.st = .optionValue →
    o.valueLength = UInt16.ofNat v.length → v ≠ [] → v.length < 65536 →
    ∃ o', OptDec.loop (v.length + 1) o h (v ++ t) n = .ok (o', h, n + v.length) ∧ o'.st = .optionValueDone ∧ o'.length = 0 := by
  induction v with
  | nil => intro o h n _ _ hv; exact absurd rfl hv
  | cons b bs ih =>
    intro o h n hs hvl _ hl
    have hsub : o.valueLength - 1 = UInt16.ofNat bs.length := by
      rw [hvl]; apply UInt16.toNat_inj.1
      simp only [List.length_cons] at hl ⊢
      rw [UInt16.toNat_sub]; simp; omega
    by_cases hbs : bs = []
    · subst hbs
      have he : o.step b = .ok ({ o.setValueLength (o.valueLength - 1) with st := .optionValueDone }, true) := by
        simp only [OptDec.step, hs, setValueLength_get, hsub]; simp
      refine ⟨{ o.setValueLength (o.valueLength - 1) with st := .optionValueDone }, ?_, rfl, ?_⟩
      · rw [List.cons_append, loop_cons _ _ _ _ _ _ _ _ he]
        simp [paused, upd]
      · rw [hsub]; exact length_setZero o
    · have hne : UInt16.ofNat bs.length ≠ 0 := by
        intro h
        have := congrArg UInt16.toNat h
        simp only [List.length_cons] at hl
        simp [Nat.mod_eq_of_lt (show bs.length < 65536 by omega)] at this
        exact hbs this
      have he : o.step b = .ok (o.setValueLength (o.valueLength - 1), true) := by
        simp only [OptDec.step, hs, setValueLength_get, hsub]; simp [hne]
      have hst : (o.setValueLength (o.valueLength - 1)).st = .optionValue := hs
      obtain ⟨o', e, g1, g2⟩ := ih (o.setValueLength (o.valueLength - 1)) h (n + 1) hst (by rw [setValueLength_get, hsub]) hbs
        (by simp only [List.length_cons] at hl; omega)
      refine ⟨o', ?_, g1, g2⟩
      rw [List.cons_append, List.length_cons, loop_cons _ _ _ _ _ _ _ _ he]
      simp only [hst, paused, upd, Bool.false_eq_true, if_false, if_true]
      rw [e]; congr 3; omega

/-- From the start of a value to its end. -/
theorem proc_value (o : OptDec) (h : Holder) (v t : List UInt8) (hs : o.st = .valueStart)
    (hlen : o.length = UInt16.ofNat v.length) (hl : v.length < 65536) :
    ∃ o', OptDec.process o h (v ++ t) true = .ok (o', h, v.length) ∧ o'.st = .optionValueDone ∧ o'.length = 0 := by
  have hstep : ∀ b, o.step b = .ok ({ o.setValueLength (UInt16.ofNat v.length) with
      st := if UInt16.ofNat v.length == 0 then .optionValueDone else .optionValue }, false) := by
    intro b; simp only [OptDec.step, hs, hlen, setValueLength_get]
  by_cases hv : v = []
  · subst hv
    refine ⟨{ o.setValueLength 0 with st := .optionValueDone }, ?_, rfl, length_setZero o⟩
    by_cases ht : t = []
    · subst ht
      have := hstep 0
      simp at this
      simp [OptDec.process, this]
    · obtain ⟨b, bs, rfl⟩ := List.exists_cons_of_ne_nil ht
      refine process_of_loop (F := 1) (by simp [OInv, hs]) (by simp) ?_
      rw [List.nil_append, loop_cons _ _ _ _ _ _ _ _ (hstep b)]
      simp [paused, upd]
  · have hz : (UInt16.ofNat v.length == 0) = false := by
      rw [beq_eq_false_iff_ne]; intro h
      have := congrArg UInt16.toNat h
      simp [Nat.mod_eq_of_lt hl] at this; exact hv this
    obtain ⟨o', e, g1, g2⟩ := loop_value_all v t { o.setValueLength (UInt16.ofNat v.length) with st := .optionValue } h 0 rfl
      (setValueLength_get o _) hv hl
    refine ⟨o', process_of_loop (F := v.length + 1 + 1) (by simp [OInv, hs]) (by simp [hv]) ?_, g1, g2⟩
    obtain ⟨b, bs, hb⟩ := List.exists_cons_of_ne_nil hv
    have hs2 := hstep b
    rw [hz] at hs2
    simp only [Bool.false_eq_true, if_false] at hs2
    have h3 := loop_cons (v.length + 1) o _ false h b (bs ++ t) 0 hs2
    rw [← List.cons_append, ← hb] at h3
    rw [h3]
    simp only [paused, upd, Bool.false_eq_true, if_false]
    rw [e]; simp

/-- The payload marker between options. -/
theorem proc_marker (o : OptDec) (h : Holder) (p : List UInt8) (hr : Ready o) :
    OptDec.process o h (0xFF :: p) true = .ok ({ o with st := .payload }, h, 1) := by
  refine process_of_loop (F := 2) (ready_inv hr) (by simp) ?_
  have main : ∀ o : OptDec, o.st = .firstByte → ∀ f, loop (f + 1) o h (0xFF :: p) 0 = .ok ({ o with st := .payload }, h, 1) := by
    intro o hs f
    have he : o.step 0xFF = .ok ({ o with st := .payload }, true) := by simp [OptDec.step, hs]
    rw [loop_cons _ _ _ _ _ _ _ _ he]; simp [paused, upd]
  rcases hr with hs | hs
  · exact main o hs 1
  · have he : o.step 0xFF = .ok ({ o with st := .firstByte }, false) := by simp [OptDec.step, hs]
    rw [loop_cons _ _ _ _ _ _ _ _ he]
    simp only [paused, upd, Bool.false_eq_true, if_false]
    exact main { o with st := .firstByte } rfl 0

/-! ## Where the decoder stands -/

/-- `r` is unread in the last buffer. -/
def Rem (c : Ctx) (r : List UInt8) : Prop := c.remainder = r ∧ c.pos ≤ c.chunk.length ∧ c.last = true

theorem Rem.adv {c : Ctx} {a t : List UInt8} (h : Rem c (a ++ t)) : Rem { c with pos := c.pos + a.length } t := by
  obtain ⟨h1, h2, h3⟩ := h
  refine ⟨?_, ?_, h3⟩
  · rw [remainder_add, h1]; simp
  · have := congrArg List.length h1
    simp [Ctx.remainder] at this
    show c.pos + a.length ≤ c.chunk.length
    omega

theorem Rem.atEnd {c : Ctx} {r : List UInt8} (h : Rem c r) : (c.pos == c.chunk.length && c.last) = true ↔ r = [] := by
  obtain ⟨h1, h2, h3⟩ := h
  have h4 := congrArg List.length h1
  simp only [Ctx.remainder, List.length_drop] at h4
  simp only [h3, Bool.and_true, beq_iff_eq]
  rw [← List.length_eq_zero_iff]
  omega

/-- At the value of an option. -/
structure AtV (p : Pull) (o : Opt) (t : List UInt8) : Prop where
  st : p.d.st = .options
  ost : p.d.opt.st = .valueStart
  len : p.d.opt.length = UInt16.ofNat o.value.length
  num : p.d.holder.number = UInt16.ofNat o.number
  small : o.value.length < 65536
  rest : Rem p.c (o.value ++ t)

/-- Behind the header of a last option without value. -/
structure AtA (p : Pull) (o : Opt) : Prop where
  st : p.d.st = .options
  hend : HEnd p.d.opt 0
  num : p.d.holder.number = UInt16.ofNat o.number
  rest : Rem p.c []

/-- Behind the value of an option, more to come. -/
structure AtD (p : Pull) (n : Nat) (t : List UInt8) : Prop where
  st : p.d.st = .options
  ost : p.d.opt.st = .optionValueDone
  len : p.d.opt.length = 0
  num : p.d.holder.number = UInt16.ofNat n
  rest : Rem p.c t
  more : t ≠ []

/-- Behind the last option of a message without payload. -/
structure AtE (p : Pull) : Prop where
  st : p.d.st = .optionsDone
  ost : p.d.opt.st ≠ .payload
  rest : Rem p.c []

/-- Behind the payload marker. -/
structure AtM (p : Pull) (pl : List UInt8) : Prop where
  st : p.d.st = .optionsDone
  ost : p.d.opt.st = .payload
  rest : Rem p.c pl

/-- In front of the options or behind one of them. -/
def Before (p : Pull) (prev : Nat) (t : List UInt8) : Prop :=
  (p.d.st = .optionsStart ∧ prev = 0 ∧ Rem p.c t ∧ t ≠ []) ∨ AtD p prev t

/-- The next option can be read: number and value are right. -/
def Shown (p : Pull) (o : Opt) (t : List UInt8) : Prop := AtV p o t ∨ (AtA p o ∧ o.value = [] ∧ t = [])

theorem AtV.step_more {p : Pull} {o : Opt} {t : List UInt8} (h : AtV p o t) (ht : t ≠ []) :
    ∃ q, p.iterate = .ok q ∧ AtD q o.number t := by
  obtain ⟨o', e, g1, g2⟩ := proc_value p.d.opt p.d.holder o.value t h.ost h.len h.small
  have hne : ¬ ((({ p.c with pos := p.c.pos + o.value.length } : Ctx).pos == p.c.chunk.length && p.c.last) = true) := by
    intro hh; exact ht (h.rest.adv.atEnd.mp hh)
  refine ⟨⟨{ p.d with opt := o' }, { p.c with pos := p.c.pos + o.value.length }⟩, ?_,
    ⟨h.st, g1, g2, h.num, h.rest.adv, ht⟩⟩
  simp only [iterate, Dec.step, h.st, h.rest.1, h.rest.2.2, e]
  rw [h.rest.2.2] at hne
  simp only [Bool.and_true, beq_iff_eq] at hne
  simp [g1, hne]

theorem AtV.step_end {p : Pull} {o : Opt} (h : AtV p o []) : ∃ q, p.iterate = .ok q ∧ AtE q := by
  obtain ⟨o', e, g1, g2⟩ := proc_value p.d.opt p.d.holder o.value [] h.ost h.len h.small
  have hat := h.rest.adv.atEnd.mpr rfl
  refine ⟨⟨{ p.d with opt := o', st := .optionsDone }, { p.c with pos := p.c.pos + o.value.length }⟩, ?_,
    ⟨rfl, by simp [g1], h.rest.adv⟩⟩
  simp only [iterate, Dec.step, h.st, h.rest.1, h.rest.2.2, e]
  rw [h.rest.2.2] at hat
  simp only [Bool.and_true, beq_iff_eq] at hat
  simp [g1, hat]

theorem AtA.step {p : Pull} {o : Opt} (h : AtA p o) (ho : o.value = []) : ∃ q, p.iterate = .ok q ∧ AtV q o [] := by
  have e : OptDec.process p.d.opt p.d.holder [] true = .ok ({ p.d.opt with st := .valueStart }, p.d.holder, 0) := by
    simp [OptDec.process, h.hend.1 0]
  refine ⟨⟨{ p.d with opt := { p.d.opt with st := .valueStart } }, p.c⟩, ?_,
    ⟨h.st, rfl, by rw [ho]; exact h.hend.2.1, h.num, by simp [ho], by simpa [ho] using h.rest⟩⟩
  have hst := h.st
  obtain ⟨⟨st, hdr, hpos, tpos, tbuf, opt, holder⟩, ⟨chunk, pos, last⟩⟩ := p
  simp only at hst; subst hst
  have h3 := h.rest.2.2
  have h1 := h.rest.1
  simp only at h3 h1 e; subst h3
  simp only [iterate, Dec.step, h1, e]
  simp

theorem AtE.step {p : Pull} (h : AtE p) : ∃ q, p.iterate = .ok q ∧ q.d.st = .done ∧ Rem q.c [] := by
  have hat := h.rest.atEnd.mpr rfl
  refine ⟨⟨{ p.d with st := .done }, p.c⟩, ?_, rfl, h.rest⟩
  simp [iterate, Dec.step, h.st, h.ost, hat]

theorem AtM.step {p : Pull} {pl : List UInt8} (h : AtM p pl) :
    ∃ q, p.iterate = .ok q ∧ q.d.st = .payload ∧ Rem q.c pl := by
  refine ⟨⟨{ p.d with st := .payload }, p.c⟩, ?_, rfl, h.rest⟩
  simp [iterate, Dec.step, h.st, h.ost]

theorem num_next {prev n : Nat} (h : prev ≤ n) : UInt16.ofNat prev + UInt16.ofNat (n - prev) = UInt16.ofNat n := by
  rw [← UInt16.ofNat_add, Nat.add_sub_cancel' h]

/-- Into the next option. -/
theorem Before.option {p : Pull} {prev : Nat} {o : Opt} {hdr t : List UInt8} (h : Before p prev (hdr ++ o.value ++ t))
    (hle : prev ≤ o.number) (hh : HdrOf hdr (o.number - prev) o.value.length) (hl : o.value.length < 65536) :
    ∃ q, p.iterate = .ok q ∧ Shown q o t ∧ (o.value ++ t = [] → AtA q o) := by
  rw [List.append_assoc] at h
  -- the option decoder
  have key : ∀ (od : OptDec) (ho : Holder), Ready od → ho.number = UInt16.ofNat prev →
      ∃ o', OptDec.process od ho (hdr ++ (o.value ++ t)) true = .ok (o', ⟨UInt16.ofNat o.number, UInt16.ofNat o.value.length⟩, hdr.length) ∧
        ((o'.st = .valueStart ∧ o'.length = UInt16.ofNat o.value.length ∧ o.value ++ t ≠ []) ∨ (HEnd o' 0 ∧ o.value = [] ∧ t = [])) ∧
        o'.st ≠ .payload ∧ o'.st ≠ .optionValueDone := by
    intro od ho hr hn
    by_cases hne : o.value ++ t = []
    · obtain ⟨o', e, he⟩ := proc_header_end od ho hdr _ _ hr hh
      rw [hn, num_next hle] at e
      have hv : o.value = [] := (List.append_eq_nil_iff.mp hne).1
      refine ⟨o', by rw [hne, List.append_nil]; exact e, Or.inr ⟨by simpa [hv] using he, List.append_eq_nil_iff.mp hne⟩, he.2.2.2.1, he.2.2.1⟩
    · obtain ⟨o', e, g1, g2⟩ := proc_header od ho hdr (o.value ++ t) _ _ hr hh hne
      rw [hn, num_next hle] at e
      exact ⟨o', e, Or.inl ⟨g1, g2, hne⟩, by simp [g1], by simp [g1]⟩
  have fin : ∀ (q : Pull), q.d.st = .options → q.d.holder.number = UInt16.ofNat o.number → Rem q.c (o.value ++ t) →
      ((q.d.opt.st = .valueStart ∧ q.d.opt.length = UInt16.ofNat o.value.length ∧ o.value ++ t ≠ []) ∨ (HEnd q.d.opt 0 ∧ o.value = [] ∧ t = [])) →
      Shown q o t ∧ (o.value ++ t = [] → AtA q o) := by
    intro q h1 h2 h3 h4
    rcases h4 with ⟨a, b, hne⟩ | ⟨a, b, c⟩
    · exact ⟨Or.inl ⟨h1, a, b, h2, hl, h3⟩, fun h => absurd h hne⟩
    · have : AtA q o := ⟨h1, a, h2, by simpa [b, c] using h3⟩
      exact ⟨Or.inr ⟨this, b, c⟩, fun _ => this⟩
  rcases h with ⟨hs, hz, hrem, hne⟩ | h
  · subst hz
    obtain ⟨o', e, hd, hnp, -⟩ := key { p.d.opt with st := .firstByte } ⟨0, 0⟩ (Or.inl rfl) rfl
    refine ⟨⟨{ p.d with opt := o', holder := ⟨UInt16.ofNat o.number, UInt16.ofNat o.value.length⟩, st := .options },
      { p.c with pos := p.c.pos + hdr.length }⟩, ?_, fin _ rfl rfl hrem.adv hd⟩
    have hl0 : (p.c.remainder.length == 0 && p.c.last) = false := by rw [hrem.1]; simp [hdrOf_ne hh]
    simp only [iterate, Dec.step, hs, hl0, Bool.false_eq_true, if_false]
    rw [hrem.1, hrem.2.2, e]
    simp [hnp]
  · obtain ⟨o', e, hd, hnp, hnd⟩ := key p.d.opt p.d.holder (Or.inr h.ost) h.num
    refine ⟨⟨{ p.d with opt := o', holder := ⟨UInt16.ofNat o.number, UInt16.ofNat o.value.length⟩ },
      { p.c with pos := p.c.pos + hdr.length }⟩, ?_, fin _ h.st rfl h.rest.adv hd⟩
    simp only [iterate, Dec.step, h.st]
    rw [h.rest.1, h.rest.2.2, e]
    simp only [beq_iff_eq, hnp, if_false, hnd]
    by_cases hc : ((p.c.pos + hdr.length == p.c.chunk.length && true) = true)
    · rw [if_pos hc]
    · rw [if_neg hc]

/-- Over the payload marker. -/
theorem Before.marker {p : Pull} {prev : Nat} {pl : List UInt8} (h : Before p prev (0xFF :: pl)) :
    ∃ q, p.iterate = .ok q ∧ AtM q pl := by
  rcases h with ⟨hs, hz, hrem, hne⟩ | h
  · have e := proc_marker { p.d.opt with st := .firstByte } ⟨0, 0⟩ pl (Or.inl rfl)
    refine ⟨⟨{ p.d with opt := { p.d.opt with st := .payload }, holder := ⟨0, 0⟩, st := .optionsDone }, { p.c with pos := p.c.pos + 1 }⟩, ?_,
      ⟨rfl, rfl, Rem.adv (a := [0xFF]) hrem⟩⟩
    have hl0 : (p.c.remainder.length == 0 && p.c.last) = false := by rw [hrem.1]; simp
    simp only [iterate, Dec.step, hs, hl0, Bool.false_eq_true, if_false]
    rw [hrem.1, hrem.2.2, e]
    simp
  · have e := proc_marker p.d.opt p.d.holder pl (Or.inr h.ost)
    refine ⟨⟨{ p.d with opt := { p.d.opt with st := .payload }, st := .optionsDone }, { p.c with pos := p.c.pos + 1 }⟩, ?_,
      ⟨rfl, rfl, Rem.adv (a := [0xFF]) h.rest⟩⟩
    simp only [iterate, Dec.step, h.st]
    rw [h.rest.1, h.rest.2.2, e]
    simp

end Verif.Proofs
