import Verif.Model.NetBufEncoder
import Verif.Proofs.OptionHeader

/-! # Runs of `option_header` of the buffer encoder -/
namespace Verif.Proofs
open Verif.Model OptEnc NEnc Spec

/-- States on the way to the end of an option header. -/
def OnWay (s : OState) : Prop := InHdr s ∨ s = .optionLengthDone

def nrank : OState → Nat
  | .firstByte => 5 | .firstByteDone => 4 | .optionDelta => 3 | .optionDeltaDone => 2
  | .optionDeltaAndLengthDone => 2 | .optionLength => 1 | .optionLengthDone => 1 | _ => 0

theorem nrank_le (s : OState) : nrank s ≤ 5 := by cases s <;> simp [nrank]

theorem doneState_not_onWay (l : UInt16) : ¬ OnWay (doneState l) := by
  unfold doneState; split <;> simp [OnWay, InHdr]

theorem OnWay.ne_done {s : OState} {l : UInt16} (h : OnWay s) : s ≠ doneState l := by
  rintro rfl; exact doneState_not_onWay l h

theorem OnWay.fresh_eq {o : OptEnc} (h : OnWay o.st) :
    (if o.st == .firstByte || o.st == .optionDone then o.next else o) = o := by
  obtain ⟨st, c, p⟩ := o
  cases st <;> simp [OnWay, InHdr] at h <;> simp [next]

theorem nstep (o : OptEnc) (base : OptBase) (h : OnWay o.st) :
    ∃ o' r, o.generate base = .ok (o', r) ∧ (o'.st = doneState base.length ∨ OnWay o'.st) ∧
      nrank o'.st ≤ nrank o.st ∧ (r = none → nrank o'.st < nrank o.st) := by
  rcases h with h | h
  · obtain ⟨o', r, h1, h2, h3, h4⟩ := gen_step o base h
    refine ⟨o', r, h1, Or.inr h2.symm, ?_, ?_⟩
    · rcases h2 with h2 | h2
      · rw [h2]; generalize o.st = s at h; cases s <;> simp [InHdr] at h <;> simp [nrank]
      · revert h3; generalize o.st = s at h; generalize o'.st = s' at h2
        cases s <;> simp [InHdr] at h <;> cases s' <;> simp [InHdr] at h2 <;> simp [nrank, erank]
    · intro hr
      have := h4 hr
      rcases h2 with h2 | h2
      · revert this; rw [h2]; generalize o.st = s at h; cases s <;> simp [InHdr] at h <;> simp [nrank, erank]
      · revert this; generalize o.st = s at h; generalize o'.st = s' at h2
        cases s <;> simp [InHdr] at h <;> cases s' <;> simp [InHdr] at h2 <;> simp [nrank, erank]
  · obtain ⟨st, c, p⟩ := o
    simp only at h; subst h
    by_cases hl : base.length = 0
    · exact ⟨⟨.optionValueDone, c, p⟩, none, by simp [generate, hl], by simp [doneState, hl], by simp [nrank], by simp [nrank]⟩
    · have : base.length > 0 := by
        rw [gt_iff_lt, UInt16.lt_iff_toNat_lt]
        have : base.length.toNat ≠ 0 := fun h => hl (UInt16.toNat_inj.1 h)
        simp; omega
      exact ⟨⟨.optionValue, c, 0⟩, none, by simp [generate, hl], by simp [doneState, this], by simp [nrank], by simp [nrank]⟩

/-- One call of `option_header` with room `n`. -/
inductive NRun (base : OptBase) : OptEnc → Nat → List UInt8 → OptEnc → Prop
  | stop {o n} : o.st = doneState base.length ∨ n = 0 → NRun base o n [] o
  | quiet {o o' n bs p} : o.st ≠ doneState base.length → o.generate base = .ok (o', none) →
      NRun base o' (n + 1) bs p → NRun base o (n + 1) bs p
  | byte {o o' n b bs p} : o.st ≠ doneState base.length → o.generate base = .ok (o', some b) →
      NRun base o' n bs p → NRun base o (n + 1) (b :: bs) p

theorem NRun.loop {base o n bs p} (h : NRun base o n bs p) (ho : OnWay o.st ∨ o.st = doneState base.length) (f : Nat)
    (hf : n + nrank o.st < f) (acc : List UInt8) :
    headerLoop base (doneState base.length) f o n acc = .ok (p, acc ++ bs) := by
  induction h generalizing f acc with
  | @stop o n hs =>
    obtain ⟨f, rfl⟩ : ∃ g, f = g + 1 := ⟨f - 1, by omega⟩
    rw [headerLoop, if_neg (by rcases hs with hs | hs <;> simp [hs])]; simp
  | @quiet o o' n bs p hs hg h2 ih =>
    obtain ⟨f, rfl⟩ : ∃ g, f = g + 1 := ⟨f - 1, by omega⟩
    obtain ⟨o1, r, e, h3, h4, h5⟩ := nstep o base (ho.resolve_right hs)
    rw [hg] at e; cases e
    have := h5 rfl
    rw [headerLoop, if_pos (by simp [hs]), hg]
    exact ih h3.symm f (by omega) acc
  | @byte o o' n b bs p hs hg h2 ih =>
    obtain ⟨f, rfl⟩ : ∃ g, f = g + 1 := ⟨f - 1, by omega⟩
    obtain ⟨o1, r, e, h3, h4, h5⟩ := nstep o base (ho.resolve_right hs)
    rw [hg] at e; cases e
    rw [headerLoop, if_pos (by simp [hs]), hg]
    simpa using ih h3.symm f (by omega) (acc ++ [b])

theorem NRun.total (base : OptBase) (k : Nat) (o : OptEnc) (n : Nat) (hk : n + nrank o.st ≤ k)
    (ho : OnWay o.st ∨ o.st = doneState base.length) :
    ∃ bs p, NRun base o n bs p ∧ (OnWay p.st ∨ p.st = doneState base.length) ∧ bs.length ≤ n ∧
      (p.st ≠ doneState base.length → bs.length = n) := by
  induction k generalizing o n with
  | zero =>
    have : n = 0 := by omega
    exact ⟨[], o, .stop (Or.inr this), ho, by simp, fun _ => by simp [this]⟩
  | succ k ih =>
    by_cases hs : o.st = doneState base.length
    · exact ⟨[], o, .stop (Or.inl hs), ho, by simp, fun h => absurd hs h⟩
    · cases n with
      | zero => exact ⟨[], o, .stop (Or.inr rfl), ho, by simp, fun _ => rfl⟩
      | succ n =>
        obtain ⟨o', r, hg, h3, h4, h5⟩ := nstep o base (ho.resolve_right hs)
        cases r with
        | none =>
          obtain ⟨bs, p, e1, e2, e3, e4⟩ := ih o' (n + 1) (by have := h5 rfl; omega) h3.symm
          exact ⟨bs, p, .quiet hs hg e1, e2, e3, e4⟩
        | some b =>
          obtain ⟨bs, p, e1, e2, e3, e4⟩ := ih o' n (by omega) h3.symm
          exact ⟨b :: bs, p, .byte hs hg e1, e2, by simp; omega, fun h => by simp [e4 h]⟩

theorem NRun.finished {base o n bs p} (h : NRun base o n bs p) (hp : p.st = doneState base.length) (m : Nat) :
    NRun base o (n + m) bs p := by
  induction h with
  | stop _ => exact .stop (Or.inl hp)
  | @quiet o o' n bs p hs hg h2 ih =>
    have := ih hp
    rw [show n + 1 + m = (n + m) + 1 by omega] at this ⊢
    exact .quiet hs hg this
  | @byte o o' n b bs p hs hg h2 ih =>
    rw [show n + 1 + m = (n + m) + 1 by omega]
    exact .byte hs hg (ih hp)

theorem NRun.append {base o n bs p m bs2 q} (h : NRun base o n bs p) (hp : p.st ≠ doneState base.length)
    (h2 : NRun base p m bs2 q) : NRun base o (n + m) (bs ++ bs2) q := by
  induction h with
  | @stop o n hs =>
    have : n = 0 := hs.resolve_left hp
    subst this; simpa using h2
  | @quiet o o' n bs p hs hg h3 ih =>
    have := ih hp h2
    rw [show n + 1 + m = (n + m) + 1 by omega] at this ⊢
    exact .quiet hs hg this
  | @byte o o' n b bs p hs hg h3 ih =>
    rw [show n + 1 + m = (n + m) + 1 by omega]
    exact .byte hs hg (ih hp h2)

/-- A header that is emitted completely: the call reports success if there is at least one byte to spare. -/
theorem nrun_of_emits {base o bs p} (h : Emits base o bs p) (n : Nat) (hn : bs.length < n) (ho : OnWay o.st) :
    ∃ q, q.st = doneState base.length ∧ q.current = p.current ∧ NRun base o n bs q := by
  induction h generalizing n with
  | @done o hd =>
    obtain ⟨n, rfl⟩ : ∃ g, n = g + 1 := ⟨n - 1, by simp at hn; omega⟩
    obtain ⟨st, c, k⟩ := o
    simp only at hd; subst hd
    by_cases hl : base.length = 0
    · refine ⟨⟨.optionValueDone, c, k⟩, by simp [doneState, hl], rfl, ?_⟩
      exact .quiet (by simp [doneState, hl]) (o' := ⟨.optionValueDone, c, k⟩) (by simp [generate, hl])
        (.stop (Or.inl (by simp [doneState, hl])))
    · have : base.length > 0 := by
        rw [gt_iff_lt, UInt16.lt_iff_toNat_lt]
        have : base.length.toNat ≠ 0 := fun h => hl (UInt16.toNat_inj.1 h)
        simp; omega
      refine ⟨⟨.optionValue, c, 0⟩, by simp [doneState, this], rfl, ?_⟩
      exact .quiet (by simp [doneState, this]) (o' := ⟨.optionValue, c, 0⟩) (by simp [generate, hl])
        (.stop (Or.inl (by simp [doneState, this])))
  | @quiet o o' bs o'' hn' hg h2 ih =>
    obtain ⟨n, rfl⟩ : ∃ g, n = g + 1 := ⟨n - 1, by omega⟩
    obtain ⟨o1, r, e, h3, -⟩ := gen_step o base (ho.resolve_right hn')
    rw [hg] at e; cases e
    obtain ⟨q, q1, q2, q3⟩ := ih (n + 1) hn h3.symm
    exact ⟨q, q1, q2, .quiet ho.ne_done hg q3⟩
  | @byte o o' b bs o'' hn' hg h2 ih =>
    obtain ⟨n, rfl⟩ : ∃ g, n = g + 1 := ⟨n - 1, by omega⟩
    obtain ⟨o1, r, e, h3, -⟩ := gen_step o base (ho.resolve_right hn')
    rw [hg] at e; cases e
    obtain ⟨q, q1, q2, q3⟩ := ih n (by simp at hn; omega) h3.symm
    exact ⟨q, q1, q2, .byte ho.ne_done hg q3⟩

/-- One call of `option_header` in terms of `NRun`. -/
theorem optionHeader_run {s : NEnc} {number length : UInt16} {bs : List UInt8} {p : OptEnc} {o : OptEnc}
    (ho : (if s.oe.st == .firstByte || s.oe.st == .optionDone then s.oe.next else s.oe) = o)
    (hw : OnWay o.st ∨ o.st = doneState length) (h : NRun ⟨number, length, []⟩ o s.room bs p) (f : Nat) (hf : s.room + 6 ≤ f) :
    s.optionHeader f number length =
      .ok ({ s with oe := p, out := s.out ++ bs, room := s.room - bs.length }, p.st == doneState length) := by
  have := nrank_le o.st
  have hl := h.loop hw f (by omega) []
  simp only [optionHeader, ho]
  rw [hl]; simp

end Verif.Proofs
