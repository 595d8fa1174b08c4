import Verif.Model.OptionGenerate
import Verif.Props.OptionEncoder

/-! # The option encoder by itself, header and value (C94) -/
namespace Verif.Props
open Verif.Model OptEnc Spec Proofs

/-! ## The value -/

/-- One byte of the value. -/
theorem value_step (base : OptBase) (cur : UInt16) (p : UInt8) (b : UInt8) (hb : base.value[p.toNat]? = some b) :
    generate ⟨.optionValue, cur, p⟩ base =
      .ok (⟨if p.toNat + 1 = base.length.toNat then .optionValueDone else .optionValue, cur, p + 1⟩, some b) := by
  simp only [generate, hb, beq_iff_eq]

theorem byteLoop_done {g f : Nat} {o : OptEnc} {base : OptBase} (h : o.st = .optionValueDone) : byteLoop g f o base = .ok (o, []) := by
  unfold byteLoop; simp [h]

theorem byteLoop_succ {g f : Nat} {o : OptEnc} {base : OptBase} (h : o.st ≠ .optionValueDone) : byteLoop g (f + 1) o base =
    (match generateByte g o base with
     | .error e => .error e
     | .ok (o, b) =>
       match byteLoop g f o base with
       | .error e => .error e
       | .ok (o, bs) => .ok (o, b :: bs)) := by
  rw [byteLoop, if_neg (by simpa using h)]
  cases generateByte g o base <;> rfl

theorem byteLoop_zero {g : Nat} {o : OptEnc} {base : OptBase} (h : o.st ≠ .optionValueDone) : byteLoop g 0 o base = .error .outOfFuel := by
  rw [byteLoop, if_neg (by simpa using h)]

theorem stepLoop_done {f : Nat} {o : OptEnc} {base : OptBase} (h : o.st = .optionValueDone) : stepLoop f o base = .ok (o, []) := by
  unfold stepLoop; simp [h]

theorem stepLoop_succ {f : Nat} {o : OptEnc} {base : OptBase} (h : o.st ≠ .optionValueDone) : stepLoop (f + 1) o base =
    (match o.generate base with
     | .error e => .error e
     | .ok (o, none) => stepLoop f o base
     | .ok (o, some b) =>
       match stepLoop f o base with
       | .error e => .error e
       | .ok (o, bs) => .ok (o, b :: bs)) := by
  rw [stepLoop, if_neg (by simpa using h)]
  rcases o.generate base with _ | ⟨_, _ | _⟩ <;> rfl

theorem stepLoop_zero {o : OptEnc} {base : OptBase} (h : o.st ≠ .optionValueDone) : stepLoop 0 o base = .error .outOfFuel := by
  rw [stepLoop, if_neg (by simpa using h)]

/-- The value from byte `i` on, if it has at most 256 bytes. -/
theorem byteLoop_value (base : OptBase) (cur : UInt16) (hl : base.value.length = base.length.toNat) (h256 : base.length.toNat ≤ 256)
    (k : Nat) : ∀ i, i + k + 1 = base.length.toNat → ∀ g f, 1 ≤ g → k + 1 ≤ f →
      byteLoop g f ⟨.optionValue, cur, UInt8.ofNat i⟩ base =
        .ok (⟨.optionValueDone, cur, UInt8.ofNat base.length.toNat⟩, base.value.drop i) := by
  induction k with
  | zero =>
    intro i hi g f hg hf
    obtain ⟨f, rfl⟩ : ∃ x, f = x + 1 := ⟨f - 1, by omega⟩
    obtain ⟨g, rfl⟩ : ∃ x, g = x + 1 := ⟨g - 1, by omega⟩
    have hp : (UInt8.ofNat i).toNat = i := by simp; omega
    have hlt : i < base.value.length := by omega
    rw [byteLoop_succ (by simp), generateByte, value_step base cur (UInt8.ofNat i) base.value[i] (by rw [hp]; simp [hlt])]
    have e : UInt8.ofNat i + 1 = UInt8.ofNat base.length.toNat := by rw [← hi]; simp
    rw [hp, if_pos (by omega)]
    simp only
    rw [byteLoop_done rfl]
    simp only [e, List.drop_eq_getElem_cons hlt, Except.ok.injEq, Prod.mk.injEq, true_and]
    rw [List.drop_of_length_le (by omega)]
  | succ k ih =>
    intro i hi g f hg hf
    obtain ⟨f, rfl⟩ : ∃ x, f = x + 1 := ⟨f - 1, by omega⟩
    obtain ⟨g, rfl⟩ : ∃ x, g = x + 1 := ⟨g - 1, by omega⟩
    have hp : (UInt8.ofNat i).toNat = i := by simp; omega
    have hlt : i < base.value.length := by omega
    rw [byteLoop_succ (by simp), generateByte, value_step base cur (UInt8.ofNat i) base.value[i] (by rw [hp]; simp [hlt])]
    rw [hp, if_neg (by omega)]
    simp only
    have e : UInt8.ofNat i + 1 = UInt8.ofNat (i + 1) := by simp
    rw [e, ih (i + 1) (by omega) (g + 1) f (by omega) (by omega)]
    simp only [List.drop_eq_getElem_cons hlt]

theorem stepLoop_value (base : OptBase) (cur : UInt16) (hl : base.value.length = base.length.toNat) (h256 : base.length.toNat ≤ 256)
    (k : Nat) : ∀ i, i + k + 1 = base.length.toNat → ∀ f, k + 1 ≤ f →
      stepLoop f ⟨.optionValue, cur, UInt8.ofNat i⟩ base =
        .ok (⟨.optionValueDone, cur, UInt8.ofNat base.length.toNat⟩, base.value.drop i) := by
  induction k with
  | zero =>
    intro i hi f hf
    obtain ⟨f, rfl⟩ : ∃ x, f = x + 1 := ⟨f - 1, by omega⟩
    have hp : (UInt8.ofNat i).toNat = i := by simp; omega
    have hlt : i < base.value.length := by omega
    rw [stepLoop_succ (by simp), value_step base cur (UInt8.ofNat i) base.value[i] (by rw [hp]; simp [hlt])]
    have e : UInt8.ofNat i + 1 = UInt8.ofNat base.length.toNat := by rw [← hi]; simp
    rw [hp, if_pos (by omega)]
    simp only
    rw [stepLoop_done rfl]
    simp only [e, List.drop_eq_getElem_cons hlt, Except.ok.injEq, Prod.mk.injEq, true_and]
    rw [List.drop_of_length_le (by omega)]
  | succ k ih =>
    intro i hi f hf
    obtain ⟨f, rfl⟩ : ∃ x, f = x + 1 := ⟨f - 1, by omega⟩
    have hp : (UInt8.ofNat i).toNat = i := by simp; omega
    have hlt : i < base.value.length := by omega
    rw [stepLoop_succ (by simp), value_step base cur (UInt8.ofNat i) base.value[i] (by rw [hp]; simp [hlt])]
    rw [hp, if_neg (by omega)]
    simp only
    have e : UInt8.ofNat i + 1 = UInt8.ofNat (i + 1) := by simp
    rw [e, ih (i + 1) (by omega) f (by omega)]
    simp only [List.drop_eq_getElem_cons hlt]

/-- A value of more than 256 bytes: the counter of eight bits never gets to its end. -/
theorem byteLoop_long (base : OptBase) (cur : UInt16) (hl : base.value.length = base.length.toNat) (h256 : 256 < base.length.toNat)
    (g : Nat) : ∀ f p, byteLoop g f ⟨.optionValue, cur, p⟩ base = .error .outOfFuel := by
  intro f
  induction f with
  | zero => intro p; exact byteLoop_zero (by simp)
  | succ f ih =>
    intro p
    rw [byteLoop_succ (by simp)]
    cases g with
    | zero => rfl
    | succ g =>
      have hp := p.toNat_lt
      have hlt : p.toNat < base.value.length := by omega
      rw [generateByte, value_step base cur p base.value[p.toNat] (by simp [hlt]), if_neg (by omega)]
      simp only [ih]

theorem stepLoop_long (base : OptBase) (cur : UInt16) (hl : base.value.length = base.length.toNat) (h256 : 256 < base.length.toNat) :
    ∀ f p, stepLoop f ⟨.optionValue, cur, p⟩ base = .error .outOfFuel := by
  intro f
  induction f with
  | zero => intro p; exact stepLoop_zero (by simp)
  | succ f ih =>
    intro p
    have hp := p.toNat_lt
    have hlt : p.toNat < base.value.length := by omega
    rw [stepLoop_succ (by simp), value_step base cur p base.value[p.toNat] (by simp [hlt]), if_neg (by omega)]
    simp only [ih]

/-! ## Header and value together -/

theorem InHdr.ne {s : OState} (h : InHdr s ∨ s = .optionLengthDone) : s ≠ .optionValueDone := by
  rintro rfl; rcases h with h | h <;> simp [InHdr] at h

/-- What `generate` gives while the header is written. -/
theorem emits_byte {base : OptBase} {o : OptEnc} {b : UInt8} {bs : List UInt8} {q : OptEnc} (h : Emits base o (b :: bs) q)
    (hi : InHdr o.st) : ∃ o1, (InHdr o1.st ∨ o1.st = .optionLengthDone) ∧ Emits base o1 bs q ∧ ∃ n, ∀ g, n ≤ g → generateByte g o base = .ok (o1, b) := by
  generalize hc : b :: bs = w at h
  induction h with
  | done hd => cases hc
  | @quiet o o' bs' q hn hg h2 ih =>
    subst hc
    obtain ⟨o2, r, e, hst, -⟩ := gen_step o base hi
    rw [hg] at e; cases e
    have hi' : InHdr o'.st := by
      rcases hst with h | h
      · exact absurd (emits_stopped h2 h).1 (by simp)
      · exact h
    obtain ⟨o1, a1, a2, n, a3⟩ := ih hi' rfl
    refine ⟨o1, a1, a2, n + 1, fun g hg' => ?_⟩
    obtain ⟨g, rfl⟩ : ∃ x, g = x + 1 := ⟨g - 1, by omega⟩
    rw [generateByte, hg]
    exact a3 g (by omega)
  | @byte o o' b' bs' q hn hg h2 ih =>
    cases hc
    obtain ⟨o2, r, e, hst, -⟩ := gen_step o base hi
    rw [hg] at e; cases e
    refine ⟨o', hst.symm, h2, 1, fun g hg' => ?_⟩
    obtain ⟨g, rfl⟩ : ∃ x, g = x + 1 := ⟨g - 1, by omega⟩
    rw [generateByte, hg]

theorem emits_quiet {base : OptBase} {o : OptEnc} {q : OptEnc} (h : Emits base o [] q) :
    ∃ n, ∀ g, generateByte (g + n) o base = generateByte g q base := by
  generalize hc : ([] : List UInt8) = w at h
  induction h with
  | done hd => exact ⟨0, fun g => rfl⟩
  | quiet hn hg h2 ih =>
    obtain ⟨n, hn⟩ := ih hc
    refine ⟨n + 1, fun g => ?_⟩
    rw [show g + (n + 1) = (g + n) + 1 by omega, generateByte, hg]
    exact hn g
  | byte hn hg h2 ih => cases hc

/-- All of an option whose value has at least one and at most 256 bytes, from within its header. -/
theorem byteLoop_emits (base : OptBase) (hl : base.value.length = base.length.toNat) (h0 : base.length.toNat ≠ 0)
    (h256 : base.length.toNat ≤ 256) (bs : List UInt8) : ∀ (o q : OptEnc), Emits base o bs q → (InHdr o.st ∨ o.st = .optionLengthDone) →
      ∃ o', o'.st = .optionValueDone ∧ o'.current = q.current ∧ ∃ n, ∀ g f, n ≤ g → n ≤ f →
        byteLoop g f o base = .ok (o', bs ++ base.value) := by
  induction bs with
  | nil =>
    intro o q he ho
    obtain ⟨n, hn⟩ := emits_quiet he
    have hq : q.st = .optionLengthDone := by
      have : ∀ {o bs q}, Emits base o bs q → q.st = .optionLengthDone := by
        intro o bs q h
        induction h with
        | done h => exact h
        | quiet _ _ _ ih => exact ih
        | byte _ _ _ ih => exact ih
      exact this he
    obtain ⟨qs, cur, pos⟩ := q
    simp only at hq; subst hq
    refine ⟨⟨.optionValueDone, cur, UInt8.ofNat base.length.toNat⟩, rfl, rfl, n + 2 + base.length.toNat, fun g f hg hf => ?_⟩
    obtain ⟨g, rfl⟩ : ∃ x, g = x + 2 + n := ⟨g - 2 - n, by omega⟩
    obtain ⟨f, rfl⟩ : ∃ x, f = x + 1 := ⟨f - 1, by omega⟩
    have hlen0 : ¬ base.length = 0 := by rw [← UInt16.toNat_inj]; simpa using h0
    have hlt : 0 < base.value.length := by omega
    have main := byteLoop_value base cur hl h256 (base.length.toNat - 1) 0 (by omega) (g + 2 + n) (f + 1) (by omega) (by omega)
    rw [byteLoop_succ (by simp)] at main
    rw [byteLoop_succ (InHdr.ne ho), hn, generateByte]
    have e : generate ⟨.optionLengthDone, cur, pos⟩ base = .ok (⟨.optionValue, cur, 0⟩, none) := by simp [generate, hlen0]
    have e2 := value_step base cur 0 base.value[0] (by simp)
    rw [e]
    simp only
    rw [generateByte, e2]
    rw [show g + 2 + n = (g + 1 + n) + 1 by omega, generateByte, show (UInt8.ofNat 0) = 0 from rfl, e2] at main
    rw [show g + 2 + n = (g + 1 + n) + 1 by omega]
    simpa using main
  | cons b bs ih =>
    intro o q he ho
    have hi : InHdr o.st := by
      rcases ho with h | h
      · exact h
      · exact absurd (emits_stopped he h).1 (by simp)
    obtain ⟨o1, a1, a2, n, a3⟩ := emits_byte he hi
    obtain ⟨o', b1, b2, m, b3⟩ := ih o1 q a2 a1
    refine ⟨o', b1, b2, n + m + 1, fun g f hg hf => ?_⟩
    obtain ⟨f, rfl⟩ : ∃ x, f = x + 1 := ⟨f - 1, by omega⟩
    rw [byteLoop_succ (InHdr.ne ho), a3 g (by omega)]
    simp only [b3 g f (by omega) (by omega)]
    rfl

/-- The same step by step; here the value may also be empty. -/
theorem stepLoop_emits (base : OptBase) (hl : base.value.length = base.length.toNat) (h256 : base.length.toNat ≤ 256)
    {o : OptEnc} {bs : List UInt8} {q : OptEnc} (he : Emits base o bs q) : (InHdr o.st ∨ o.st = .optionLengthDone) →
      ∃ o', o'.st = .optionValueDone ∧ o'.current = q.current ∧ ∃ n, ∀ f, n ≤ f → stepLoop f o base = .ok (o', bs ++ base.value) := by
  induction he with
  | @done o hd =>
    intro ho
    obtain ⟨qs, cur, pos⟩ := o
    simp only at hd; subst hd
    by_cases h0 : base.length.toNat = 0
    · have hlen0 : base.length = 0 := by rw [← UInt16.toNat_inj]; simpa using h0
      have hv : base.value = [] := List.length_eq_zero_iff.1 (by omega)
      refine ⟨⟨.optionValueDone, cur, pos⟩, rfl, rfl, 1, fun f hf => ?_⟩
      obtain ⟨f, rfl⟩ : ∃ x, f = x + 1 := ⟨f - 1, by omega⟩
      have e : generate ⟨.optionLengthDone, cur, pos⟩ base = .ok (⟨.optionValueDone, cur, pos⟩, none) := by simp [generate, hlen0]
      rw [stepLoop_succ (by simp), e]
      simp only [stepLoop_done, hv, List.append_nil]
    · have hlen0 : ¬ base.length = 0 := by rw [← UInt16.toNat_inj]; simpa using h0
      refine ⟨⟨.optionValueDone, cur, UInt8.ofNat base.length.toNat⟩, rfl, rfl, base.length.toNat + 1, fun f hf => ?_⟩
      obtain ⟨f, rfl⟩ : ∃ x, f = x + 1 := ⟨f - 1, by omega⟩
      have e : generate ⟨.optionLengthDone, cur, pos⟩ base = .ok (⟨.optionValue, cur, 0⟩, none) := by simp [generate, hlen0]
      have main := stepLoop_value base cur hl h256 (base.length.toNat - 1) 0 (by omega) f (by omega)
      rw [stepLoop_succ (by simp), e]
      simpa using main
  | @quiet o o' bs q hn hg h2 ih =>
    intro ho
    obtain ⟨o2, r, e, hst, -⟩ := gen_step o base (ho.resolve_right hn)
    rw [hg] at e; cases e
    obtain ⟨p, b1, b2, m, b3⟩ := ih hst.symm
    refine ⟨p, b1, b2, m + 1, fun f hf => ?_⟩
    obtain ⟨f, rfl⟩ : ∃ x, f = x + 1 := ⟨f - 1, by omega⟩
    rw [stepLoop_succ (InHdr.ne ho), hg]
    exact b3 f (by omega)
  | @byte o o' b bs q hn hg h2 ih =>
    intro ho
    obtain ⟨o2, r, e, hst, -⟩ := gen_step o base (ho.resolve_right hn)
    rw [hg] at e; cases e
    obtain ⟨p, b1, b2, m, b3⟩ := ih hst.symm
    refine ⟨p, b1, b2, m + 1, fun f hf => ?_⟩
    obtain ⟨f, rfl⟩ : ∃ x, f = x + 1 := ⟨f - 1, by omega⟩
    rw [stepLoop_succ (InHdr.ne ho), hg]
    simp only [b3 f (by omega)]
    rfl

/-- If the loop ends, the header was completed. -/
theorem emits_of_byteLoop (base : OptBase) (g : Nat) : ∀ (f : Nat) (o : OptEnc), (InHdr o.st ∨ o.st = .optionLengthDone) →
    ∀ x, byteLoop g f o base = .ok x → ∃ bs q, Emits base o bs q := by
  have inner : ∀ (g : Nat) (o : OptEnc), (InHdr o.st ∨ o.st = .optionLengthDone) → ∀ o' b, generateByte g o base = .ok (o', b) →
      (∃ q, Emits base o [] q) ∨ ((InHdr o'.st ∨ o'.st = .optionLengthDone) ∧ ∀ bs q, Emits base o' bs q → Emits base o (b :: bs) q) := by
    intro g
    induction g with
    | zero => intro o ho o' b h; cases h
    | succ g ih =>
      intro o ho o' b h
      by_cases hd : o.st = .optionLengthDone
      · exact Or.inl ⟨o, .done hd⟩
      · obtain ⟨o1, r, e, hst, -⟩ := gen_step o base (ho.resolve_right hd)
        rw [generateByte, e] at h
        cases r with
        | none =>
          rcases ih o1 hst.symm o' b h with ⟨q, hq⟩ | ⟨h1, h2⟩
          · exact Or.inl ⟨q, .quiet hd e hq⟩
          · exact Or.inr ⟨h1, fun bs q hq => .quiet hd e (h2 bs q hq)⟩
        | some c =>
          simp only [Except.ok.injEq, Prod.mk.injEq] at h
          obtain ⟨rfl, rfl⟩ := h
          exact Or.inr ⟨hst.symm, fun bs q hq => .byte hd e hq⟩
  intro f
  induction f with
  | zero => intro o ho x h; rw [byteLoop_zero (InHdr.ne ho)] at h; cases h
  | succ f ih =>
    intro o ho x h
    rw [byteLoop_succ (InHdr.ne ho)] at h
    cases hg : generateByte g o base with
    | error e => rw [hg] at h; cases h
    | ok r =>
      obtain ⟨o', b⟩ := r
      rw [hg] at h
      simp only at h
      rcases inner g o ho o' b hg with ⟨q, hq⟩ | ⟨h1, h2⟩
      · exact ⟨[], q, hq⟩
      · cases hb : byteLoop g f o' base with
        | error e => rw [hb] at h; cases h
        | ok y =>
          obtain ⟨bs, q, hq⟩ := ih o' h1 y hb
          exact ⟨b :: bs, q, h2 bs q hq⟩

theorem emits_of_stepLoop (base : OptBase) : ∀ (f : Nat) (o : OptEnc), (InHdr o.st ∨ o.st = .optionLengthDone) →
    ∀ x, stepLoop f o base = .ok x → ∃ bs q, Emits base o bs q := by
  intro f
  induction f with
  | zero => intro o ho x h; rw [stepLoop_zero (InHdr.ne ho)] at h; cases h
  | succ f ih =>
    intro o ho x h
    by_cases hd : o.st = .optionLengthDone
    · exact ⟨[], o, .done hd⟩
    · obtain ⟨o1, r, e, hst, -⟩ := gen_step o base (ho.resolve_right hd)
      rw [stepLoop_succ (InHdr.ne ho), e] at h
      cases r with
      | none =>
        obtain ⟨bs, q, hq⟩ := ih o1 hst.symm x h
        exact ⟨bs, q, .quiet hd e hq⟩
      | some c =>
        simp only at h
        cases hb : stepLoop f o1 base with
        | error e => rw [hb] at h; cases h
        | ok y =>
          obtain ⟨bs, q, hq⟩ := ih o1 hst.symm y hb
          exact ⟨c :: bs, q, .byte hd e hq⟩

/-- A loop that has ended gives the same result with more fuel; in particular two results agree. -/
theorem stepLoop_mono (base : OptBase) : ∀ (f k : Nat) (o : OptEnc) x, stepLoop f o base = .ok x → stepLoop (f + k) o base = .ok x := by
  intro f
  induction f with
  | zero =>
    intro k o x h
    by_cases hd : o.st = .optionValueDone
    · rw [stepLoop_done hd] at h ⊢; exact h
    · rw [stepLoop_zero hd] at h; cases h
  | succ f ih =>
    intro k o x h
    by_cases hd : o.st = .optionValueDone
    · rw [stepLoop_done hd] at h ⊢; exact h
    · rw [show f + 1 + k = (f + k) + 1 by omega]
      rw [stepLoop_succ hd] at h ⊢
      cases hg : o.generate base with
      | error e => rw [hg] at h; cases h
      | ok r =>
        obtain ⟨o', _ | b⟩ := r
        · rw [hg] at h; exact ih k o' x h
        · rw [hg] at h
          simp only at h ⊢
          cases hb : stepLoop f o' base with
          | error e => rw [hb] at h; cases h
          | ok y => rw [hb] at h; rw [ih k o' y hb]; exact h

theorem generateByte_mono (base : OptBase) : ∀ (g k : Nat) (o : OptEnc) x, generateByte g o base = .ok x → generateByte (g + k) o base = .ok x := by
  intro g
  induction g with
  | zero => intro k o x h; cases h
  | succ g ih =>
    intro k o x h
    rw [show g + 1 + k = (g + k) + 1 by omega]
    rw [generateByte] at h ⊢
    cases hg : o.generate base with
    | error e => rw [hg] at h; cases h
    | ok r =>
      obtain ⟨o', _ | b⟩ := r
      · rw [hg] at h; exact ih k o' x h
      · rw [hg] at h; exact h

theorem byteLoop_mono (base : OptBase) (g j : Nat) : ∀ (f k : Nat) (o : OptEnc) x, byteLoop g f o base = .ok x →
    byteLoop (g + j) (f + k) o base = .ok x := by
  intro f
  induction f with
  | zero =>
    intro k o x h
    by_cases hd : o.st = .optionValueDone
    · rw [byteLoop_done hd] at h ⊢; exact h
    · rw [byteLoop_zero hd] at h; cases h
  | succ f ih =>
    intro k o x h
    by_cases hd : o.st = .optionValueDone
    · rw [byteLoop_done hd] at h ⊢; exact h
    · rw [show f + 1 + k = (f + k) + 1 by omega]
      rw [byteLoop_succ hd] at h ⊢
      cases hg : generateByte g o base with
      | error e => rw [hg] at h; cases h
      | ok r =>
        rw [generateByte_mono base g j o r hg]
        rw [hg] at h
        simp only at h ⊢
        cases hb : byteLoop g f r.1 base with
        | error e => rw [hb] at h; cases h
        | ok y => rw [hb] at h; rw [ih k r.1 y hb]; exact h

/-! ## The claims -/

/-- C94 fails for an empty value: the loop over `generate`, as the unit tests write it, never ends, for every option number and
every state of the encoder. -/
theorem alone_empty_endless (o : OptEnc) (base : OptBase) (h0 : base.length = 0) (g f : Nat) :
    byteLoop g f o.next base = .error .outOfFuel := by
  have inner : ∀ (g : Nat) (o : OptEnc), (InHdr o.st ∨ o.st = .optionLengthDone ∨ o.st = .optionValueDone ∨ o.st = .optionDone) →
      generateByte g o base = .error .outOfFuel ∨ ∃ o' b, generateByte g o base = .ok (o', b) ∧ (InHdr o'.st ∨ o'.st = .optionLengthDone) := by
    intro g
    induction g with
    | zero => intro o _; exact Or.inl rfl
    | succ g ih =>
      intro o ho
      rcases ho with ho | ho | ho | ho
      · obtain ⟨o1, r, e, hst, -⟩ := gen_step o base ho
        rw [generateByte, e]
        cases r with
        | none => exact ih o1 (hst.symm.imp_right Or.inl)
        | some b => exact Or.inr ⟨o1, b, rfl, hst.symm⟩
      · have e : o.generate base = .ok ({ o with st := .optionValueDone }, none) := by simp [generate, ho, h0]
        rw [generateByte, e]
        exact ih _ (by simp)
      · have e : o.generate base = .ok ({ o with st := .optionDone }, none) := by simp [generate, ho]
        rw [generateByte, e]
        exact ih _ (by simp)
      · have e : o.generate base = .ok (o, none) := by simp [generate, ho]
        rw [generateByte, e]
        exact ih _ (by simp [ho])
  suffices h : ∀ (f : Nat) (o : OptEnc), (InHdr o.st ∨ o.st = .optionLengthDone) → byteLoop g f o base = .error .outOfFuel from
    h f o.next (Or.inl trivial)
  intro f
  induction f with
  | zero => intro o ho; exact byteLoop_zero (InHdr.ne ho)
  | succ f ih =>
    intro o ho
    rw [byteLoop_succ (InHdr.ne ho)]
    rcases inner g o (ho.imp_right Or.inl) with h | ⟨o', b, h, ho'⟩
    · rw [h]
    · rw [h]
      simp only [ih o' ho']

/-- C94 fails for a value of more than 256 bytes: neither loop ever ends, whatever the option number. -/
theorem alone_long_endless (o : OptEnc) (base : OptBase) (hl : base.value.length = base.length.toNat) (h : 256 < base.length.toNat)
    (g f : Nat) : byteLoop g f o.next base = .error .outOfFuel ∧ stepLoop f o.next base = .error .outOfFuel := by
  have hlen0 : ¬ base.length = 0 := by intro hc; rw [hc] at h; simp at h
  have step : ∀ o : OptEnc, (InHdr o.st ∨ o.st = .optionLengthDone ∨ o.st = .optionValue) →
      ∃ o' r, o.generate base = .ok (o', r) ∧ (InHdr o'.st ∨ o'.st = .optionLengthDone ∨ o'.st = .optionValue) := by
    intro o ho
    rcases ho with ho | ho | ho
    · obtain ⟨o1, r, e, hst, -⟩ := gen_step o base ho
      exact ⟨o1, r, e, hst.symm.imp_right Or.inl⟩
    · exact ⟨{ o with pos := 0, st := .optionValue }, none, by simp [generate, ho, hlen0], by simp⟩
    · obtain ⟨st, cur, p⟩ := o
      simp only at ho; subst ho
      have hp := p.toNat_lt
      have hlt : p.toNat < base.value.length := by omega
      exact ⟨_, _, value_step base cur p base.value[p.toNat] (by simp [hlt]), by simp only; rw [if_neg (by omega)]; simp⟩
  have hne : ∀ {s : OState}, (InHdr s ∨ s = .optionLengthDone ∨ s = .optionValue) → s ≠ .optionValueDone := by
    rintro s h rfl; rcases h with h | h | h <;> simp [InHdr] at h
  have inner : ∀ (g : Nat) (o : OptEnc), (InHdr o.st ∨ o.st = .optionLengthDone ∨ o.st = .optionValue) →
      generateByte g o base = .error .outOfFuel ∨
      ∃ o' b, generateByte g o base = .ok (o', b) ∧ (InHdr o'.st ∨ o'.st = .optionLengthDone ∨ o'.st = .optionValue) := by
    intro g
    induction g with
    | zero => intro o _; exact Or.inl rfl
    | succ g ih =>
      intro o ho
      obtain ⟨o1, r, e, hst⟩ := step o ho
      rw [generateByte, e]
      cases r with
      | none => exact ih o1 hst
      | some b => exact Or.inr ⟨o1, b, rfl, hst⟩
  constructor
  · suffices h : ∀ (f : Nat) (o : OptEnc), (InHdr o.st ∨ o.st = .optionLengthDone ∨ o.st = .optionValue) →
        byteLoop g f o base = .error .outOfFuel from h f o.next (Or.inl trivial)
    intro f
    induction f with
    | zero => intro o ho; exact byteLoop_zero (hne ho)
    | succ f ih =>
      intro o ho
      rw [byteLoop_succ (hne ho)]
      rcases inner g o ho with h | ⟨o', b, h, ho'⟩
      · rw [h]
      · rw [h]
        simp only [ih o' ho']
  · suffices h : ∀ (f : Nat) (o : OptEnc), (InHdr o.st ∨ o.st = .optionLengthDone ∨ o.st = .optionValue) →
        stepLoop f o base = .error .outOfFuel from h f o.next (Or.inl trivial)
    intro f
    induction f with
    | zero => intro o ho; exact stepLoop_zero (hne ho)
    | succ f ih =>
      intro o ho
      obtain ⟨o1, r, e, hst⟩ := step o ho
      rw [stepLoop_succ (hne ho), e]
      cases r with
      | none => exact ih o1 hst
      | some b => simp only [ih o1 hst]

/-- An option as the encoder takes it. -/
def asBase (o : Opt) : OptBase := ⟨UInt16.ofNat o.number, UInt16.ofNat o.value.length, o.value⟩

/-- C94 with its exact extent, for the loop over `generate`: the option of RFC 7252 is produced and the loop ends precisely if the
value has 1 to 256 bytes and the header is one of those that C20 allows. -/
theorem alone_bytes_iff (prev : Nat) (x : Opt) (hn : prev ≤ x.number) (hn2 : x.number < 65536) (hl : x.value.length < 65536)
    (o : OptEnc) (hcur : o.current = UInt16.ofNat prev) :
    (∃ g f o', byteLoop g f o.next (asBase x) = .ok (o', optHeader (x.number - prev) x.value.length ++ x.value)) ↔
      HeaderOk (x.number - prev) x.value.length ∧ 1 ≤ x.value.length ∧ x.value.length ≤ 256 := by
  have hlt : (asBase x).length.toNat = x.value.length := by simp [asBase]; omega
  have hlv : (asBase x).value.length = (asBase x).length.toNat := by rw [hlt]; rfl
  obtain ⟨st, cur, pos⟩ := o
  simp only at hcur; subst hcur
  have hi := emits_iff (asBase x) (UInt16.ofNat prev) pos
  rw [hlt, show (asBase x).number = UInt16.ofNat x.number from rfl, sub_ofNat hn hn2] at hi
  rw [← hi]
  constructor
  · rintro ⟨g, f, o', h⟩
    by_cases h0 : x.value.length = 0
    · rw [alone_empty_endless _ _ (by apply UInt16.toNat_inj.1; rw [hlt, h0]; rfl)] at h; cases h
    by_cases h256 : x.value.length ≤ 256
    · obtain ⟨bs, q, hq⟩ := emits_of_byteLoop (asBase x) g f ⟨.firstByte, UInt16.ofNat prev, pos⟩ (Or.inl trivial) _ h
      obtain ⟨o1, -, -, n, h1⟩ := byteLoop_emits (asBase x) hlv (by omega) (by omega) bs _ q hq (Or.inl trivial)
      have h2 := byteLoop_mono (asBase x) g n f n ⟨.firstByte, UInt16.ofNat prev, pos⟩ _ h
      rw [h1 (g + n) (f + n) (by omega) (by omega)] at h2
      simp only [Except.ok.injEq, Prod.mk.injEq] at h2
      have hb : bs = optHeader (x.number - prev) x.value.length := List.append_cancel_right h2.2
      exact ⟨⟨q, hb ▸ hq⟩, by omega, h256⟩
    · rw [(alone_long_endless _ _ hlv (by omega) g f).1] at h; cases h
  · rintro ⟨⟨q, hq⟩, h1, h2⟩
    obtain ⟨o1, -, -, n, h3⟩ := byteLoop_emits (asBase x) hlv (by omega) (by omega) _ _ q hq (Or.inl trivial)
    exact ⟨n, n, o1, h3 n n (by omega) (by omega)⟩

/-- The same for the loop over `generate_iterate`: an empty value is written, too. -/
theorem alone_steps_iff (prev : Nat) (x : Opt) (hn : prev ≤ x.number) (hn2 : x.number < 65536) (hl : x.value.length < 65536)
    (o : OptEnc) (hcur : o.current = UInt16.ofNat prev) :
    (∃ f o', stepLoop f o.next (asBase x) = .ok (o', optHeader (x.number - prev) x.value.length ++ x.value)) ↔
      HeaderOk (x.number - prev) x.value.length ∧ x.value.length ≤ 256 := by
  have hlt : (asBase x).length.toNat = x.value.length := by simp [asBase]; omega
  have hlv : (asBase x).value.length = (asBase x).length.toNat := by rw [hlt]; rfl
  obtain ⟨st, cur, pos⟩ := o
  simp only at hcur; subst hcur
  have hi := emits_iff (asBase x) (UInt16.ofNat prev) pos
  rw [hlt, show (asBase x).number = UInt16.ofNat x.number from rfl, sub_ofNat hn hn2] at hi
  rw [← hi]
  constructor
  · rintro ⟨f, o', h⟩
    by_cases h256 : x.value.length ≤ 256
    · obtain ⟨bs, q, hq⟩ := emits_of_stepLoop (asBase x) f ⟨.firstByte, UInt16.ofNat prev, pos⟩ (Or.inl trivial) _ h
      obtain ⟨o1, -, -, n, h1⟩ := stepLoop_emits (asBase x) hlv (by omega) hq (Or.inl trivial)
      have h2 := stepLoop_mono (asBase x) f n ⟨.firstByte, UInt16.ofNat prev, pos⟩ _ h
      rw [h1 (f + n) (by omega)] at h2
      simp only [Except.ok.injEq, Prod.mk.injEq] at h2
      have hb : bs = optHeader (x.number - prev) x.value.length := List.append_cancel_right h2.2
      exact ⟨⟨q, hb ▸ hq⟩, h256⟩
    · rw [(alone_long_endless _ _ hlv (by omega) 0 f).2] at h; cases h
  · rintro ⟨⟨q, hq⟩, h2⟩
    obtain ⟨o1, -, -, n, h3⟩ := stepLoop_emits (asBase x) hlv (by omega) hq (Or.inl trivial)
    exact ⟨n, o1, h3 n (by omega)⟩

/-- All options of the list, counted from `prev`, have headers that C20 allows and values of at least `lo` and at most 256 bytes. -/
def AloneOk (lo : Nat) : Nat → List Opt → Prop
  | _, [] => True
  | prev, x :: xs => prev ≤ x.number ∧ x.number < 65536 ∧ HeaderOk (x.number - prev) x.value.length ∧ lo ≤ x.value.length ∧
      x.value.length ≤ 256 ∧ AloneOk lo x.number xs

instance (lo : Nat) : (prev : Nat) → (xs : List Opt) → Decidable (AloneOk lo prev xs)
  | _, [] => isTrue trivial
  | _, x :: xs =>
    have : Decidable (AloneOk lo x.number xs) := instDecidableAloneOk lo x.number xs
    inferInstanceAs (Decidable (_ ∧ _ ∧ _ ∧ _ ∧ _ ∧ _))

/-- C94 (partial: the range of headers and lengths, see `alone_bytes_iff`): any number of options, one after the other with one
encoder, give the bytes of RFC 7252. -/
theorem alone_options_partial (xs : List Opt) : ∀ (prev : Nat) (o : OptEnc), o.current = UInt16.ofNat prev → AloneOk 1 prev xs →
    ∃ n o', ∀ g f, n ≤ g → n ≤ f → optionsWith (byteLoop g f) o (xs.map asBase) = .ok (o', encOpts prev xs) := by
  induction xs with
  | nil => intro prev o _ _; exact ⟨0, o, fun _ _ _ _ => rfl⟩
  | cons x xs ih =>
    rintro prev ⟨st, cur, pos⟩ hcur ⟨h1, h2, h3, h4, h5, h6⟩
    simp only at hcur; subst hcur
    have hlt : (asBase x).length.toNat = x.value.length := by simp [asBase]; omega
    have hi := emits_iff (asBase x) (UInt16.ofNat prev) pos
    rw [hlt, show (asBase x).number = UInt16.ofNat x.number from rfl, sub_ofNat h1 h2] at hi
    obtain ⟨q, hq⟩ := hi.2 h3
    obtain ⟨o1, -, b2, n, b3⟩ := byteLoop_emits (asBase x) (by rw [hlt]; rfl) (by omega) (by omega) _ _ q hq (Or.inl trivial)
    have hc : o1.current = UInt16.ofNat x.number := by rw [b2]; exact (emits_current hq (Or.inl trivial) (by simp)).2
    obtain ⟨m, o', hm⟩ := ih x.number o1 hc h6
    refine ⟨n + m, o', fun g f hg hf => ?_⟩
    have b4 := b3 g f (by omega) (by omega)
    rw [List.map_cons, optionsWith, show (⟨st, UInt16.ofNat prev, pos⟩ : OptEnc).next = ⟨.firstByte, UInt16.ofNat prev, pos⟩ from rfl, b4]
    simp only [hm g f (by omega) (by omega), encOpts]
    rfl

/-- The same step by step, empty values included. -/
theorem alone_options_steps_partial (xs : List Opt) : ∀ (prev : Nat) (o : OptEnc), o.current = UInt16.ofNat prev → AloneOk 0 prev xs →
    ∃ n o', ∀ f, n ≤ f → optionsWith (stepLoop f) o (xs.map asBase) = .ok (o', encOpts prev xs) := by
  induction xs with
  | nil => intro prev o _ _; exact ⟨0, o, fun _ _ => rfl⟩
  | cons x xs ih =>
    rintro prev ⟨st, cur, pos⟩ hcur ⟨h1, h2, h3, h4, h5, h6⟩
    simp only at hcur; subst hcur
    have hlt : (asBase x).length.toNat = x.value.length := by simp [asBase]; omega
    have hi := emits_iff (asBase x) (UInt16.ofNat prev) pos
    rw [hlt, show (asBase x).number = UInt16.ofNat x.number from rfl, sub_ofNat h1 h2] at hi
    obtain ⟨q, hq⟩ := hi.2 h3
    obtain ⟨o1, -, b2, n, b3⟩ := stepLoop_emits (asBase x) (by rw [hlt]; rfl) (by omega) hq (Or.inl trivial)
    have hc : o1.current = UInt16.ofNat x.number := by rw [b2]; exact (emits_current hq (Or.inl trivial) (by simp)).2
    obtain ⟨m, o', hm⟩ := ih x.number o1 hc h6
    refine ⟨n + m, o', fun f hf => ?_⟩
    have b4 := b3 f (by omega)
    rw [List.map_cons, optionsWith, show (⟨st, UInt16.ofNat prev, pos⟩ : OptEnc).next = ⟨.firstByte, UInt16.ofNat prev, pos⟩ from rfl, b4]
    simp only [hm f (by omega), encOpts]
    rfl

/-- What is produced for a value that is too long: behind the header the first 256 bytes of the value, again and again. -/
theorem alone_long_repeats (prev : Nat) (x : Opt) (hn : prev ≤ x.number) (hn2 : x.number < 65536) (hl : x.value.length < 65536)
    (hok : HeaderOk (x.number - prev) x.value.length) (h256 : 256 < x.value.length)
    (o : OptEnc) (hcur : o.current = UInt16.ofNat prev) (n : Nat) :
    ∃ k, ∀ g, k ≤ g → firstBytes g ((optHeader (x.number - prev) x.value.length).length + n) o.next (asBase x) =
      .ok (optHeader (x.number - prev) x.value.length ++ (List.range n).map (fun i => x.value.getD (i % 256) 0)) := by
  have hlt : (asBase x).length.toNat = x.value.length := by simp [asBase]; omega
  obtain ⟨st, cur, pos⟩ := o
  simp only at hcur; subst hcur
  have hi := emits_iff (asBase x) (UInt16.ofNat prev) pos
  rw [hlt, show (asBase x).number = UInt16.ofNat x.number from rfl, sub_ofNat hn hn2] at hi
  obtain ⟨q, hq⟩ := hi.2 hok
  generalize optHeader (x.number - prev) x.value.length = hdr at hq
  -- the value from byte `i` on
  have val : ∀ (n i : Nat) (cur : UInt16) (g : Nat), 1 ≤ g → firstBytes g n ⟨.optionValue, cur, UInt8.ofNat i⟩ (asBase x) =
      .ok ((List.range n).map fun j => x.value.getD ((i + j) % 256) 0) := by
    intro n
    induction n with
    | zero => intro i cur g _; rfl
    | succ n ih =>
      intro i cur g hg
      obtain ⟨g, rfl⟩ : ∃ y, g = y + 1 := ⟨g - 1, by omega⟩
      have hp : (UInt8.ofNat i).toNat = i % 256 := by simp
      have hlt' : i % 256 < x.value.length := by have := Nat.mod_lt i (show 0 < 256 by omega); omega
      rw [firstBytes, generateByte, value_step (asBase x) cur (UInt8.ofNat i) x.value[i % 256] (by rw [hp]; simp [asBase, hlt']), hp,
        if_neg (by rw [hlt]; omega)]
      simp only
      have e : UInt8.ofNat i + 1 = UInt8.ofNat (i + 1) := by simp
      rw [e, ih (i + 1) cur (g + 1) (by omega), List.range_succ_eq_map]
      simp only [List.map_cons, List.map_map, Nat.add_zero, Except.ok.injEq]
      refine List.cons_eq_cons.2 ⟨by simp [List.getD_eq_getElem?_getD, hlt'], ?_⟩
      apply List.map_congr_left
      intro j _
      simp only [Function.comp_apply]
      rw [show i + 1 + j = i + j.succ by omega]
  suffices h : ∀ (bs : List UInt8) (o q : OptEnc), Emits (asBase x) o bs q → (InHdr o.st ∨ o.st = .optionLengthDone) →
      ∃ k, ∀ g, k ≤ g → firstBytes g (bs.length + n) o (asBase x) = .ok (bs ++ (List.range n).map fun i => x.value.getD (i % 256) 0) from
    h hdr _ q hq (Or.inl trivial)
  intro bs
  induction bs with
  | nil =>
    intro o q he _
    obtain ⟨m, hm⟩ := emits_quiet he
    have hqs : ∀ {o bs q}, Emits (asBase x) o bs q → q.st = .optionLengthDone := by
      intro o bs q h
      induction h with
      | done h => exact h
      | quiet _ _ _ ih => exact ih
      | byte _ _ _ ih => exact ih
    have hqd := hqs he
    obtain ⟨qs, cur, qp⟩ := q
    simp only at hqd; subst hqd
    have hlen0 : ¬ (asBase x).length = 0 := by intro hc; rw [hc] at hlt; simp at hlt; omega
    have e : generate ⟨.optionLengthDone, cur, qp⟩ (asBase x) = .ok (⟨.optionValue, cur, 0⟩, none) := by simp [generate, hlen0]
    refine ⟨m + 2, fun g hg => ?_⟩
    cases n with
    | zero => rfl
    | succ n =>
      obtain ⟨g, rfl⟩ : ∃ y, g = y + 2 + m := ⟨g - 2 - m, by omega⟩
      have v := val (n + 1) 0 cur (g + 2 + m) (by omega)
      rw [show UInt8.ofNat 0 = 0 from rfl] at v
      have hlt0 : 0 < x.value.length := by omega
      have e2 := value_step (asBase x) cur 0 x.value[0] (by simp [asBase])
      simp only [Nat.zero_add] at v
      rw [List.length_nil, Nat.zero_add, firstBytes, hm, generateByte, e]
      simp only
      rw [firstBytes, show g + 2 + m = (g + 1 + m) + 1 by omega, generateByte, e2] at v
      rw [generateByte, e2, show g + 2 + m = (g + 1 + m) + 1 by omega]
      simpa using v
  | cons b bs ih =>
    intro o q he ho
    have hi : InHdr o.st := by
      rcases ho with h | h
      · exact h
      · exact absurd (emits_stopped he h).1 (by simp)
    obtain ⟨o1, a1, a2, m, a3⟩ := emits_byte he hi
    obtain ⟨k, hk⟩ := ih o1 q a2 a1
    refine ⟨m + k, fun g hg => ?_⟩
    rw [List.length_cons, show bs.length + 1 + n = (bs.length + n) + 1 by omega, firstBytes, a3 g (by omega)]
    simp only [hk g (by omega)]
    rfl

-- a header that is right although the value has 282 bytes
example : HeaderOk 11 282 := by decide
-- two path segments, an empty Observe and a large number
example : AloneOk 1 0 [⟨11, [116, 101, 115, 116]⟩, ⟨11, [97]⟩, ⟨10000, [1, 2, 3]⟩] ∧ AloneOk 0 0 [⟨6, []⟩, ⟨11, [97]⟩] := by decide
example : (optionsWith (byteLoop 9 9) OptEnc.init ([⟨11, [116, 101]⟩, ⟨11, [97]⟩, ⟨10000, [1]⟩].map asBase)).map (·.2) =
    .ok [0xB2, 116, 101, 0x01, 97, 0xE1, 0x25, 0xF8, 1] := by decide +kernel

end Verif.Props
