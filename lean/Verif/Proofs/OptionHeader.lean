import Verif.Proofs.OptionEncoder

/-! # What the option encoder emits for a given delta and length -/
namespace Verif.Proofs
open Verif.Model OptEnc SEnc Spec

theorem lt16 (v : UInt16) (n : Nat) (h : n < 65536) : v < UInt16.ofNat n ↔ v.toNat < n := by
  rw [UInt16.lt_iff_toNat_lt]; simp [Nat.mod_eq_of_lt h]

theorem helper_lit {v : UInt16} (h : v.toNat < 13) (p : UInt8) : (helper v p).toNat = v.toNat := by
  have : v < 13 := (lt16 v 13 (by omega)).2 h
  simp [helper, this]; omega

theorem helper_8 {v : UInt16} (h : 13 ≤ v.toNat) (h2 : v.toNat < 242) :
    helper v 0 = 13 ∧ (helper v 1).toNat = v.toNat - 13 ∧ ∀ p, 2 ≤ p.toNat → helper v p = 255 := by
  have a : ¬ v < 13 := by rw [show (13 : UInt16) = UInt16.ofNat 13 from rfl, lt16 v 13 (by omega)]; omega
  have b : v < 242 := (lt16 v 242 (by omega)).2 h2
  refine ⟨by simp [helper, a, b], ?_, ?_⟩
  · have e : helper v 1 = (v - 13).toUInt8 := by simp [helper, a, b]
    rw [e, UInt16.toNat_toUInt8, UInt16.toNat_sub]; simp; omega
  · intro p hp
    have h0 : p ≠ 0 := by rintro rfl; simp at hp
    have h1 : p ≠ 1 := by rintro rfl; simp at hp
    simp [helper, a, b, h0, h1]

theorem helper_16 {v : UInt16} (h : 242 ≤ v.toNat) (h2 : v.toNat < 65266) :
    helper v 0 = 14 ∧ (helper v 1).toNat = (v.toNat + 65267) % 65536 / 256 ∧
    (helper v 2).toNat = (v.toNat + 65267) % 256 ∧ ∀ p, 3 ≤ p.toNat → helper v p = 255 := by
  have a : ¬ v < 13 := by rw [show (13 : UInt16) = UInt16.ofNat 13 from rfl, lt16 v 13 (by omega)]; omega
  have b : ¬ v < 242 := by rw [show (242 : UInt16) = UInt16.ofNat 242 from rfl, lt16 v 242 (by omega)]; omega
  have c : v < 65266 := (lt16 v 65266 (by omega)).2 h2
  refine ⟨by simp [helper, a, b, c], ?_, ?_, ?_⟩
  · simp [helper, a, b, c, UInt16.toNat_sub, Nat.shiftRight_eq_div_pow]; omega
  · have e : helper v 2 = (v - 269).toUInt8 := by simp [helper, a, b, c]
    rw [e, UInt16.toNat_toUInt8, UInt16.toNat_sub]; simp; omega
  · intro p hp
    have h0 : p ≠ 0 := by rintro rfl; simp at hp
    have h1 : p ≠ 1 := by rintro rfl; simp at hp
    have h2 : p ≠ 2 := by rintro rfl; simp at hp
    simp [helper, a, b, c, h0, h1, h2]

theorem helper_big {v : UInt16} (h : 65266 ≤ v.toNat) (p : UInt8) : helper v p = 255 := by
  have a : ¬ v < 13 := by rw [show (13 : UInt16) = UInt16.ofNat 13 from rfl, lt16 v 13 (by omega)]; omega
  have b : ¬ v < 242 := by rw [show (242 : UInt16) = UInt16.ofNat 242 from rfl, lt16 v 242 (by omega)]; omega
  have c : ¬ v < 65266 := by rw [show (65266 : UInt16) = UInt16.ofNat 65266 from rfl, lt16 v 65266 (by omega)]; omega
  simp [helper, a, b, c]

theorem comb (a b : UInt8) (ha : a.toNat < 16) (hb : b.toNat < 16) :
    (b ||| (a <<< 4)).toNat = 16 * a.toNat + b.toNat := by
  have h : ∀ a : Fin 16, ∀ b : Fin 16, (UInt8.ofNat b.1 ||| (UInt8.ofNat a.1 <<< 4)).toNat = 16 * a.1 + b.1 := by
    decide +kernel
  have := h ⟨a.toNat, ha⟩ ⟨b.toNat, hb⟩
  simpa using this

theorem comb_hi (b : UInt8) : 240 ≤ (b ||| ((255 : UInt8) <<< 4)).toNat :=
  forall_u8 (p := fun b => 240 ≤ (b ||| ((255 : UInt8) <<< 4)).toNat) (by decide +kernel) b

theorem comb_lo (a : UInt8) : ((255 : UInt8) ||| (a <<< 4)) = 255 :=
  forall_u8 (p := fun a => ((255 : UInt8) ||| (a <<< 4)) = 255) (by decide +kernel) a

theorem Emits.inv_quiet {base o bs p o'} (h : Emits base o bs p) (hn : o.st ≠ .optionLengthDone)
    (hg : o.generate base = .ok (o', none)) : Emits base o' bs p := by
  cases h with
  | done hd => exact absurd hd hn
  | quiet _ hg' h2 => rw [hg] at hg'; cases hg'; exact h2
  | byte _ hg' h2 => rw [hg] at hg'; cases hg'

theorem Emits.inv_byte {base o bs p o' b} (h : Emits base o bs p) (hn : o.st ≠ .optionLengthDone)
    (hg : o.generate base = .ok (o', some b)) : ∃ bs', bs = b :: bs' ∧ Emits base o' bs' p := by
  cases h with
  | done hd => exact absurd hd hn
  | quiet _ hg' h2 => rw [hg] at hg'; cases hg'
  | byte _ hg' h2 => rw [hg] at hg'; cases hg'; exact ⟨_, rfl, h2⟩

theorem emits_stopped {base o bs p} (h : Emits base o bs p) (hd : o.st = .optionLengthDone) : bs = [] ∧ p = o :=
  let ⟨a, b⟩ := h.det (Emits.done hd); ⟨a, b⟩

/-- The bytes the encoder puts behind the first byte for a delta below 65266. -/
def codeExt (v : UInt16) : List UInt8 :=
  if v.toNat < 13 then [] else if v.toNat < 242 then [helper v 1] else [helper v 1, helper v 2]

/-- First byte and delta bytes: from the start to the point where the length bytes begin.  The position
counter is then one short of the extended bytes of the delta plus one. -/
theorem delta_iff (base : OptBase) (cur : UInt16) (pos : UInt8) (bs : List UInt8) (p : OptEnc)
    (hd : (base.number - cur).toNat < 65266) (hl : 13 ≤ (helper base.length 0).toNat) :
    Emits base ⟨.firstByte, cur, pos⟩ bs p ↔
      ∃ t, bs = (helper base.length 0 ||| (helper (base.number - cur) 0 <<< 4)) :: (codeExt (base.number - cur) ++ t) ∧
        Emits base ⟨.optionLength, base.number, UInt8.ofNat (codeExt (base.number - cur)).length⟩ t p := by
  generalize hv : base.number - cur = v at hd
  have hl' : helper base.length 0 ≥ 13 := by
    rw [ge_iff_le, UInt8.le_iff_toNat_le]; exact hl
  have g1 : generate ⟨.firstByte, cur, pos⟩ base =
      .ok (⟨.firstByteDone, cur, 0⟩, some (helper base.length 0 ||| (helper v 0 <<< 4))) := by
    simp [generate, hv]
  have gD : ∀ q, generate ⟨.optionDeltaDone, cur, q⟩ base = .ok (⟨.optionLength, base.number, q⟩, none) := by
    intro q; simp [generate, hl']
  by_cases c1 : v.toNat < 13
  · have hnd : ¬ (13 ≤ helper v 0) := by
      rw [UInt8.le_iff_toNat_le, helper_lit c1]; simpa using c1
    have g2 : generate ⟨.firstByteDone, cur, 0⟩ base = .ok (⟨.optionDeltaDone, cur, 0⟩, none) := by
      simp [generate, hv, hnd, hl']
    simp only [codeExt, c1, if_true, List.nil_append, List.length_nil]
    constructor
    · intro h
      obtain ⟨t, rfl, h1⟩ := h.inv_byte (by simp) g1
      exact ⟨t, rfl, (h1.inv_quiet (by simp) g2).inv_quiet (by simp) (gD _)⟩
    · rintro ⟨t, rfl, h⟩
      exact .byte (by simp) g1 (.quiet (by simp) g2 (.quiet (by simp) (gD _) h))
  · by_cases c2 : v.toNat < 242
    · obtain ⟨k0, k1, k2⟩ := helper_8 (by omega) c2
      have g2 : generate ⟨.firstByteDone, cur, 0⟩ base = .ok (⟨.optionDelta, cur, 0⟩, none) := by
        simp [generate, hv, k0]
      have g3 : generate ⟨.optionDelta, cur, 0⟩ base = .ok (⟨.optionDeltaDone, cur, 1⟩, some (helper v 1)) := by
        simp [generate, hv, k0]
      simp only [codeExt, c1, c2, if_true, if_false, List.length_cons, List.length_nil]
      constructor
      · intro h
        obtain ⟨t1, rfl, h1⟩ := h.inv_byte (by simp) g1
        obtain ⟨t, rfl, h2⟩ := (h1.inv_quiet (by simp) g2).inv_byte (by simp) g3
        exact ⟨t, rfl, h2.inv_quiet (by simp) (gD _)⟩
      · rintro ⟨t, rfl, h⟩
        exact .byte (by simp) g1 (.quiet (by simp) g2 (.byte (by simp) g3 (.quiet (by simp) (gD _) h)))
    · obtain ⟨k0, k1, k2, k3⟩ := helper_16 (by omega) hd
      have g2 : generate ⟨.firstByteDone, cur, 0⟩ base = .ok (⟨.optionDelta, cur, 0⟩, none) := by
        simp [generate, hv, k0]
      have g3 : generate ⟨.optionDelta, cur, 0⟩ base = .ok (⟨.optionDelta, cur, 1⟩, some (helper v 1)) := by
        simp [generate, hv, k0]
      have g4 : generate ⟨.optionDelta, cur, 1⟩ base = .ok (⟨.optionDeltaDone, cur, 2⟩, some (helper v 2)) := by
        simp [generate, hv, k0]
      simp only [codeExt, c1, c2, if_false, List.length_cons, List.length_nil]
      constructor
      · intro h
        obtain ⟨t1, rfl, h1⟩ := h.inv_byte (by simp) g1
        obtain ⟨t2, rfl, h2⟩ := (h1.inv_quiet (by simp) g2).inv_byte (by simp) g3
        obtain ⟨t, rfl, h3⟩ := h2.inv_byte (by simp) g4
        exact ⟨t, rfl, h3.inv_quiet (by simp) (gD _)⟩
      · rintro ⟨t, rfl, h⟩
        exact .byte (by simp) g1 (.quiet (by simp) g2 (.byte (by simp) g3 (.byte (by simp) g4
          (.quiet (by simp) (gD _) h))))

/-- A length below 13 needs no bytes of its own. -/
theorem short_emits (base : OptBase) (cur : UInt16) (pos : UInt8)
    (hd : (base.number - cur).toNat < 65266) (hl : base.length.toNat < 13) :
    ∃ q, Emits base ⟨.firstByte, cur, pos⟩
      ((helper base.length 0 ||| (helper (base.number - cur) 0 <<< 4)) :: codeExt (base.number - cur))
      ⟨.optionLengthDone, base.number, q⟩ := by
  generalize hv : base.number - cur = v at hd
  have hl' : ¬ (13 ≤ helper base.length 0) := by
    rw [UInt8.le_iff_toNat_le, helper_lit hl]; simpa using hl
  have g1 : generate ⟨.firstByte, cur, pos⟩ base =
      .ok (⟨.firstByteDone, cur, 0⟩, some (helper base.length 0 ||| (helper v 0 <<< 4))) := by
    simp [generate, hv]
  have gD : ∀ q, generate ⟨.optionDeltaDone, cur, q⟩ base = .ok (⟨.optionLengthDone, base.number, q⟩, none) := by
    intro q; simp [generate, hl']
  by_cases c1 : v.toNat < 13
  · have hnd : ¬ (13 ≤ helper v 0) := by
      rw [UInt8.le_iff_toNat_le, helper_lit c1]; simpa using c1
    have g2 : generate ⟨.firstByteDone, cur, 0⟩ base = .ok (⟨.optionDeltaAndLengthDone, cur, 0⟩, none) := by
      simp [generate, hv, hnd, hl']
    have g3 : generate ⟨.optionDeltaAndLengthDone, cur, 0⟩ base = .ok (⟨.optionLengthDone, base.number, 0⟩, none) := by
      simp [generate]
    simp only [codeExt, c1, if_true]
    exact ⟨0, .byte (by simp) g1 (.quiet (by simp) g2 (.quiet (by simp) g3 (.done rfl)))⟩
  · by_cases c2 : v.toNat < 242
    · obtain ⟨k0, k1, k2⟩ := helper_8 (by omega) c2
      have g2 : generate ⟨.firstByteDone, cur, 0⟩ base = .ok (⟨.optionDelta, cur, 0⟩, none) := by
        simp [generate, hv, k0]
      have g3 : generate ⟨.optionDelta, cur, 0⟩ base = .ok (⟨.optionDeltaDone, cur, 1⟩, some (helper v 1)) := by
        simp [generate, hv, k0]
      simp only [codeExt, c1, c2, if_true, if_false]
      exact ⟨1, .byte (by simp) g1 (.quiet (by simp) g2 (.byte (by simp) g3 (.quiet (by simp) (gD _) (.done rfl))))⟩
    · obtain ⟨k0, k1, k2, k3⟩ := helper_16 (by omega) hd
      have g2 : generate ⟨.firstByteDone, cur, 0⟩ base = .ok (⟨.optionDelta, cur, 0⟩, none) := by
        simp [generate, hv, k0]
      have g3 : generate ⟨.optionDelta, cur, 0⟩ base = .ok (⟨.optionDelta, cur, 1⟩, some (helper v 1)) := by
        simp [generate, hv, k0]
      have g4 : generate ⟨.optionDelta, cur, 1⟩ base = .ok (⟨.optionDeltaDone, cur, 2⟩, some (helper v 2)) := by
        simp [generate, hv, k0]
      simp only [codeExt, c1, c2, if_false]
      exact ⟨2, .byte (by simp) g1 (.quiet (by simp) g2 (.byte (by simp) g3 (.byte (by simp) g4
          (.quiet (by simp) (gD _) (.done rfl)))))⟩

/-- One step in the length state. -/
theorem len_step (base : OptBase) (cur : UInt16) (pos : UInt8) :
    generate ⟨.optionLength, cur, pos⟩ base =
      .ok (⟨if helper base.length (pos + 1) = 13 ∨ (helper base.length (pos + 1) = 14 ∧ pos + 1 = 2) then .optionLengthDone
          else .optionLength, cur, pos + 1⟩, some (helper base.length (pos + 1))) := by
  simp only [generate, beq_iff_eq, Bool.and_eq_true]
  by_cases h1 : helper base.length (pos + 1) = 13
  · simp [h1]
  · by_cases h2 : helper base.length (pos + 1) = 14 ∧ pos + 1 = 2
    · rw [if_neg h1, if_pos h2, if_pos (Or.inr h2)]
    · rw [if_neg h1, if_neg h2, if_neg (fun h => h.elim h1 h2)]

/-- The encoder leaves the length state after this byte. -/
def LStop (l : UInt16) (pos : UInt8) : Prop := helper l pos = 13 ∨ (helper l pos = 14 ∧ pos = 2)

theorem len_iff (base : OptBase) (cur : UInt16) (pos : UInt8) (t : List UInt8) (q : OptEnc) :
    Emits base ⟨.optionLength, cur, pos⟩ t q ↔
      ∃ t', t = helper base.length (pos + 1) :: t' ∧
        ((LStop base.length (pos + 1) ∧ t' = [] ∧ q = ⟨.optionLengthDone, cur, pos + 1⟩) ∨
         (¬ LStop base.length (pos + 1) ∧ Emits base ⟨.optionLength, cur, pos + 1⟩ t' q)) := by
  have hs := len_step base cur pos
  by_cases h : LStop base.length (pos + 1)
  · rw [if_pos (show (helper base.length (pos + 1) = 13 ∨ helper base.length (pos + 1) = 14 ∧ pos + 1 = 2) from h)] at hs
    constructor
    · intro he
      obtain ⟨t', rfl, h1⟩ := he.inv_byte (by simp) hs
      obtain ⟨rfl, rfl⟩ := emits_stopped h1 rfl
      exact ⟨[], rfl, Or.inl ⟨h, rfl, rfl⟩⟩
    · rintro ⟨t', rfl, ⟨-, rfl, rfl⟩ | ⟨hn, -⟩⟩
      · exact .byte (by simp) hs (.done rfl)
      · exact absurd h hn
  · rw [if_neg (show ¬ (helper base.length (pos + 1) = 13 ∨ helper base.length (pos + 1) = 14 ∧ pos + 1 = 2) from h)] at hs
    constructor
    · intro he
      obtain ⟨t', rfl, h1⟩ := he.inv_byte (by simp) hs
      exact ⟨t', rfl, Or.inr ⟨h, h1⟩⟩
    · rintro ⟨t', rfl, ⟨hp, -⟩ | ⟨-, he⟩⟩
      · exact absurd hp h
      · exact .byte (by simp) hs he

theorem len_not_nil {base : OptBase} {cur : UInt16} {pos : UInt8} {q : OptEnc} :
    ¬ Emits base ⟨.optionLength, cur, pos⟩ [] q := by
  rw [len_iff]; rintro ⟨t', h, -⟩; cases h

/-- Deltas and lengths for which the emitted option header is the one of RFC 7252. -/
def HeaderOk (delta len : Nat) : Prop :=
  (delta < 242 ∨ 269 ≤ delta ∧ delta < 65266) ∧
  (len < 13 ∨ delta < 13 ∧ (len = 26 ∨
    269 ≤ len ∧ len < 65266 ∧ (len - 269) / 256 ≠ 13 ∧ ((len - 269) % 256 = 13 ∨ (len - 269) % 256 = 14)))

instance (d l : Nat) : Decidable (HeaderOk d l) := by unfold HeaderOk; infer_instance

theorem nib_ok {v : UInt16} (h : v.toNat < 242 ∨ 269 ≤ v.toNat ∧ v.toNat < 65266) :
    (helper v 0).toNat = nibble v.toNat := by
  unfold nibble
  by_cases c1 : v.toNat < 13
  · rw [if_pos c1]; exact helper_lit c1 0
  · rw [if_neg c1]
    by_cases c2 : v.toNat < 242
    · rw [if_pos (by omega), (helper_8 (by omega) c2).1]; rfl
    · rw [if_neg (by omega), (helper_16 (v := v) (by omega) (by omega)).1]; rfl

theorem ext_ok {v : UInt16} (h : v.toNat < 242 ∨ 269 ≤ v.toNat ∧ v.toNat < 65266) :
    codeExt v = extBytes v.toNat := by
  unfold codeExt extBytes
  by_cases c1 : v.toNat < 13
  · simp [c1]
  · by_cases c2 : v.toNat < 242
    · have c3 : v.toNat < 269 := by omega
      simp only [c1, c2, c3, if_true, if_false, List.cons.injEq, and_true]
      apply UInt8.toNat_inj.1; rw [(helper_8 (by omega) c2).2.1]; simp; omega
    · have c3 : ¬ v.toNat < 269 := by omega
      obtain ⟨-, k1, k2, -⟩ := helper_16 (v := v) (by omega) (by omega)
      simp only [c1, c2, c3, if_false, List.cons.injEq, and_true]
      constructor <;> apply UInt8.toNat_inj.1
      · rw [k1]; simp; omega
      · rw [k2]; simp; omega

theorem nibble_lt (v : Nat) : nibble v < 15 := by unfold nibble; split <;> (try split) <;> omega

theorem first_ok {v l : UInt16} (h : v.toNat < 242 ∨ 269 ≤ v.toNat ∧ v.toNat < 65266)
    (hl : l.toNat < 242 ∨ 269 ≤ l.toNat ∧ l.toNat < 65266) :
    (helper l 0 ||| (helper v 0 <<< 4)) = UInt8.ofNat (16 * nibble v.toNat + nibble l.toNat) := by
  have a := nib_ok h
  have b := nib_ok hl
  have := nibble_lt v.toNat
  have := nibble_lt l.toNat
  apply UInt8.toNat_inj.1
  rw [comb _ _ (by omega) (by omega), a, b]; simp; omega

/-- The header emitted is the one of RFC 7252 exactly for these deltas and lengths. -/
theorem emits_iff (base : OptBase) (cur : UInt16) (pos : UInt8) :
    (∃ q, Emits base ⟨.firstByte, cur, pos⟩ (optHeader (base.number - cur).toNat base.length.toNat) q) ↔
      HeaderOk (base.number - cur).toNat base.length.toNat := by
  generalize hv : base.number - cur = v
  generalize hlen : base.length = l
  have vlt := u16_lt v
  have llt := u16_lt l
  constructor
  · rintro ⟨q, he⟩
    -- the first byte decides most cases
    have g1 : generate ⟨.firstByte, cur, pos⟩ base =
        .ok (⟨.firstByteDone, cur, 0⟩, some (helper l 0 ||| (helper v 0 <<< 4))) := by
      simp [generate, hv, hlen]
    obtain ⟨t, ht, -⟩ := he.inv_byte (by simp) g1
    have hb : helper l 0 ||| (helper v 0 <<< 4) = UInt8.ofNat (16 * nibble v.toNat + nibble l.toNat) := by
      simp only [optHeader, List.cons.injEq] at ht; exact ht.1.symm
    have n1 := nibble_lt v.toNat
    have n2 := nibble_lt l.toNat
    have hbn := congrArg UInt8.toNat hb
    rw [UInt8.toNat_ofNat', Nat.mod_eq_of_lt (by omega)] at hbn
    have hvs : v.toNat < 65266 := by
      refine Nat.lt_of_not_le fun h => ?_
      rw [helper_big h] at hbn
      have := comb_hi (helper l 0); omega
    have hls : l.toNat < 65266 := by
      refine Nat.lt_of_not_le fun h => ?_
      rw [helper_big h, comb_lo] at hbn; simp at hbn; omega
    have hv16 : (helper v 0).toNat < 16 := by
      by_cases c1 : v.toNat < 13
      · rw [helper_lit c1]; omega
      · by_cases c2 : v.toNat < 242
        · rw [(helper_8 (by omega) c2).1]; decide
        · rw [(helper_16 (v := v) (by omega) hvs).1]; decide
    have hl16 : (helper l 0).toNat < 16 := by
      by_cases c1 : l.toNat < 13
      · rw [helper_lit c1]; omega
      · by_cases c2 : l.toNat < 242
        · rw [(helper_8 (by omega) c2).1]; decide
        · rw [(helper_16 (v := l) (by omega) hls).1]; decide
    rw [comb _ _ hv16 hl16] at hbn
    have hvn : (helper v 0).toNat = nibble v.toNat := by omega
    have hln : (helper l 0).toNat = nibble l.toNat := by omega
    have hvr : v.toNat < 242 ∨ 269 ≤ v.toNat ∧ v.toNat < 65266 := by
      by_cases c : v.toNat < 242
      · exact Or.inl c
      · refine Or.inr ⟨Nat.le_of_not_lt fun h => ?_, hvs⟩
        rw [(helper_16 (v := v) (by omega) hvs).1] at hvn
        simp only [nibble, h, if_true, show ¬ v.toNat < 13 by omega, if_false] at hvn
        exact absurd hvn (by decide)
    have hlr : l.toNat < 242 ∨ 269 ≤ l.toNat ∧ l.toNat < 65266 := by
      by_cases c : l.toNat < 242
      · exact Or.inl c
      · refine Or.inr ⟨Nat.le_of_not_lt fun h => ?_, hls⟩
        rw [(helper_16 (v := l) (by omega) hls).1] at hln
        simp only [nibble, h, if_true, show ¬ l.toNat < 13 by omega, if_false] at hln
        exact absurd hln (by decide)
    refine ⟨hvr, ?_⟩
    by_cases cl : l.toNat < 13
    · exact Or.inl cl
    right
    have hl13 : 13 ≤ (helper l 0).toNat := by rw [hln]; unfold nibble; split <;> (try split) <;> omega
    rw [delta_iff base cur pos _ q (by rw [hv]; exact hvs) (by rw [hlen]; exact hl13), hv, hlen] at he
    obtain ⟨t, ht, he⟩ := he
    rw [ext_ok hvr] at ht he
    simp only [optHeader, List.cons.injEq, List.append_cancel_left_eq] at ht
    obtain ⟨-, ht⟩ := ht
    subst ht
    -- number of extended bytes of the delta
    have hext : (extBytes v.toNat).length = 0 ∧ v.toNat < 13 ∨ (extBytes v.toNat).length = 1 ∨
        (extBytes v.toNat).length = 2 := by
      unfold extBytes
      by_cases c1 : v.toNat < 13
      · left; simp [c1]
      · by_cases c2 : v.toNat < 269 <;> simp [c1, c2]
    rw [len_iff, hlen] at he
    obtain ⟨t1, ht1, he⟩ := he
    by_cases c2 : l.toNat < 242
    · obtain ⟨k0, k1, k2⟩ := helper_8 (by omega) c2
      have hx : extBytes l.toNat = [UInt8.ofNat (l.toNat - 13)] := by
        simp [extBytes, cl, show l.toNat < 269 by omega]
      rw [hx] at ht1
      simp only [List.cons.injEq] at ht1
      obtain ⟨ht1, rfl⟩ := ht1
      have hh := congrArg UInt8.toNat ht1
      rw [UInt8.toNat_ofNat', Nat.mod_eq_of_lt (by omega)] at hh
      rcases he with ⟨hs, -, -⟩ | ⟨-, he⟩
      · rcases hext with ⟨h0, hd⟩ | h1 | h2
        · refine ⟨hd, Or.inl ?_⟩
          rw [h0] at hs hh
          rcases hs with hs | ⟨hs, h⟩
          · rw [hs] at hh; simp at hh; omega
          · exact absurd h (by decide)
        · rw [h1] at hh; rw [k2 (UInt8.ofNat 1 + 1) (by decide)] at hh; simp at hh; omega
        · rw [h2] at hh; rw [k2 (UInt8.ofNat 2 + 1) (by decide)] at hh; simp at hh; omega
      · exact absurd he len_not_nil
    · obtain ⟨k0, k1, k2, k3⟩ := helper_16 (v := l) (by omega) hls
      have hx : extBytes l.toNat = [UInt8.ofNat ((l.toNat - 269) / 256), UInt8.ofNat ((l.toNat - 269) % 256)] := by
        simp [extBytes, cl, show ¬ l.toNat < 269 by omega]
      rw [hx] at ht1
      simp only [List.cons.injEq] at ht1
      obtain ⟨ht1, rfl⟩ := ht1
      rcases he with ⟨-, h, -⟩ | ⟨hns, he⟩
      · cases h
      rw [len_iff, hlen] at he
      obtain ⟨t2, ht2, he⟩ := he
      simp only [List.cons.injEq] at ht2
      obtain ⟨ht2, rfl⟩ := ht2
      rcases he with ⟨hs, -, -⟩ | ⟨-, he⟩
      · rcases hext with ⟨h0, hd⟩ | h1 | h2
        · rw [h0] at hns hs
          refine ⟨hd, Or.inr ⟨by omega, hls, ?_, ?_⟩⟩
          · intro h; apply hns; left
            apply UInt8.toNat_inj.1
            have : (UInt8.ofNat 0 + 1) = 1 := rfl
            rw [this, k1]; simp; omega
          · have h2 : (UInt8.ofNat 0 + 1 + 1) = 2 := rfl
            rw [h2] at hs
            rcases hs with hs | ⟨hs, -⟩ <;> (rw [hs] at k2; simp at k2; omega)
        · rw [h1] at hs
          have h3 : helper l (UInt8.ofNat 1 + 1 + 1) = 255 := k3 _ (by decide)
          rcases hs with hs | ⟨hs, -⟩ <;> (rw [h3] at hs; exact absurd hs (by decide))
        · rw [h2] at hs
          have h3 : helper l (UInt8.ofNat 2 + 1 + 1) = 255 := k3 _ (by decide)
          rcases hs with hs | ⟨hs, -⟩ <;> (rw [h3] at hs; exact absurd hs (by decide))
      · exact absurd he len_not_nil
  · rintro ⟨hvr, hl⟩
    by_cases cl : l.toNat < 13
    · obtain ⟨q, he⟩ := short_emits base cur pos (by rw [hv]; omega) (by rw [hlen]; exact cl)
      refine ⟨⟨.optionLengthDone, base.number, q⟩, ?_⟩
      rw [hv, hlen, first_ok hvr (Or.inl (by omega)), ext_ok hvr] at he
      simpa [optHeader, extBytes, cl] using he
    · obtain ⟨hd, hl⟩ := hl.resolve_left cl
      have hlr : l.toNat < 242 ∨ 269 ≤ l.toNat ∧ l.toNat < 65266 := by omega
      have hl13 : 13 ≤ (helper l 0).toNat := by rw [nib_ok hlr]; unfold nibble; split <;> (try split) <;> omega
      have hx : extBytes v.toNat = [] := by simp [extBytes, hd]
      rcases hl with hl | ⟨h1, h2, h3, h4⟩
      · refine ⟨⟨.optionLengthDone, base.number, 1⟩, ?_⟩
        rw [delta_iff base cur pos _ _ (by rw [hv]; omega) (by rw [hlen]; exact hl13), hv, hlen, ext_ok hvr,
          first_ok hvr hlr, hx]
        refine ⟨extBytes l.toNat, by simp [optHeader, hx], ?_⟩
        rw [len_iff, hlen]
        obtain ⟨k0, k1, k2⟩ := helper_8 (v := l) (by omega) (by omega)
        have e13 : helper l 1 = 13 := by apply UInt8.toNat_inj.1; rw [k1, hl]; rfl
        exact ⟨[], by rw [hl]; show extBytes 26 = [helper l 1]; rw [e13]; decide, Or.inl ⟨Or.inl e13, rfl, rfl⟩⟩
      · refine ⟨⟨.optionLengthDone, base.number, 2⟩, ?_⟩
        rw [delta_iff base cur pos _ _ (by rw [hv]; omega) (by rw [hlen]; exact hl13), hv, hlen, ext_ok hvr,
          first_ok hvr hlr, hx]
        refine ⟨extBytes l.toNat, by simp [optHeader, hx], ?_⟩
        obtain ⟨k0, k1, k2, k3⟩ := helper_16 (v := l) (by omega) h2
        have e1 : helper l 1 = UInt8.ofNat ((l.toNat - 269) / 256) := by
          apply UInt8.toNat_inj.1; rw [k1]; simp; omega
        have e2 : helper l 2 = UInt8.ofNat ((l.toNat - 269) % 256) := by
          apply UInt8.toNat_inj.1; rw [k2]; simp; omega
        have hx2 : extBytes l.toNat = [UInt8.ofNat ((l.toNat - 269) / 256), UInt8.ofNat ((l.toNat - 269) % 256)] := by
          simp [extBytes, cl, show ¬ l.toNat < 269 by omega]
        rw [hx2, len_iff, hlen]
        refine ⟨_, congrArg (· :: _) e1.symm, Or.inr ⟨?_, ?_⟩⟩
        · rintro (h | ⟨-, h⟩)
          · have : helper l 1 = 13 := h
            rw [this] at k1; simp at k1; omega
          · exact absurd h (by decide)
        · rw [len_iff, hlen]
          refine ⟨[], congrArg (· :: _) e2.symm, Or.inl ⟨?_, rfl, rfl⟩⟩
          have : (UInt8.ofNat ([] : List UInt8).length + 1 + 1) = 2 := rfl
          rw [this]
          rcases h4 with h4 | h4
          · left; rw [e2, h4]; rfl
          · right; exact ⟨by rw [e2, h4]; rfl, rfl⟩

theorem gen_current {o : OptEnc} {base : OptBase} {o' : OptEnc} {r : Option UInt8} (hi : InHdr o.st)
    (hg : o.generate base = .ok (o', r)) (hc : o.st = .optionLength → o.current = base.number)
    (h : o'.st = .optionLength ∨ o'.st = .optionLengthDone) : o'.current = base.number := by
  obtain ⟨st, cur, pos⟩ := o
  cases st <;> simp only [InHdr] at hi
  · simp only [generate, Except.ok.injEq, Prod.mk.injEq] at hg
    obtain ⟨rfl, rfl⟩ := hg; simp at h
  · simp only [generate, Except.ok.injEq, Prod.mk.injEq] at hg
    obtain ⟨rfl, rfl⟩ := hg
    simp only at h
    exfalso; revert h; (repeat' split) <;> simp
  · simp only [generate, Except.ok.injEq, Prod.mk.injEq] at hg
    obtain ⟨rfl, rfl⟩ := hg
    exfalso; revert h; (repeat' split) <;> simp
  · simp only [generate, Except.ok.injEq, Prod.mk.injEq] at hg
    obtain ⟨rfl, rfl⟩ := hg; rfl
  · rw [len_step] at hg; cases hg; exact hc rfl
  · simp only [generate, Except.ok.injEq, Prod.mk.injEq] at hg
    obtain ⟨rfl, rfl⟩ := hg; rfl

/-- The running option number is up to date once the header is complete. -/
theorem emits_current {base : OptBase} {o : OptEnc} {bs : List UInt8} {p : OptEnc} (h : Emits base o bs p)
    (hin : InHdr o.st ∨ o.st = .optionLengthDone)
    (hc : o.st = .optionLength ∨ o.st = .optionLengthDone → o.current = base.number) :
    p.st = .optionLengthDone ∧ p.current = base.number := by
  induction h with
  | done hd => exact ⟨hd, hc (Or.inr hd)⟩
  | @quiet o o' bs o'' hn hg h2 ih =>
    have hi := hin.resolve_right hn
    obtain ⟨o1, r1, e, hst, -⟩ := gen_step o base hi
    rw [hg] at e; cases e
    exact ih hst.symm (gen_current hi hg fun h => hc (Or.inl h))
  | @byte o o' b bs o'' hn hg h2 ih =>
    have hi := hin.resolve_right hn
    obtain ⟨o1, r1, e, hst, -⟩ := gen_step o base hi
    rw [hg] at e; cases e
    exact ih hst.symm (gen_current hi hg fun h => hc (Or.inl h))

end Verif.Proofs
