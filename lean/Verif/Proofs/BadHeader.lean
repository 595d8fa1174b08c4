import Verif.Props.StreamRoundTrip

/-! # Option headers that the encoder finishes although no decoder reads them back -/
namespace Verif.Proofs
open Verif.Model OptEnc SEnc Spec Props

/-- Without a byte that ends the length the encoder never finishes. -/
theorem no_stop {base : OptBase} {cur : UInt16} (h : ∀ p, ¬ LStop base.length p) (t : List UInt8) :
    ∀ pos q, ¬ Emits base ⟨.optionLength, cur, pos⟩ t q := by
  induction t with
  | nil => intro pos q; exact len_not_nil
  | cons b t ih =>
    intro pos q he
    rw [len_iff] at he
    obtain ⟨t', e, ⟨hs, -⟩ | ⟨-, he⟩⟩ := he
    · exact h _ hs
    · cases e; exact ih _ _ he

/-- Positions at which the encoder writes 0xFF. -/
theorem ff_run {base : OptBase} {cur : UInt16} {c : Nat} (h : ∀ p : UInt8, c ≤ p.toNat → helper base.length p = 255)
    (n : Nat) : ∀ (pos : UInt8) (t : List UInt8) (q : OptEnc), c ≤ pos.toNat + 1 → pos.toNat + n ≤ 255 →
      Emits base ⟨.optionLength, cur, pos⟩ t q →
      ∃ t', t = List.replicate n 255 ++ t' ∧ Emits base ⟨.optionLength, cur, pos + UInt8.ofNat n⟩ t' q := by
  induction n with
  | zero => intro pos t q _ _ he; exact ⟨t, by simp, by simpa using he⟩
  | succ n ih =>
    intro pos t q hc hn he
    rw [len_iff] at he
    have hp : (pos + 1).toNat = pos.toNat + 1 := by
      rw [UInt8.toNat_add]; simp; omega
    have hh := h (pos + 1) (by omega)
    obtain ⟨t1, rfl, ⟨hs, -⟩ | ⟨-, he⟩⟩ := he
    · unfold LStop at hs; rw [hh] at hs; simp at hs
    · obtain ⟨t', rfl, h2⟩ := ih (pos + 1) t1 q (by omega) (by omega) he
      refine ⟨t', by rw [hh, List.replicate_succ, List.cons_append], ?_⟩
      rw [show pos + UInt8.ofNat (n + 1) = pos + 1 + UInt8.ofNat n by
        apply UInt8.toNat_inj.1; simp only [UInt8.toNat_add, UInt8.toNat_ofNat']; simp; omega]
      exact h2

/-- The bytes of a length from 13 to 241 that do not end where they should. -/
theorem tail8 {base : OptBase} {cur : UInt16} (h1 : 13 ≤ base.length.toNat) (h2 : base.length.toNat < 242)
    (p : UInt8) (hp : p.toNat = 1 ∨ p.toNat = 2) (t : List UInt8) (q : OptEnc)
    (he : Emits base ⟨.optionLength, cur, p⟩ t q) : t = List.replicate (255 - p.toNat) 255 ++ [13] := by
  obtain ⟨k0, -, k2⟩ := helper_8 h1 h2
  obtain ⟨t', rfl, h3⟩ := ff_run k2 (255 - p.toNat) p t q (by omega) (by omega) he
  rw [len_iff] at h3
  have e0 : p + UInt8.ofNat (255 - p.toNat) + 1 = 0 := by
    apply UInt8.toNat_inj.1; simp only [UInt8.toNat_add, UInt8.toNat_ofNat']; simp; omega
  rw [e0, k0] at h3
  obtain ⟨t1, rfl, ⟨-, rfl, -⟩ | ⟨hn, -⟩⟩ := h3
  · rfl
  · exact absurd (Or.inl k0) hn

/-- What the encoder writes for a header that it finishes although it is not `Encodable`: 254 bytes too many,
a header that reads as another length, or one byte too few. -/
inductive Bad (l : Nat) (w : UInt8) : List UInt8 → Prop
  | junk : l < 242 → w.toNat % 16 = 13 → Bad l w (UInt8.ofNat (l - 13) :: (List.replicate 254 255 ++ [13]))
  | other {t} : (∀ r, r ≠ [] → ∃ x u, readExt (w.toNat % 16) (t ++ r) = some (x, u) ∧ x % 65536 ≠ l) → Bad l w t
  | short {b} : 3597 ≤ l → w.toNat % 16 = 14 → Bad l w [b]

theorem bad_header (base : OptBase) (cur : UInt16) (pos : UInt8) (bs : List UInt8) (q : OptEnc)
    (hd : (base.number - cur).toNat < 65266) (hb : ¬ Encodable (base.number - cur).toNat base.length.toNat)
    (he : Emits base ⟨.firstByte, cur, pos⟩ bs q) :
    ∃ w t, bs = w :: (codeExt (base.number - cur) ++ t) ∧ w ≠ 255 ∧
      Reads (w.toNat / 16) (codeExt (base.number - cur)) (base.number - cur).toNat ∧ Bad base.length.toNat w t := by
  have hl : 13 ≤ base.length.toNat := by
    apply Decidable.byContradiction; intro h; exact hb ⟨hd, Or.inl (by omega)⟩
  have hR := reads_codeExt (base.number - cur) hd
  have hv14 : (helper (base.number - cur) 0).toNat ≤ 14 := by
    generalize base.number - cur = v at hd
    by_cases c1 : v.toNat < 13
    · rw [helper_lit c1]; omega
    · by_cases c2 : v.toNat < 242
      · rw [(helper_8 (by omega) c2).1]; decide
      · rw [(helper_16 (v := v) (by omega) (by omega)).1]; decide
  have hroot : ¬ 65266 ≤ base.length.toNat := by
    intro h
    have hb' := helper_big h
    rw [delta_iff base cur pos bs q hd (by rw [hb']; decide)] at he
    obtain ⟨t, -, h2⟩ := he
    exact no_stop (by intro p hs; unfold LStop at hs; rw [hb'] at hs; simp at hs) _ _ _ h2
  have hl14 : 13 ≤ (helper base.length 0).toNat ∧ (helper base.length 0).toNat ≤ 14 := by
    by_cases c2 : base.length.toNat < 242
    · rw [(helper_8 (by omega) c2).1]; decide
    · rw [(helper_16 (v := base.length) (by omega) (by omega)).1]; decide
  rw [delta_iff base cur pos bs q hd hl14.1] at he
  obtain ⟨t, rfl, h2⟩ := he
  have hc := comb (helper (base.number - cur) 0) (helper base.length 0) (by omega) (by omega)
  refine ⟨_, t, rfl, ?_, ?_, ?_⟩
  · intro h; rw [h] at hc; simp at hc; omega
  · rw [hc, show (16 * (helper (base.number - cur) 0).toNat + (helper base.length 0).toNat) / 16 =
      (helper (base.number - cur) 0).toNat by omega]
    exact hR
  · generalize hw : helper base.length 0 ||| helper (base.number - cur) 0 <<< 4 = w at hc
    have hw16 : w.toNat % 16 = (helper base.length 0).toNat := by omega
    generalize hv : base.number - cur = v at hd hb h2
    have hcl : ((codeExt v).length = 0 ∧ v.toNat < 13) ∨ ((codeExt v).length = 1 ∧ 13 ≤ v.toNat) ∨
        ((codeExt v).length = 2 ∧ 13 ≤ v.toNat) := by
      unfold codeExt; (repeat' split) <;> simp <;> omega
    by_cases c2 : base.length.toNat < 242
    · obtain ⟨k0, k1, k2⟩ := helper_8 hl c2
      rw [k0] at hw16
      rcases hcl with ⟨e, hv13⟩ | ⟨e, -⟩ | ⟨e, -⟩ <;> rw [e] at h2
      · rw [len_iff] at h2
        have e1 : (UInt8.ofNat 0 + 1 : UInt8) = 1 := rfl
        rw [e1] at h2
        have hk : helper base.length 1 = UInt8.ofNat (base.length.toNat - 13) := by
          apply UInt8.toNat_inj.1; rw [k1]; simp; omega
        obtain ⟨t', rfl, ⟨hs, -⟩ | ⟨-, h3⟩⟩ := h2
        · unfold LStop at hs
          exfalso
          apply hb
          refine ⟨by omega, Or.inr ⟨hv13, Or.inl ?_⟩⟩
          rcases hs with h | ⟨-, h⟩
          · rw [h] at k1; simp at k1; omega
          · simp at h
        · have := tail8 hl c2 1 (Or.inl rfl) t' q h3
          rw [this, hk]
          exact .junk c2 hw16
      · have := tail8 hl c2 _ (Or.inl rfl) t q h2
        rw [this]
        refine .other fun r _ => ⟨268, List.replicate 253 255 ++ [13] ++ r, ?_, by omega⟩
        rw [hw16]
        rfl
      · have := tail8 hl c2 _ (Or.inr rfl) t q h2
        rw [this]
        refine .other fun r _ => ⟨268, List.replicate 252 255 ++ [13] ++ r, ?_, by omega⟩
        rw [hw16]
        rfl
    · obtain ⟨k0, k1, k2, k3⟩ := helper_16 (v := base.length) (by omega) (by omega)
      have hw16' : w.toNat % 16 = 14 := by rw [hw16, k0]; rfl
      have hstop : (helper base.length 1).toNat = 13 ∨ (helper base.length 2).toNat = 13 ∨ (helper base.length 2).toNat = 14 := by
        apply Decidable.byContradiction
        intro hn
        refine no_stop (fun p hs => ?_) _ _ _ h2
        unfold LStop at hs
        rcases hs with h | ⟨h, rfl⟩
        · have hp : p = 0 ∨ p = 1 ∨ p = 2 ∨ 3 ≤ p.toNat := by
            by_cases a : 3 ≤ p.toNat
            · exact Or.inr (Or.inr (Or.inr a))
            · have : p.toNat = 0 ∨ p.toNat = 1 ∨ p.toNat = 2 := by omega
              rcases this with a | a | a
              · exact Or.inl (UInt8.toNat_inj.1 a)
              · exact Or.inr (Or.inl (UInt8.toNat_inj.1 a))
              · exact Or.inr (Or.inr (Or.inl (UInt8.toNat_inj.1 a)))
          rcases hp with rfl | rfl | rfl | hp
          · rw [k0] at h; simp at h
          · apply hn; rw [h]; simp
          · apply hn; rw [h]; simp
          · rw [k3 p hp] at h; simp at h
        · apply hn; rw [h]; simp
      rcases hcl with ⟨e, hv13⟩ | ⟨e, -⟩ | ⟨e, -⟩ <;> rw [e] at h2 <;> rw [len_iff] at h2
      · obtain ⟨t', rfl, ⟨hs, rfl, -⟩ | ⟨hns, h3⟩⟩ := h2
        · have h13 : (helper base.length 1).toNat = 13 := by
            rcases hs with h | ⟨-, h⟩
            · rw [show (UInt8.ofNat 0 + 1 : UInt8) = 1 from rfl] at h; rw [h]; rfl
            · simp at h
          exact .short (by omega) hw16'
        · exfalso
          rw [len_iff] at h3
          rw [show (UInt8.ofNat 0 + 1 : UInt8) = 1 from rfl] at h3 hns
          rw [show (1 + 1 : UInt8) = 2 from rfl] at h3
          have hn1 : (helper base.length 1).toNat ≠ 13 := by
            intro h; exact hns (Or.inl (UInt8.toNat_inj.1 h))
          apply hb
          refine ⟨by omega, Or.inr ⟨hv13, Or.inr ⟨?_, ?_, ?_, ?_⟩⟩⟩ <;> omega
      · rw [show (UInt8.ofNat 1 + 1 : UInt8) = 2 from rfl] at h2
        obtain ⟨t', rfl, ⟨hs, rfl, -⟩ | ⟨hns, h3⟩⟩ := h2
        · by_cases hhi : 3597 ≤ base.length.toNat
          · exact .short hhi hw16'
          · have hlo : (helper base.length 2).toNat = 13 ∨ (helper base.length 2).toNat = 14 := by
              rcases hs with h | ⟨h, -⟩
              · exact Or.inl (by rw [h]; rfl)
              · exact Or.inr (by rw [h]; rfl)
            refine .other fun r hr => ?_
            obtain ⟨c, r, rfl⟩ := List.exists_cons_of_ne_nil hr
            have hc8 := u8_lt c
            refine ⟨269 + 256 * (helper base.length 2).toNat + c.toNat, r, ?_, by omega⟩
            rw [hw16']; rfl
        · obtain ⟨t2, rfl, h4⟩ := ff_run k3 1 2 t' q (by decide) (by decide) h3
          refine .other fun r _ => ⟨269 + 256 * (helper base.length 2).toNat + 255, t2 ++ r, ?_, ?_⟩
          · rw [hw16']; rfl
          · have hn2 : (helper base.length 2).toNat ≠ 13 ∧ (helper base.length 2).toNat ≠ 14 := by
              constructor <;> intro h
              · exact hns (Or.inl (UInt8.toNat_inj.1 h))
              · exact hns (Or.inr ⟨UInt8.toNat_inj.1 h, rfl⟩)
            have h13 : (helper base.length 1).toNat = 13 := by omega
            omega
      · rw [← len_iff] at h2
        obtain ⟨t2, rfl, h4⟩ := ff_run k3 2 2 t q (by decide) (by decide) h2
        refine .other fun r _ => ⟨269 + 256 * 255 + 255, t2 ++ r, ?_, by omega⟩
        rw [hw16']; rfl

end Verif.Proofs
