import Verif.Model.Header

/-! # Helper lemmas about bytes and 16-bit words -/
namespace Verif.Proofs
open Verif.Model Header

/-- Exhaustive check over a byte. -/
theorem forall_u8 {p : UInt8 → Prop} (h : ∀ i : Fin 256, p (UInt8.ofFin i)) (x : UInt8) : p x := by
  simpa using h x.toFin

theorem u8_lt (b : UInt8) : b.toNat < 256 := b.toNat_lt
theorem u16_lt (b : UInt16) : b.toNat < 65536 := b.toNat_lt

theorem and_255 (n : Nat) : n &&& 255 = n % 256 := Nat.and_two_pow_sub_one_eq_mod n 8
theorem and_15 (n : Nat) : n &&& 15 = n % 16 := Nat.and_two_pow_sub_one_eq_mod n 4
theorem and_31 (n : Nat) : n &&& 31 = n % 32 := Nat.and_two_pow_sub_one_eq_mod n 5
theorem and_7 (n : Nat) : n &&& 7 = n % 8 := Nat.and_two_pow_sub_one_eq_mod n 3

theorem ntoh_toNat (hi lo : UInt8) : (ntoh hi lo).toNat = hi.toNat * 256 + lo.toNat := by
  have h1 := u8_lt hi; have h2 := u8_lt lo
  have h := Nat.shiftLeft_add_eq_or_of_lt (i := 8) (by simpa using h2) hi.toNat
  simp only [ntoh, UInt16.toNat_or, UInt16.toNat_shiftLeft, UInt8.toNat_toUInt16]
  have : (8 : UInt16).toNat % 16 = 8 := by decide
  rw [this, Nat.mod_eq_of_lt (by rw [Nat.shiftLeft_eq]; omega), ← h, Nat.shiftLeft_eq]

theorem hton_fst (v : UInt16) : (hton v).1.toNat = v.toNat / 256 := by
  have := u16_lt v
  simp [hton, Nat.shiftRight_eq_div_pow]; omega

theorem hton_snd (v : UInt16) : (hton v).2.toNat = v.toNat % 256 := by
  simp [hton, and_255]

theorem ntoh_hton (v : UInt16) : ntoh (hton v).1 (hton v).2 = v := by
  apply UInt16.toNat_inj.1
  rw [ntoh_toNat, hton_fst, hton_snd]; omega

theorem type_toNat (x : UInt8) : ((x &&& 0x30) >>> 4).toNat = x.toNat / 16 % 4 :=
  forall_u8 (p := fun x => ((x &&& 0x30) >>> 4).toNat = x.toNat / 16 % 4) (by decide +kernel) x

theorem tkl_toNat (x : UInt8) : (x &&& 0x0F).toNat = x.toNat % 16 := by simp [and_15]

theorem ver_toNat (x : UInt8) : (x >>> 6).toNat = x.toNat / 64 := by
  simp [Nat.shiftRight_eq_div_pow]

theorem setType_toNat (x : UInt8) (t : Fin 4) :
    ((x &&& ~~~(0x30 : UInt8)) ||| (UInt8.ofNat t <<< 4)).toNat
      = x.toNat / 64 * 64 + 16 * t + x.toNat % 16 :=
  forall_u8 (p := fun x => ∀ t : Fin 4, ((x &&& ~~~(0x30 : UInt8)) ||| (UInt8.ofNat t <<< 4)).toNat
      = x.toNat / 64 * 64 + 16 * t + x.toNat % 16) (by decide +kernel) x t

theorem setTkl_toNat (x : UInt8) (t : Fin 16) :
    ((x &&& ~~~(0x0F : UInt8)) ||| UInt8.ofNat t).toNat = x.toNat / 16 * 16 + t :=
  forall_u8 (p := fun x => ∀ t : Fin 16, ((x &&& ~~~(0x0F : UInt8)) ||| UInt8.ofNat t).toNat
      = x.toNat / 16 * 16 + t) (by decide +kernel) x t

end Verif.Proofs
