import Verif.Model.UInt
import Verif.Spec.Wire
import Verif.Proofs.Bytes

/-! # Helper lemmas for the CoAP uint codec -/
namespace Verif.Proofs
open Verif.Model Verif.Spec

/-- `k` big-endian bytes of `n` (low `8k` bits). -/
def beBytes : Nat → Nat → List UInt8
  | 0, _ => []
  | k + 1, n => beBytes k (n / 256) ++ [UInt8.ofNat (n % 256)]

@[simp] theorem beBytes_length (k n : Nat) : (beBytes k n).length = k := by
  induction k generalizing n with
  | zero => rfl
  | succ k ih => simp [beBytes, ih]

theorem beValue_append (a b : List UInt8) : beValue (a ++ b) = beValue a * 256 ^ b.length + beValue b := by
  induction a with
  | nil => simp [beValue]
  | cons x xs ih => simp [beValue, ih, Nat.pow_add, Nat.add_mul, Nat.mul_assoc, Nat.add_assoc]

theorem beValue_lt (bs : List UInt8) : beValue bs < 256 ^ bs.length := by
  induction bs with
  | nil => simp [beValue]
  | cons b bs ih =>
    have := u8_lt b
    simp only [beValue, List.length_cons, Nat.pow_succ]
    have : b.toNat * 256 ^ bs.length ≤ 255 * 256 ^ bs.length := Nat.mul_le_mul_right _ (by omega)
    omega

theorem beValue_beBytes (k n : Nat) : beValue (beBytes k n) = n % 256 ^ k := by
  induction k generalizing n with
  | zero => simp [beBytes, beValue, Nat.mod_one]
  | succ k ih =>
    rw [beBytes, beValue_append, ih]
    simp only [beValue, List.length_cons, List.length_nil, Nat.zero_add, Nat.pow_one, Nat.pow_zero,
      Nat.mul_one, Nat.add_zero]
    have : (UInt8.ofNat (n % 256)).toNat = n % 256 := by simp
    rw [this, Nat.pow_succ, Nat.mul_comm (256 ^ k) 256, Nat.mod_mul]
    omega

theorem and_ff (n : Nat) : UInt8.ofNat (n &&& 0xFF) = UInt8.ofNat (n % 256) := by rw [and_255]

theorem shr8 (n : Nat) : n >>> 8 = n / 256 := by simp [Nat.shiftRight_eq_div_pow]

theorem set_drop_mid (buf : List UInt8) (i : Nat) (b : UInt8) (h : i < buf.length) :
    (buf.set i b).drop i = b :: buf.drop (i + 1) := by
  rw [List.drop_eq_getElem_cons (by simpa using h), List.drop_set, if_pos (by omega)]
  simp

theorem uintSetLen_eq (k n : Nat) (buf : List UInt8) :
    uintSetLen k n buf = if k ≤ buf.length then some (beBytes k n ++ buf.drop k) else none := by
  induction k generalizing n buf with
  | zero => simp [uintSetLen, beBytes]
  | succ k ih =>
    simp only [uintSetLen, writeAt]
    by_cases h : k < buf.length
    · simp only [h, if_true, ih, shr8, and_ff, List.length_set]
      rw [if_pos (by omega), if_pos (by omega), set_drop_mid _ _ _ h]
      simp [beBytes]
    · simp [h, show ¬ k + 1 ≤ buf.length by omega]

/-- Number of bytes of the shortest representation. -/
def byteLen (n : Nat) : Nat := if n = 0 then 0 else byteLen (n / 256) + 1
termination_by n

theorem byteLen_zero : byteLen 0 = 0 := by unfold byteLen; simp
theorem byteLen_pos {n : Nat} (h : n ≠ 0) : byteLen n = byteLen (n / 256) + 1 := by
  rw [byteLen, if_neg h]

theorem lt_pow_byteLen (n : Nat) : n < 256 ^ byteLen n := by
  induction n using Nat.strongRecOn with
  | ind n ih =>
    by_cases h : n = 0
    · subst h; simp [byteLen_zero]
    · rw [byteLen_pos h, Nat.pow_succ]
      have := ih (n / 256) (Nat.div_lt_self (by omega) (by omega))
      omega

theorem byteLen_le {n k : Nat} (h : n < 256 ^ k) : byteLen n ≤ k := by
  induction k generalizing n with
  | zero => have : n = 0 := by simpa using h
            subst this; simp [byteLen_zero]
  | succ k ih =>
    by_cases h0 : n = 0
    · subst h0; simp [byteLen_zero]
    · rw [byteLen_pos h0]
      have := ih (n := n / 256) (by rw [Nat.pow_succ] at h; omega)
      omega

theorem pow_le_of_byteLen {n : Nat} (h : n ≠ 0) : 256 ^ (byteLen n - 1) ≤ n := by
  by_cases hc : 256 ^ (byteLen n - 1) ≤ n
  · exact hc
  · have h1 := byteLen_le (n := n) (k := byteLen n - 1) (by omega)
    have h2 := byteLen_pos h
    omega

theorem assessLoop_eq (fuel n : Nat) (c : UInt8) (hf : n < fuel) :
    assessLoop fuel n c = c + UInt8.ofNat (byteLen n) := by
  induction fuel generalizing n c with
  | zero => omega
  | succ fuel ih =>
    by_cases h : n = 0
    · subst h; simp [assessLoop, byteLen_zero]
    · simp only [assessLoop, bne_iff_ne, ne_eq, h, not_false_eq_true, if_true, shr8]
      rw [ih _ _ (by have := Nat.div_lt_self (n := n) (k := 256) (by omega) (by omega); omega),
        byteLen_pos h]
      simp [UInt8.ofNat_add, UInt8.add_assoc, UInt8.add_comm]

theorem assess_eq (n : Nat) (c : UInt8) : assess n c = c + UInt8.ofNat (byteLen n) :=
  assessLoop_eq _ _ _ (Nat.lt_succ_self n)

theorem byteLen_le8 {n : Nat} (h : n < 2 ^ 64) : byteLen n ≤ 8 := byteLen_le (by simpa using h)

theorem assess_toNat {n : Nat} (h : n < 2 ^ 64) : (assess n).toNat = byteLen n := by
  have := byteLen_le8 h
  simp [assess_eq]; omega

theorem uintSet_eq {n : Nat} (h : n < 2 ^ 64) (buf : List UInt8) :
    uintSet n buf = if byteLen n ≤ buf.length then
      some (beBytes (byteLen n) n ++ buf.drop (byteLen n), UInt8.ofNat (byteLen n)) else none := by
  simp only [uintSet, assess_toNat h, uintSetLen_eq]
  by_cases hc : byteLen n ≤ buf.length
  · simp [hc, assess_eq]
  · simp [hc]

theorem uintGetLoop_eq (w : Nat) (hw : 8 ≤ w) (v : Nat) (bs : List UInt8) (hv : v < 2 ^ w) :
    uintGetLoop w v bs = (v * 256 ^ bs.length + beValue bs) % 2 ^ w := by
  induction bs generalizing v with
  | nil => simp [uintGetLoop, beValue, Nat.mod_eq_of_lt hv]
  | cons b bs ih =>
    have hb := u8_lt b
    obtain ⟨k, rfl⟩ := Nat.exists_eq_add_of_le hw
    have e1 : (v <<< 8) % 2 ^ (8 + k) = (v % 2 ^ k) <<< 8 := by
      rw [Nat.shiftLeft_eq, Nat.shiftLeft_eq, Nat.pow_add, Nat.mul_comm v, Nat.mul_mod_mul_left,
        Nat.mul_comm]
    have e2 : (v <<< 8) % 2 ^ (8 + k) ||| b.toNat = v % 2 ^ k * 256 + b.toNat := by
      rw [e1, ← Nat.shiftLeft_add_eq_or_of_lt (by simpa using hb), Nat.shiftLeft_eq]
    have hk : v % 2 ^ k < 2 ^ k := Nat.mod_lt _ (Nat.two_pow_pos k)
    have e3 : 2 ^ (8 + k) = 256 * 2 ^ k := by rw [Nat.pow_add]
    simp only [uintGetLoop]
    rw [ih _ (by rw [e2, e3]; omega), e2]
    simp only [beValue, List.length_cons]
    have e4 : v * 256 = (v % 2 ^ k) * 256 + (v / 2 ^ k) * 2 ^ (8 + k) := by
      have hdm : 2 ^ k * (v / 2 ^ k) + v % 2 ^ k = v := Nat.div_add_mod v (2 ^ k)
      rw [e3, show v / 2 ^ k * (256 * 2 ^ k) = (2 ^ k * (v / 2 ^ k)) * 256 by
        rw [Nat.mul_comm (2 ^ k), Nat.mul_assoc, Nat.mul_comm (2 ^ k)], ← Nat.add_mul]
      omega
    have e5 : v * 256 ^ (bs.length + 1) = (v % 2 ^ k) * 256 * 256 ^ bs.length
        + (v / 2 ^ k * 256 ^ bs.length) * 2 ^ (8 + k) := by
      rw [Nat.pow_succ, Nat.mul_comm (256 ^ bs.length) 256, ← Nat.mul_assoc, e4, Nat.add_mul]
      congr 1
      rw [Nat.mul_assoc, Nat.mul_comm (2 ^ (8 + k)), ← Nat.mul_assoc]
    rw [e5, Nat.add_mul]
    rw [show (v % 2 ^ k * 256 * 256 ^ bs.length + v / 2 ^ k * 256 ^ bs.length * 2 ^ (8 + k) +
        (b.toNat * 256 ^ bs.length + beValue bs)) = (v % 2 ^ k * 256 * 256 ^ bs.length +
        b.toNat * 256 ^ bs.length + beValue bs) + v / 2 ^ k * 256 ^ bs.length * 2 ^ (8 + k) by omega,
      Nat.add_mul_mod_self_right]

theorem uintGet_eq (w : Nat) (hw : 8 ≤ w) (bs : List UInt8) :
    uintGet w bs = beValue bs % 2 ^ w := by
  cases bs with
  | nil => simp [uintGet, beValue]
  | cons b bs =>
    have hb := u8_lt b
    have : (2 : Nat) ^ 8 ≤ 2 ^ w := Nat.pow_le_pow_right (by omega) hw
    rw [uintGet, uintGetLoop_eq w hw _ _ (by omega), beValue]

theorem zeroLoop_eq (count i : Nat) (buf : List UInt8) (h : i + count ≤ buf.length) :
    zeroLoop count i buf = some (buf.take i ++ List.replicate count 0 ++ buf.drop (i + count)) := by
  induction count generalizing i buf with
  | zero => simp [zeroLoop]
  | succ c ih =>
    simp only [zeroLoop, writeAt, show i < buf.length by omega, if_true]
    rw [ih (i + 1) _ (by simp; omega)]
    congr 1
    rw [List.take_set, List.drop_set, if_pos (by omega), List.take_succ_eq_append_getElem (by omega)]
    rw [List.set_append, if_neg (by simp; omega)]
    rw [show i + 1 + c = i + (c + 1) by omega]
    simp [show min i buf.length = i by omega, List.replicate_succ]

theorem zeroLoop_none (count i : Nat) (buf : List UInt8) (h : buf.length < i + count)
    (hi : i ≤ buf.length) : zeroLoop count i buf = none := by
  induction count generalizing i buf with
  | zero => omega
  | succ c ih =>
    simp only [zeroLoop, writeAt]
    by_cases hc : i < buf.length
    · simp only [hc, if_true]
      exact ih _ _ (by simp; omega) (by simp; omega)
    · simp [hc]

theorem padLoop_eq (pad k n : Nat) (buf : List UInt8) (h : pad + k ≤ buf.length) :
    padLoop pad (pad + k) n buf = some (buf.take pad ++ beBytes k n ++ buf.drop (pad + k)) := by
  induction k generalizing n buf with
  | zero =>
    cases pad with
    | zero => simp [padLoop, beBytes]
    | succ p => simp [padLoop, beBytes]
  | succ k ih =>
    rw [← Nat.add_assoc, padLoop, if_pos (by omega), writeAt, if_pos (by omega)]
    simp only [and_ff, shr8]
    rw [ih _ _ (by simp; omega), set_drop_mid _ _ _ (by omega), List.take_set]
    rw [List.set_eq_of_length_le (by simp; omega)]
    simp [beBytes, Nat.add_assoc]

theorem beBytes_pad (k j n : Nat) (h : n < 256 ^ k) :
    beBytes (j + k) n = List.replicate j 0 ++ beBytes k n := by
  induction k generalizing n with
  | zero =>
    have : n = 0 := by simpa using h
    subst this
    clear h
    induction j with
    | zero => rfl
    | succ j ih =>
      simp only [Nat.add_zero] at ih ⊢
      simp only [beBytes, Nat.zero_div] at ih ⊢
      rw [ih]
      simp [List.replicate_succ']
  | succ k ih =>
    rw [← Nat.add_assoc, beBytes, ih _ (by rw [Nat.pow_succ] at h; omega), beBytes]
    simp

theorem uintSetPadded_eq {n size : Nat} (hn : n < 2 ^ 64) (hs : size < 2 ^ 64)
    (hfit : n < 256 ^ size) (buf : List UInt8) (hb : size ≤ buf.length) :
    uintSetPadded n buf size = some (beBytes size n ++ buf.drop size) := by
  by_cases h : n = 0
  · subst h
    simp only [uintSetPadded, beq_self_eq_true, if_true]
    rw [zeroLoop_eq _ _ _ (by omega)]
    have := beBytes_pad 0 size 0 (by simp)
    simp only [Nat.add_zero] at this
    simp [this, beBytes]
  · have h8 := byteLen_le8 hn
    have hle := byteLen_le hfit
    have hpos := byteLen_pos h
    have hu : (assess (n >>> 8) 1).toNat = byteLen n := by
      rw [assess_eq, shr8, hpos]
      simp [UInt8.toNat_add]; omega
    have hp : (size + 2 ^ 64 - byteLen n) % 2 ^ 64 = size - byteLen n := by
      rw [show size + 2 ^ 64 - byteLen n = (size - byteLen n) + 2 ^ 64 by omega, Nat.add_mod_right]
      exact Nat.mod_eq_of_lt (by omega)
    simp only [uintSetPadded, beq_iff_eq, h, if_false, hu, hp]
    rw [zeroLoop_eq _ _ _ (by omega)]
    simp only [List.take_zero, List.nil_append, Nat.zero_add]
    have e := padLoop_eq (size - byteLen n) (byteLen n) n
      (List.replicate (size - byteLen n) 0 ++ buf.drop (size - byteLen n)) (by simp; omega)
    rw [show size - byteLen n + byteLen n = size by omega] at e
    rw [e]
    have e2 := beBytes_pad (byteLen n) (size - byteLen n) n (lt_pow_byteLen n)
    rw [show size - byteLen n + byteLen n = size by omega] at e2
    rw [e2]
    simp [List.drop_append, show size - byteLen n ≤ size by omega,
      show size - byteLen n + (size - (size - byteLen n)) = size by omega]

theorem beBytes_inj {k a b : Nat} (ha : a < 256 ^ k) (hb : b < 256 ^ k)
    (h : beBytes k a = beBytes k b) : a = b := by
  have := congrArg beValue h
  rwa [beValue_beBytes, beValue_beBytes, Nat.mod_eq_of_lt ha, Nat.mod_eq_of_lt hb] at this

theorem beBytes_byteLen_value (n : Nat) : beValue (beBytes (byteLen n) n) = n := by
  rw [beValue_beBytes, Nat.mod_eq_of_lt (lt_pow_byteLen n)]

theorem beValue_inj {a b : List UInt8} (hl : a.length = b.length) (h : beValue a = beValue b) : a = b := by
  induction a generalizing b with
  | nil => cases b with
    | nil => rfl
    | cons => simp at hl
  | cons x xs ih => cases b with
    | nil => simp at hl
    | cons y ys =>
      simp only [List.length_cons, Nat.add_right_cancel_iff] at hl
      simp only [beValue, hl] at h
      have h1 := beValue_lt xs; have h2 := beValue_lt ys
      rw [hl] at h1
      have hx : x.toNat = y.toNat := by
        have hp : 0 < 256 ^ ys.length := Nat.pow_pos (by omega)
        have a1 : (x.toNat * 256 ^ ys.length + beValue xs) / 256 ^ ys.length = x.toNat := by
          rw [Nat.add_comm, Nat.add_mul_div_right _ _ hp, Nat.div_eq_of_lt h1, Nat.zero_add]
        have a2 : (y.toNat * 256 ^ ys.length + beValue ys) / 256 ^ ys.length = y.toNat := by
          rw [Nat.add_comm, Nat.add_mul_div_right _ _ hp, Nat.div_eq_of_lt h2, Nat.zero_add]
        rw [← a1, ← a2, h]
      rw [hx] at h
      rw [UInt8.toNat_inj.1 hx, ih hl (by omega)]

end Verif.Proofs
