import Verif.Model.ObserveTicks
import Verif.Spec.ObserveTicks

/-! # The pace of the observe example on the ESP8266 (C93) -/
namespace Verif.Props
open Verif.Model.Ticks Verif.Spec.Ticks

/-- The readings of a counter of 32 bits. -/
def readings (rs : List (Nat × Nat)) : List (UInt32 × UInt32) := rs.map fun r => (UInt32.ofNat r.1, UInt32.ofNat r.2)

theorem counter_sub (a b : Nat) (h : a ≤ b) (hb : b - a < 2 ^ 32) : (UInt32.ofNat b - UInt32.ofNat a).toNat = b - a := by
  rw [UInt32.toNat_sub, UInt32.toNat_ofNat', UInt32.toNat_ofNat']
  omega

theorem tickRound_exact (p last a b : Nat) (hp : 0 < p) (hp2 : p < 2 ^ 32) (hl : last ≤ b) (hb : b - last < 2 ^ 32) :
    tickRound (UInt32.ofNat p) (UInt32.ofNat last) (UInt32.ofNat a) (UInt32.ofNat b) =
      some (if 1001 * p * p - 1 < (b - last) * p then (true, UInt32.ofNat a) else (false, UInt32.ofNat last)) := by
  have hpn : (UInt32.ofNat p).toNat = p := by rw [UInt32.toNat_ofNat']; omega
  have h0 : UInt32.ofNat p ≠ 0 := by
    intro e
    have := congrArg UInt32.toNat e
    rw [hpn] at this
    simp at this; omega
  have hc : ((UInt32.ofNat b - UInt32.ofNat last) / UInt32.ofNat p > 1000) ↔ 1001 * p * p - 1 < (b - last) * p := by
    rw [gt_iff_lt, UInt32.lt_iff_toNat_lt, UInt32.toNat_div, counter_sub _ _ hl hb, hpn]
    rw [show (1000 : UInt32).toNat = 1000 from rfl]
    have h1 : (1000 < (b - last) / p) ↔ 1001 * p ≤ b - last := by
      rw [show (1000 < (b - last) / p) ↔ 1001 ≤ (b - last) / p from Iff.rfl, Nat.le_div_iff_mul_le hp]
    have h2 : 1 ≤ 1001 * p * p := Nat.mul_pos (by omega) hp
    rw [h1]
    constructor
    · intro h
      have := Nat.mul_le_mul_right p h
      omega
    · intro h
      exact Nat.le_of_mul_le_mul_right (by omega : 1001 * p * p ≤ (b - last) * p) hp
  unfold tickRound
  rw [if_neg h0]
  by_cases h : 1001 * p * p - 1 < (b - last) * p
  · rw [if_pos (hc.2 h), if_pos h]
  · rw [if_neg (fun e => h (hc.1 e)), if_neg h]

theorem tickRun_from (p g : Nat) (hp : 0 < p) (hg : 1001 * p + 2 * g < 2 ^ 32) (rs : List (Nat × Nat)) :
    ∀ t last, last ≤ t → t - last + g < 2 ^ 32 → Often g t rs →
      tickRun (UInt32.ofNat p) (UInt32.ofNat last) (readings rs) = some (paceEvery (1001 * p * p - 1) p last rs) := by
  induction rs with
  | nil => intros; rfl
  | cons r rs ih =>
    intro t last hl hs ho
    obtain ⟨h1, h2, h3, h4⟩ := ho
    have hr := tickRound_exact p last r.1 r.2 hp (by omega) (by omega) (by omega)
    simp only [readings, List.map_cons, tickRun, paceEvery, hr]
    by_cases h : 1001 * p * p - 1 < (r.2 - last) * p
    · simp only [if_pos h]
      have := ih r.2 r.1 h2 (by omega) h4
      rw [readings] at this
      rw [this]; rfl
    · simp only [if_neg h]
      have hlt : r.2 - last < 1001 * p := by
        apply Classical.byContradiction
        intro hn
        have := Nat.mul_le_mul_right p (Nat.le_of_not_lt hn)
        have : 0 < 1001 * p * p := Nat.mul_pos (by omega) hp
        omega
      have := ih r.2 last (by omega) (by omega) h4
      rw [readings] at this
      rw [this]; rfl

/-- C93, exactly: with ticks of `p` milliseconds the observers are notified as soon as `1001 * p * p` milliseconds have passed since
the last time, also when the counter wraps, provided the rounds do not take long. -/
theorem ticks_exact (p g : Nat) (hp : 0 < p) (hg : 1001 * p + 2 * g < 2 ^ 32) (t : Nat) (rs : List (Nat × Nat)) (h : Often g t rs) :
    tickRun (UInt32.ofNat p) (UInt32.ofNat t) (readings rs) = some (paceEvery (1001 * p * p - 1) p t rs) :=
  tickRun_from p g hp hg rs t t (Nat.le_refl _) (by omega) h

/-- C93 (partial: ticks of one millisecond): the observers are notified as soon as more than a second has passed since the last
time. -/
theorem ticks_each_second_partial (g : Nat) (hg : 1001 + 2 * g < 2 ^ 32) (t : Nat) (rs : List (Nat × Nat)) (h : Often g t rs) :
    tickRun 1 (UInt32.ofNat t) (readings rs) = some (paceEvery 1000 1 t rs) :=
  ticks_exact 1 g (by omega) (by omega) t rs h

/-- C93 fails for every longer tick: as long as fewer than `1001 * p` ticks, `1001 * p * p` milliseconds, have passed, nobody is
notified, although a notification is due in every round that ends later than `1000 / p` ticks after the start. -/
theorem ticks_too_slow (p g : Nat) (hp : 2 ≤ p) (hg : 1001 * p + 2 * g < 2 ^ 32) (t : Nat) (rs : List (Nat × Nat))
    (h : Often g t rs) (hr : ∀ r ∈ rs, r.2 < t + 1001 * p) (hlast : ∃ r ∈ rs, t + 1000 / p < r.2) :
    tickRun (UInt32.ofNat p) (UInt32.ofNat t) (readings rs) = some (List.replicate rs.length false) ∧
      true ∈ paceEvery 1000 p t rs := by
  constructor
  · rw [ticks_exact p g (by omega) hg t rs h]
    congr 1
    clear hlast h
    have key : ∀ r : Nat × Nat, r.2 < t + 1001 * p → ¬ 1001 * p * p - 1 < (r.2 - t) * p := by
      intro r h1 h2
      have h3 : (r.2 - t) * p < 1001 * p * p := Nat.mul_lt_mul_of_pos_right (by omega) (by omega)
      omega
    induction rs with
    | nil => rfl
    | cons r rs ih =>
      simp only [paceEvery, if_neg (key r (hr r (by simp))), List.length_cons, List.replicate_succ,
        ih (fun x hx => hr x (by simp [hx]))]
  · obtain ⟨r, hm, hl⟩ := hlast
    clear hr h
    induction rs with
    | nil => cases hm
    | cons x xs ih =>
      simp only [paceEvery]
      by_cases hx : 1000 < (x.2 - t) * p
      · rw [if_pos hx]; simp
      · rw [if_neg hx]
        rcases List.mem_cons.1 hm with rfl | hm
        · exfalso
          apply hx
          have h1 : 1000 / p + 1 ≤ r.2 - t := by omega
          have h2 := Nat.mul_le_mul_right p h1
          have h3 := Nat.lt_div_mul_add (a := 1000) (b := p) (by omega)
          rw [Nat.add_mul, Nat.one_mul] at h2
          omega
        · exact List.mem_cons_of_mem _ (ih hm)

/-- C93 fails: on a system with more than 1000 ticks a second the first round divides by zero. -/
theorem ticks_zero_period (last : UInt32) (r : UInt32 × UInt32) (rs : List (UInt32 × UInt32)) : tickRun 0 last (r :: rs) = none := by
  simp [tickRun, tickRound]

-- the counter wraps between the first and the third round; notified in the second and in the fourth
example : Often 900 (2 ^ 32 - 900) [(2 ^ 32 - 50, 2 ^ 32 - 50), (2 ^ 32 + 101, 2 ^ 32 + 102), (2 ^ 32 + 900, 2 ^ 32 + 900), (2 ^ 32 + 1110, 2 ^ 32 + 1110)] ∧
    tickRun 1 (UInt32.ofNat (2 ^ 32 - 900))
      (readings [(2 ^ 32 - 50, 2 ^ 32 - 50), (2 ^ 32 + 101, 2 ^ 32 + 102), (2 ^ 32 + 900, 2 ^ 32 + 900), (2 ^ 32 + 1110, 2 ^ 32 + 1110)]) =
        some [false, true, false, true] := by decide

-- 100 ticks a second, the usual setting: after 100 seconds still nothing
example : Often 6000 7 [(5000, 5000), (10007, 10007), (10017, 10017)] ∧
    tickRun 10 7 (readings [(5000, 5000), (10007, 10007), (10017, 10017)]) = some [false, false, true] := by decide

end Verif.Props
