import Verif.Model.DtlsTimer
import Verif.Spec.DtlsTimer

/-!
# C74: the timer given to the DTLS library
-/
namespace Verif.Props
open Verif.Model Verif.Spec

/-- The time a 32-bit tick counter leads to. -/
theorem dtlsNow_toNat (rate t : Nat) :
    (dtlsNow (UInt32.ofNat (ticksAt rate t)) (UInt32.ofNat rate)).toNat = (t / rate * rate) % 4294967296 := by
  simp [dtlsNow, ticksAt, UInt32.toNat_mul, UInt32.toNat_ofNat, Nat.mul_mod]

/-- The answer in terms of natural numbers. -/
theorem timer_get_nat (c : DtlsTimer) (now : UInt32) :
    c.get now = if c.fin_ms.toNat = 0 then -1 else if c.fin_ms.toNat < (now - c.timer).toNat then 2
      else if c.int_ms.toNat < (now - c.timer).toNat then 1 else 0 := by
  simp only [DtlsTimer.get, gt_iff_lt, UInt32.lt_iff_toNat_lt, ← UInt32.toNat_inj, UInt32.toNat_zero]

theorem timer_add_sub (a b : UInt32) : a + b - a = b := by
  rw [UInt32.add_comm, UInt32.add_sub_cancel]

theorem tick_floor_le (rate t : Nat) : t / rate * rate ≤ t := Nat.div_mul_le_self t rate

/-- Counted in whole ticks, less than `2^32` milliseconds pass between setting and asking: what the timer then computes is the exact
difference, also when counter or product wrapped in between. -/
theorem timer_elapsed (rate t0 t : Nat) (h0 : t0 ≤ t) (h : t / rate * rate - t0 / rate * rate < 4294967296) :
    (dtlsNow (UInt32.ofNat (ticksAt rate t)) (UInt32.ofNat rate) - dtlsNow (UInt32.ofNat (ticksAt rate t0)) (UInt32.ofNat rate)).toNat =
      t / rate * rate - t0 / rate * rate := by
  have hmono : t0 / rate * rate ≤ t / rate * rate := Nat.mul_le_mul_right _ (Nat.div_le_div_right h0)
  rw [UInt32.toNat_sub, dtlsNow_toNat, dtlsNow_toNat]
  generalize t / rate * rate = a at *
  generalize t0 / rate * rate = b at *
  simp only [Nat.reducePow]
  omega

/-- C74 (exact).  The timer set at `t0` and asked at `t` answers what is owed one millisecond before as many milliseconds as there
are whole ticks in between. -/
theorem timer_exact_partial (rate t0 t : Nat) (int_ms fin_ms : UInt32) (h0 : t0 ≤ t) (h : t / rate * rate - t0 / rate * rate < 4294967296)
    (hif : 0 < t / rate * rate - t0 / rate * rate) :
    (DtlsTimer.set (dtlsNow (UInt32.ofNat (ticksAt rate t0)) (UInt32.ofNat rate)) int_ms fin_ms).get
      (dtlsNow (UInt32.ofNat (ticksAt rate t)) (UInt32.ofNat rate)) =
    timerOwed (t / rate * rate - t0 / rate * rate - 1) int_ms.toNat fin_ms.toNat := by
  have he := timer_elapsed rate t0 t h0 h
  rw [timer_get_nat]
  simp only [DtlsTimer.set, timerOwed, he]
  repeat' split
  all_goals first | rfl | omega

/-- C74 (cancelled).  A timer set with a final delay of 0 answers -1 whenever it is asked. -/
theorem timer_cancelled (now now' int_ms : UInt32) : (DtlsTimer.set now int_ms 0).get now' = -1 := by
  simp [DtlsTimer.get, DtlsTimer.set]

/-- C74 (not early).  When the timer says that a delay has passed, it has passed to within one tick. -/
theorem timer_not_early (rate t0 t : Nat) (int_ms fin_ms : UInt32) (hr : 0 < rate) (h0 : t0 ≤ t)
    (h : t / rate * rate - t0 / rate * rate < 4294967296) :
    ((DtlsTimer.set (dtlsNow (UInt32.ofNat (ticksAt rate t0)) (UInt32.ofNat rate)) int_ms fin_ms).get
      (dtlsNow (UInt32.ofNat (ticksAt rate t)) (UInt32.ofNat rate)) = 2 → t0 + fin_ms.toNat < t + rate) ∧
    ((DtlsTimer.set (dtlsNow (UInt32.ofNat (ticksAt rate t0)) (UInt32.ofNat rate)) int_ms fin_ms).get
      (dtlsNow (UInt32.ofNat (ticksAt rate t)) (UInt32.ofNat rate)) = 1 → t0 + int_ms.toNat < t + rate) := by
  have he := timer_elapsed rate t0 t h0 h
  have a1 := tick_floor_le rate t
  have a2 : t0 < t0 / rate * rate + rate := by
    have := Nat.div_add_mod t0 rate
    have := Nat.mod_lt t0 hr
    rw [Nat.mul_comm rate] at *
    omega
  rw [timer_get_nat]
  simp only [DtlsTimer.set, he]
  constructor
  · intro hg
    split at hg
    · exact absurd hg (by decide)
    · split at hg
      · omega
      · split at hg <;> exact absurd hg (by decide)
  · intro hg
    split at hg
    · exact absurd hg (by decide)
    · split at hg
      · exact absurd hg (by decide)
      · split at hg
        · omega
        · exact absurd hg (by decide)

/-- C74 (not late).  One tick and one millisecond after the final delay the timer says so, until the counter has gone round. -/
theorem timer_not_late (rate t0 t : Nat) (int_ms fin_ms : UInt32) (hr : 0 < rate) (hf : fin_ms ≠ 0) (h0 : t0 + fin_ms.toNat + rate ≤ t)
    (h : t / rate * rate - t0 / rate * rate < 4294967296) :
    (DtlsTimer.set (dtlsNow (UInt32.ofNat (ticksAt rate t0)) (UInt32.ofNat rate)) int_ms fin_ms).get
      (dtlsNow (UInt32.ofNat (ticksAt rate t)) (UInt32.ofNat rate)) = 2 := by
  have he := timer_elapsed rate t0 t (by omega) h
  have a1 := tick_floor_le rate t0
  have a2 : t < t / rate * rate + rate := by
    have := Nat.div_add_mod t rate
    have := Nat.mod_lt t hr
    rw [Nat.mul_comm rate] at *
    omega
  rw [timer_get_nat]
  simp only [DtlsTimer.set, he]
  have hf' : fin_ms.toNat ≠ 0 := fun h => hf (UInt32.toNat_inj.1 h)
  rw [if_neg hf', if_pos (by omega)]

/-- C74 (what does not hold).  At the very end of the final delay — and, if the intermediate delay is shorter, at the very end of
that one — the timer does not yet say so, for every pair of delays and every time. -/
theorem timer_boundary (now int_ms fin_ms : UInt32) (hf : fin_ms ≠ 0) :
    (DtlsTimer.set now int_ms fin_ms).get (now + fin_ms) ≠ 2 ∧ timerOwed fin_ms.toNat int_ms.toNat fin_ms.toNat = 2 ∧
    (int_ms < fin_ms → (DtlsTimer.set now int_ms fin_ms).get (now + int_ms) = 0 ∧ timerOwed int_ms.toNat int_ms.toNat fin_ms.toNat = 1) := by
  have hf' : fin_ms.toNat ≠ 0 := fun h => hf (UInt32.toNat_inj.1 h)
  refine ⟨?_, by simp [timerOwed, hf'], ?_⟩
  · rw [timer_get_nat]
    simp only [DtlsTimer.set, timer_add_sub]
    rw [if_neg hf', if_neg (by omega)]
    split <;> decide
  · intro hlt
    rw [UInt32.lt_iff_toNat_lt] at hlt
    refine ⟨?_, by simp [timerOwed, hf']; omega⟩
    rw [timer_get_nat]
    simp only [DtlsTimer.set, timer_add_sub]
    rw [if_neg hf', if_neg (by omega), if_neg (by omega)]

/-- A timer of 1000 and 4000 ms set shortly before the counter of 10 ms ticks wraps, asked 2, 1005 and 4020 ms later. -/
example :
    let set := DtlsTimer.set (dtlsNow (UInt32.ofNat (ticksAt 10 42949672950)) 10) 1000 4000
    (set.get (dtlsNow (UInt32.ofNat (ticksAt 10 42949672952)) 10), set.get (dtlsNow (UInt32.ofNat (ticksAt 10 (42949672950 + 1015))) 10),
      set.get (dtlsNow (UInt32.ofNat (ticksAt 10 (42949672950 + 4020))) 10)) = (0, 1, 2) := by decide +kernel

end Verif.Props
