/-!
# What the DTLS library asks of a timer
-/
namespace Verif.Spec

/-- The answer owed `elapsed` milliseconds after the timer was set (mbedtls, `mbedtls_timing_get_delay`): -1 if it was cancelled, which
is asked for with a final delay of 0; 2 when the final delay has passed, 1 when the intermediate delay only has passed, 0 otherwise. -/
def timerOwed (elapsed int_ms fin_ms : Nat) : Int :=
  if fin_ms = 0 then -1
  else if fin_ms ≤ elapsed then 2
  else if int_ms ≤ elapsed then 1
  else 0

/-- What the tick counter shows after `t` milliseconds, a tick taking `rate` milliseconds. -/
def ticksAt (rate t : Nat) : Nat := t / rate

end Verif.Spec
