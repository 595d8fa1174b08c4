/-!
# Model of `src/platform/mbedtls/esp8266-timing.cpp`: the timer callbacks given to the DTLS library

The build with `TIMING_METHOD_2` (defined at line 43) is modelled.  Tick counter, delays and times are 32-bit unsigned values.
-/
namespace Verif.Model

/-- `mbedtls_timing_delay_context` as used here: when the timer was set, and the two delays — src/platform/mbedtls/esp8266-timing.cpp:45-92. -/
structure DtlsTimer where
  timer : UInt32
  int_ms : UInt32
  fin_ms : UInt32
deriving DecidableEq, Repr

/-- `get_current_time` — src/platform/mbedtls/esp8266-timing.cpp:33-41: the tick counter times the milliseconds of a tick. -/
def dtlsNow (ticks rate : UInt32) : UInt32 := ticks * rate

/-- `mbedtls_timing_set_delay` — src/platform/mbedtls/esp8266-timing.cpp:45-64.  `memcpy` into the timer's own storage is an assignment here. -/
def DtlsTimer.set (now int_ms fin_ms : UInt32) : DtlsTimer := ⟨now, int_ms, fin_ms⟩

/-- `mbedtls_timing_get_delay` — src/platform/mbedtls/esp8266-timing.cpp:69-92. -/
def DtlsTimer.get (c : DtlsTimer) (now : UInt32) : Int :=
  if c.fin_ms = 0 then -1
  else
    let elapsed := now - c.timer
    if elapsed > c.fin_ms then 2
    else if elapsed > c.int_ms then 1
    else 0

end Verif.Model
