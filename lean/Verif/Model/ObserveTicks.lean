/-!
# Model of the pace of the observe example on the ESP8266 —
test/pio/esp8266/observable-raw/src/lwip+freertos-datapump.cpp:25-51

`xTaskGetTickCount` is the system's: a counter of 32 bits that wraps (`portTickType` is an unsigned type of 32 bits on this
system).  `portTICK_PERIOD_MS` is the length of a tick in milliseconds, of the same type; it is 0 if the system has more than
1000 ticks a second.  Receiving and notifying are in `Model/OtherPumps` and `Model/Observable`.
-/
namespace Verif.Model.Ticks

/-- One round of the daemon — lines 37-49: `current` is read first, then the counter is read again and compared.  `none`: division
by zero. -/
def tickRound (period last current again : UInt32) : Option (Bool × UInt32) :=
  if period = 0 then none
  else if (again - last) / period > 1000 then some (true, current)
  else some (false, last)

/-- The daemon — lines 33-50: `last` is read once before the loop; every round reads the counter twice.  The answers tell in which
rounds the observers are notified. -/
def tickRun (period : UInt32) : UInt32 → List (UInt32 × UInt32) → Option (List Bool)
  | _, [] => some []
  | last, r :: rs =>
    match tickRound period last r.1 r.2 with
    | none => none
    | some (n, last) => (tickRun period last rs).map (n :: ·)

end Verif.Model.Ticks
