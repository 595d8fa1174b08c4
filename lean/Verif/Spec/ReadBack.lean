import Verif.Model.Decoder
import Verif.Spec.Wire

/-!
# Reading a message off what a decoder reports

An observer hears a header, a token, options, possibly a payload, and the end.  `readBack` is how it puts the message
together; it looks at the reported values only.  A payload without bytes counts as no payload (RFC 7252 section 3
does not allow one).
-/
namespace Verif.Spec
open Verif.Model

/-- The options reported one after another as complete, and what is reported behind them. -/
def readOpts : List Event → List Opt × List Event
  | .option n v true :: es => (⟨n.toNat, v⟩ :: (readOpts es).1, (readOpts es).2)
  | es => ([], es)

/-- The payload that the end of a report tells of; `none` for a report that does not end as it should. -/
def readTail : List Event → Option (Option (List UInt8))
  | [.optionsCompleted, .completed] => some none
  | [.optionsCompleted, .payload p true, .completed] => some (if p = [] then none else some p)
  | _ => none

/-- The message a report tells of. -/
def readBack : List Event → Option Msg
  | .header h :: .token t :: .optionStart :: es =>
    (readTail (readOpts es).2).map fun p =>
      let f := fields h.b0 h.b1 h.b2 h.b3
      ⟨f.version, f.type, f.code, f.mid, t, (readOpts es).1, p⟩
  | _ => none

end Verif.Spec
