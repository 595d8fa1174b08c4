import Verif.Model.Legacy
import Verif.Spec.Wire

/-!
# What the older dispatch owes its observer

Only the vocabulary (`LEvent`) comes from the model.
-/
namespace Verif.Spec
open Verif.Model

/-- Put a part in front of what follows: an unfinished part is joined with the next part of the same value or
payload. -/
def glueCons : LEvent → List LEvent → List LEvent
  | .value n a false, .value m b l :: es => if n = m then .value n (a ++ b) l :: es else .value n a false :: .value m b l :: es
  | .payload a false, .payload b l :: es => .payload (a ++ b) l :: es
  | e, es => e :: es

/-- Join the parts of option values and of the payload. -/
def glue (es : List LEvent) : List LEvent := es.foldr glueCons []

/-- The calls announcing one option: its number and length, then its value if there is any. -/
def owedOption (o : Opt) : List LEvent :=
  .option (UInt16.ofNat o.number) (UInt16.ofNat o.value.length) ::
    (if o.value = [] then [] else [.value (UInt16.ofNat o.number) o.value true])

/-- The header, the token and the options of a message. -/
def owedHead (m : Msg) : List LEvent :=
  .header ⟨UInt8.ofNat (64 * m.version + 16 * m.type + m.token.length), UInt8.ofNat m.code,
    UInt8.ofNat (m.mid / 256), UInt8.ofNat (m.mid % 256)⟩ ::
  ((if m.token = [] then [] else [.token m.token true]) ++ m.opts.flatMap owedOption)

/-- Everything an observer should be told about a message, completion included. -/
def owed (m : Msg) : List LEvent :=
  owedHead m ++ (match m.payload with | none => [] | some p => [.payload p true]) ++ [.complete]

/-- All calls but a trailing one which is not a value. -/
def butTrailing (es : List LEvent) : List LEvent :=
  match es.getLast? with
  | some (.value ..) => es
  | _ => es.dropLast

end Verif.Spec
