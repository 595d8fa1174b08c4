import Verif.Spec.Aggregate

/-! # What an aggregate of handlers tells whom of a sequence of messages (C55), as the code has it

Stated in terms of the messages alone: the options and payloads, and the names. -/
namespace Verif.Spec
open Verif.Model Verif.Model.Dispatch

/-- What the messages before have left behind: no handler, a handler that is kept, one that is destroyed. -/
inductive Left where
  | nobody
  | kept (i : Nat)
  | gone

/-- What a message leaves behind that was told to handler `i`: its end, told with the payload, destroys the handler. -/
def leaves (i : Nat) : Option (List UInt8) → Left
  | none => .kept i
  | some _ => .gone

/-- `Course names s ms r`: starting with `s`, of the messages `ms` the calls `r` are made, each with the handler called; `none` when a
handler is called that is destroyed. -/
inductive Course (names : List (List UInt8)) : Left → List Msg → Option (List (Nat × Call)) → Prop
  | nil {s} : Course names s [] (some [])
  | unserved {m ms r} : (∀ o ∈ m.opts, ¬Named names o) → Course names .nobody ms r → Course names .nobody (m :: ms) r
  | served {m ms r i rest} : Served names m.opts i rest → Course names (leaves i m.payload) ms r →
      Course names .nobody (m :: ms) (r.map fun l => (told rest m.payload).map (fun c => (i, c)) ++ l)
  | kept {m ms r i} : Course names (leaves i m.payload) ms r →
      Course names (.kept i) (m :: ms) (r.map fun l => (told m.opts m.payload).map (fun c => (i, c)) ++ l)
  | empty {m ms r} : told m.opts m.payload = [] → Course names .gone ms r → Course names .gone (m :: ms) r
  | crash {m ms} : told m.opts m.payload ≠ [] → Course names .gone (m :: ms) none

/-- The message has a payload or an option with a value. -/
def Carries (m : Msg) : Prop := m.payload ≠ none ∨ ∃ o ∈ m.opts, o.value ≠ []

end Verif.Spec
