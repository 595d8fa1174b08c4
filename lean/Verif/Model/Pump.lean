import Verif.Model.Legacy

/-!
# Model of `src/platform/generic/datapump-messageobserver.hpp`: messages from a data pump to an observer

The pump's library is not in the checkout; its incoming queue is taken to be first in, first out.  A datagram is the
list of chunks of its network buffer.
-/
namespace Verif.Model
open Dec

/-- `process_messageobserver_helper` — src/platform/generic/datapump-messageobserver.hpp:10-47: the first chunk is
dispatched as the last one, the others are not looked at (the loop is commented out, line 36). -/
def pumpDispatch (fuel : Nat) (d : Dec) (datagram : List (List UInt8)) : Except Fault (Dec × List LEvent) :=
  match legacyRun fuel d ⟨datagram.headD [], 0, true⟩ with
  | .error e => .error e
  | .ok (d, _, evs) => .ok (d, evs)

/-- `process_messageobserver` called until the queue is empty — src/platform/generic/datapump-messageobserver.hpp:62-93:
the datagram at the front is dispatched and removed.  The result has the calls made for each datagram. -/
def pump (fuel : Nat) (d : Dec) : List (List (List UInt8)) → Except Fault (Dec × List (List LEvent))
  | [] => .ok (d, [])
  | g :: gs =>
    match pumpDispatch fuel d g with
    | .error e => .error e
    | .ok (d, evs) =>
      match pump fuel d gs with
      | .error e => .error e
      | .ok (d, rest) => .ok (d, evs :: rest)

end Verif.Model
