import Verif.Model.Dispatch

/-!
# Nested dispatchers: `uri_plus_factory_dispatcher` and `uri_plus_observer_dispatcher`

`Model/Dispatch` has one dispatcher whose handlers are arbitrary.  Here the handlers are the ones of
`src/coap-uripath-dispatcher.h`, whose inner observers are dispatchers again, or observers of the user.
Object lifetimes (`objstack`) are not modelled.
-/
namespace Verif.Model.Dispatch

/-- A factory — src/coap-uripath-dispatcher.h:150-164 (`node`: prefix and the factories below it) and 167-181 (`leaf`:
prefix and the observer of the user, here a number). -/
inductive Route
  | leaf (pre : List UInt8) (id : Nat)
  | node (pre : List UInt8) (kids : List Route)

/-- The prefix — src/coap-uripath-dispatcher.h:39. -/
def Route.pre : Route → List UInt8
  | .leaf p _ => p
  | .node p _ => p

/-- What a handler made by a factory remembers: the interest of the `SingleUriPathObserver`
(src/coap-uripath-dispatcher.h:136-147) and, for a `node`, the interests and the chosen handler (which factory, and
what it remembers) of the `FactoryDispatcherHandler` inside (src/coap-dispatcher.h:53-246). -/
inductive Live
  | mk (interest : Interest) (states : List (Option Interest)) (chosen : Option (Nat × Live))

/-- `interested()` — src/coap/decoder/observer.h:230-242. -/
def Live.interest : Live → Interest
  | .mk i _ _ => i

/-- What a `FactoryDispatcherHandler` remembers — src/coap-dispatcher.h:53-246. -/
structure DState' where
  states : List (Option Interest)
  chosen : Option (Nat × Live)

/-- Constructor — src/coap-dispatcher.h:185-212, for at most ten factories. -/
def DState'.init (kids : List Route) : DState' := ⟨kids.map fun _ => none, none⟩

/-- A new handler — src/coap-uripath-dispatcher.h:150-164, 167-181. -/
def Route.fresh : Route → Live
  | .leaf _ _ => .mk .currently [] none
  | .node _ kids => .mk .currently (DState'.init kids).states (DState'.init kids).chosen

/-- One call to a `FactoryDispatcherHandler` — src/coap-dispatcher.hpp:86-254, as `Disp.call`.  `nth` calls the chosen
handler, `pass` is the loop over the factories. -/
def dispatch (nth : Nat → Live → Call → Live × List (Nat × Call))
    (pass : Call → List (Option Interest) → Option (Nat × Live) → DState' × List (Nat × Call))
    (d : DState') (c : Call) : DState' × List (Nat × Call) :=
  match c with
  | .header _ => pass c d.states d.chosen
  | .complete => pass c d.states d.chosen
  | .optionHead _ _ =>
    match d.chosen with
    | some (i, l) => let r := nth i l c; (⟨d.states, some (i, r.1)⟩, r.2)
    | none => (d, [])
  | _ =>
    match d.chosen with
    | some (i, l) => let r := nth i l c; (⟨d.states, some (i, r.1)⟩, r.2)
    | none => pass c d.states d.chosen

/-- The calls to one handler in a pass, one after the other — src/coap-dispatcher.hpp:86-254, listed by `passCalls`. -/
def inPass (call : Live → Call → Live × List (Nat × Call)) (l : Live) (c : Call) : Live × List (Nat × Call) :=
  (passCalls c).foldl (fun r c => let a := call r.1 c; (a.1, r.2 ++ a.2)) (l, [])

mutual
/-- One call to a handler — src/coap-uripath-dispatcher.h:44-122, as `UriHandler.call`, which hands on at most one call
to the observer inside.  The result lists the calls made to observers of the user. -/
def Route.call (cs : Bool) : Route → Live → Call → Live × List (Nat × Call)
  | .leaf pre id, .mk i st ch, c =>
    let u := UriHandler.call cs ⟨pre, i, []⟩ c
    (.mk u.interest st ch, u.passed.map (id, ·))
  | .node pre kids, .mk i st ch, c =>
    let u := UriHandler.call cs ⟨pre, i, []⟩ c
    match u.passed with
    | [] => (.mk u.interest st ch, [])
    | c' :: _ =>
      let r := dispatch (callNth cs kids) (passKids cs kids 0) ⟨st, ch⟩ c'
      (.mk u.interest r.1.states r.1.chosen, r.2)

/-- The chosen handler, made by the factory with this index — src/coap-dispatcher.hpp:121-125, 152-156, 164-168,
195-210. -/
def callNth (cs : Bool) : List Route → Nat → Live → Call → Live × List (Nat × Call)
  | [], _, l, _ => (l, [])
  | k :: _, 0, l, c => Route.call cs k l c
  | _ :: kids, i + 1, l, c => callNth cs kids i l c

/-- The loop over the factories — src/coap-dispatcher.hpp:92-109 with `observer_helper_begin` (6-23) and
`observer_helper_end` (26-83), as `pass`.  `n` is the index of the first of the factories. -/
def passKids (cs : Bool) : List Route → Nat → Call → List (Option Interest) → Option (Nat × Live) →
    DState' × List (Nat × Call)
  | [], _, _, states, chosen => (⟨states, chosen⟩, [])
  | _ :: _, _, _, [], chosen => (⟨[], chosen⟩, [])
  | k :: kids, n, c, s :: states, chosen =>
    if s == some .never then
      let r := passKids cs kids (n + 1) c states chosen
      (⟨s :: r.1.states, r.1.chosen⟩, r.2)
    else
      let a := inPass (Route.call cs k) k.fresh c
      let chosen := if a.1.interest == .always then some (n, a.1) else chosen
      let r := passKids cs kids (n + 1) c states chosen
      (⟨some a.1.interest :: r.1.states, r.1.chosen⟩, a.2 ++ r.2)
end

/-- One call to a dispatcher over these factories — src/coap-dispatcher.hpp:86-254. -/
def dispCall (cs : Bool) (kids : List Route) (d : DState') (c : Call) : DState' × List (Nat × Call) :=
  dispatch (callNth cs kids) (passKids cs kids 0) d c

/-- A sequence of calls to a dispatcher — src/coap-dispatcher.hpp:86-254; all calls made to observers of the user. -/
def dispCalls (cs : Bool) (kids : List Route) : DState' → List Call → DState' × List (Nat × Call)
  | d, [] => (d, [])
  | d, c :: rest =>
    let r := dispCall cs kids d c
    let r' := dispCalls cs kids r.1 rest
    (r'.1, r.2 ++ r'.2)

end Verif.Model.Dispatch
