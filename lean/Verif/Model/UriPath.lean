/-!
# Model of `src/exp/uripathmap.h` and the matchers and CoRE listing of `src/exp/uripath-repeater.h`

Strings are lists of characters; `==` between the string classes compares the characters.  An
`estd::layer1::optional<int, -1>` is an integer that is -1 when there is no value.
-/
namespace Verif.Model.Uri

/-- `UriPathMap` — src/exp/uripathmap.h:18-28: the segment, its node id, the id of the parent node. -/
structure Entry where
  seg : List Char
  id : Int
  parent : Int
deriving DecidableEq, Repr

/-- `MCCOAP_URIPATH_NONE` — src/exp/uripathmap.h:15. -/
def none_ : Int := -1

/-- `match` — src/exp/uripathmap.h:30-43. -/
def match_ : List Entry → List Char → Int → Option Entry
  | [], _, _ => none
  | e :: items, s, parent => if s == e.seg && e.parent == parent then some e else match_ items s parent

/-- `UriPathMatcherBase::find` — src/exp/uripath-repeater.h:163-187: the id found, and the iterator as the items
from it on. -/
def baseFind (piece : List Char) (within : Int) : List Entry → Int × List Entry
  | [] => (none_, [])
  | e :: items => if piece == e.seg && e.parent == within then (e.id, e :: items) else baseFind piece within items

/-- `UriPathMatcher2::find(uri_piece, within)` — src/exp/uripath-repeater.h:272-276. -/
def find2 (container : List Entry) (piece : List Char) (within : Int) : Int := (baseFind piece within container).1

/-- State of a matcher: the items from the cursor on, and the node found last (-1: none) —
src/exp/uripathmap.h:49-51, src/exp/uripath-repeater.h:251-252. -/
structure Matcher where
  current : List Entry
  parent : Int
deriving DecidableEq, Repr

/-- Constructors — src/exp/uripathmap.h:53-58, src/exp/uripath-repeater.h:254-259. -/
def Matcher.init (paths : List Entry) : Matcher := ⟨paths, none_⟩

/-- The loop of `UriPathMatcher3::find` — src/exp/uripathmap.h:63-86: the cursor where it stops. -/
def seek (parent : Int) (uripath : List Char) : List Entry → List Entry
  | [] => []
  | e :: items =>
    if e.parent == parent then
      if e.seg == uripath then e :: items else seek parent uripath items
    else seek parent uripath items

/-- `UriPathMatcher3::find` — src/exp/uripathmap.h:61-90. -/
def Matcher.find (m : Matcher) (uripath : List Char) : Matcher × Option Entry :=
  match seek m.parent uripath m.current with
  | e :: items => (⟨e :: items, e.id⟩, some e)
  | [] => (⟨[], none_⟩, none)

/-- The stateful `UriPathMatcher2::find` — src/exp/uripath-repeater.h:282-290. -/
def Matcher.find2 (m : Matcher) (piece : List Char) : Matcher × Int :=
  let (id, pos) := baseFind piece (if m.parent != none_ then m.parent else none_) m.current
  (⟨pos, id⟩, id)

/-- `last_found` — src/exp/uripathmap.h:92-95. -/
def Matcher.lastFound (m : Matcher) : Int := m.parent

/-- The segments of a path one after another, as `UriParserObserver` feeds them —
src/coap/decoder/observer/util.h:79-95. -/
def Matcher.feed (m : Matcher) : List (List Char) → Matcher
  | [] => m
  | s :: ss => Matcher.feed (m.find s).1 ss

/-- As `Matcher.feed`, with the stateful search of `UriPathMatcher2` —
src/coap/decoder/observer/util.h:79-95, src/exp/uripath-repeater.h:282-290. -/
def Matcher.feed2 (m : Matcher) : List (List Char) → Matcher
  | [] => m
  | s :: ss => Matcher.feed2 (m.find2 s).1 ss

/-- `CoREData` — src/exp/uripath-repeater.h:29-44, the members that are printed. -/
structure CoREData where
  node : Int
  rt : List Char
  ifd : List Char
deriving DecidableEq, Repr

/-- `operator<<` for `CoREData` — src/exp/uripath-repeater.h:110-122. -/
def CoREData.print (d : CoREData) : List Char :=
  (if d.rt ≠ [] then ";rt=\"".toList ++ d.rt ++ ['"'] else []) ++
  (if d.ifd ≠ [] then ";if=\"".toList ++ d.ifd ++ ['"'] else [])

/-- `while(!parents.empty() && parents.top()->second != parent) parents.pop()` —
src/exp/uripath-repeater.h:465-466.  The top of the stack is the head of the list. -/
def unwind (parent : Int) : List Entry → List Entry
  | [] => []
  | t :: parents => if t.id != parent then unwind parent parents else t :: parents

/-- `core_evaluator::parent_handler` — src/exp/uripath-repeater.h:461-471.  The stack has room for ten entries
(line 456); what a push onto a full one does is up to the library and is modelled as `none`. -/
def parentHandler (parents : List Entry) (e : Entry) : Option (List Entry) :=
  let parents := unwind e.parent parents
  if parents.length < 10 then some (e :: parents) else none

/-- `core_evaluator::evaluate` — src/exp/uripath-repeater.h:478-520: the new stack and what is printed. -/
def evaluate (coredata : List CoREData) (parents : List Entry) (e : Entry) : Option (List Entry × List Char) :=
  match parentHandler parents e with
  | none => none
  | some parents =>
    match coredata.find? fun v => v.node == e.id with
    | some d => some (parents, ['<'] ++ (parents.reverse.map fun p => '/' :: p.seg).flatten ++ ['>'] ++ d.print)
    | none => some (parents, [])

/-- `UriPathMatcher2::notify` with a `core_evaluator` — src/exp/uripath-repeater.h:205-213, 302-305: everything
that is printed, in order, one item per table entry. -/
def listing (coredata : List CoREData) : List Entry → List Entry → Option (List (List Char))
  | _, [] => some []
  | parents, e :: es =>
    match evaluate coredata parents e with
    | none => none
    | some (parents, out) => (listing coredata parents es).map (out :: ·)

end Verif.Model.Uri
