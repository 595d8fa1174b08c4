import Verif.Model.UriPath

/-!
# Model of the listing of resources as one text

`core_observer` of `src/exp/uripath-repeater.h` and the loop of the server in `test/posix/discoverable`, both around
`core_evaluator` (`Model/UriPath`).  Output goes to a stream with enough room.
-/
namespace Verif.Model.Uri

/-- `node_core_event::title` — src/exp/uripath-repeater.h:411-415. -/
def titleText (v : List Char) : List Char := ";title=\"".toList ++ v ++ ['"']

/-- `UriPathMatcher2::notify` with a `core_observer` — src/exp/uripath-repeater.h:302-305, 535-551, with `title_tacker`
(lines 429-440).  `evaluate` returns true exactly when it prints something. -/
def coreObserver (coredata : List CoREData) : List Entry → List Entry → Option (List Char)
  | _, [] => some []
  | parents, e :: es =>
    match evaluate coredata parents e with
    | none => none
    | some (parents, out) =>
      (coreObserver coredata parents es).map ((if out = [] then [] else out ++ titleText "test".toList ++ ['\n']) ++ ·)

/-- The loop over the paths — test/posix/discoverable/main.cpp:145-157: every link, what
`extra_link_attribute_handler` (lines 36-49) adds, a comma. -/
def discoverLoop (coredata : List CoREData) (title : Int → Option (List Char)) : List Entry → List Entry → Option (List Char)
  | _, [] => some []
  | parents, e :: es =>
    match evaluate coredata parents e with
    | none => none
    | some (parents, out) =>
      (discoverLoop coredata title parents es).map
        ((if out = [] then [] else out ++ (match title e.id with | none => [] | some t => titleText t) ++ [',']) ++ ·)

/-- The payload — test/posix/discoverable/main.cpp:130-162: all but the last character.  `none` also when nothing was
printed: the length is then the largest `size_t`. -/
def discover (coredata : List CoREData) (title : Int → Option (List Char)) (table : List Entry) : Option (List Char) :=
  match discoverLoop coredata title [] table with
  | none => none
  | some text => if text.length = 0 then none else some (text.take (text.length - 1))

end Verif.Model.Uri
