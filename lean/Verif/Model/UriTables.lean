import Verif.Model.UriPath

/-!
# Model of the path tables in pieces of `src/exp/uripath-repeater.h`

Instead of one table with the parent of every entry there is one table per parent and a table of those.  The number of entries
is handed over beside the array and is an `int`: `none` stands for a read behind the array.
-/
namespace Verif.Model.Uri

/-- `UriPathMap2` — src/exp/uripath-repeater.h:26: the segment and its node id. -/
structure Child where
  seg : List Char
  id : Int
deriving DecidableEq, Repr

/-- `triad<int, UriPathMap2*, int>` — src/exp/uripath-repeater.h:337-349, test/unit-tests/experimental2-test.cpp:133-141: the parent, the array of its
children and the number of children given. -/
structure Relation where
  parent : Int
  children : List Child
  count : Int
deriving DecidableEq, Repr

/-- `match` in the table of one parent — src/exp/uripath-repeater.h:322-335.  `while(count--)` also goes on for a negative number. -/
def matchChild (s : List Char) : Int → List Child → Option Int
  | count, items =>
    if count = 0 then some none_
    else
      match items with
      | [] => none
      | c :: items => if s == c.seg then some c.id else matchChild s (count - 1) items

/-- `match` in the table of the tables — src/exp/uripath-repeater.h:337-349; `some none` is a null pointer. -/
def matchRelation (key : Int) : Int → List Relation → Option (Option Relation)
  | count, items =>
    if count = 0 then some none
    else
      match items with
      | [] => none
      | r :: items => if r.parent == key then some (some r) else matchRelation key (count - 1) items

/-- One segment below a node: its table, and the segment in it — test/unit-tests/experimental2-test.cpp:235-245. -/
def tableStep (rels : List Relation) (count : Int) (node : Int) (s : List Char) : Option Int :=
  match matchRelation node count rels with
  | none => none
  | some none => some none_
  | some (some r) => matchChild s r.count r.children

/-- The segments of a path one after another, as long as there is a node (`if(id >= 0)`) —
test/unit-tests/experimental2-test.cpp:235-245. -/
def tableWalk (rels : List Relation) (count : Int) : Int → List (List Char) → Option Int
  | node, [] => some node
  | node, s :: segs =>
    match tableStep rels count node s with
    | none => none
    | some id => if id ≥ 0 then tableWalk rels count id segs else some none_

end Verif.Model.Uri
