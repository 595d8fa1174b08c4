import Verif.Model.UriPath

/-! # What a table of URI paths means -/
namespace Verif.Spec
open Verif.Model.Uri

/-- `e` is the first entry of the table for this segment under this parent. -/
def FirstEntry (t : List Entry) (seg : List Char) (parent : Int) (e : Entry) : Prop :=
  ∃ pre post, t = pre ++ e :: post ∧ e.seg = seg ∧ e.parent = parent ∧ ∀ x ∈ pre, ¬(x.seg = seg ∧ x.parent = parent)

/-- Starting at node `p`, the path leads to node `q`. -/
inductive Denotes (t : List Entry) : Int → List (List Char) → Int → Prop
  | here (p : Int) : Denotes t p [] p
  | step {p q : Int} {e : Entry} {seg : List Char} {segs : List (List Char)} :
      FirstEntry t seg p e → Denotes t e.id segs q → Denotes t p (seg :: segs) q

/-- Parents before children: no entry up to and including `e` is a child of `e`. -/
def ParentsFirst (t : List Entry) : Prop := ∀ pre e post, t = pre ++ e :: post → ∀ x ∈ pre ++ [e], x.parent ≠ e.id

/-- A tree of resources. -/
inductive Tree
  | node (seg : List Char) (id : Int) (children : List Tree)

mutual
/-- The table of a tree below a parent, depth first. -/
def Tree.table (parent : Int) : Tree → List Entry
  | .node seg id children => ⟨seg, id, parent⟩ :: forestTable id children
/-- The table of several trees, one after the other. -/
def forestTable (parent : Int) : List Tree → List Entry
  | [] => []
  | t :: ts => Tree.table parent t ++ forestTable parent ts
end

mutual
/-- Every node with its full path, depth first. -/
def Tree.paths (above : List (List Char)) : Tree → List (Int × List (List Char))
  | .node seg id children => (id, above ++ [seg]) :: forestPaths (above ++ [seg]) children
/-- As `Tree.paths` for several trees. -/
def forestPaths (above : List (List Char)) : List Tree → List (Int × List (List Char))
  | [] => []
  | t :: ts => Tree.paths above t ++ forestPaths above ts
end

mutual
/-- Number of levels. -/
def Tree.depth : Tree → Nat
  | .node _ _ children => forestDepth children + 1
/-- Number of levels of several trees. -/
def forestDepth : List Tree → Nat
  | [] => 0
  | t :: ts => max (Tree.depth t) (forestDepth ts)
end

/-- RFC 6690 link: the path in angle brackets, then resource type and interface description if given. -/
def link (path : List (List Char)) (rt ifd : List Char) : List Char :=
  ['<'] ++ (path.map fun s => '/' :: s).flatten ++ ['>'] ++
    (if rt = [] then [] else ";rt=\"".toList ++ rt ++ ['"']) ++ (if ifd = [] then [] else ";if=\"".toList ++ ifd ++ ['"'])

/-- The line of a listing for a node: the link of the first meta-data registered for it, or nothing. -/
def coreLine (cd : List CoREData) (np : Int × List (List Char)) : List Char :=
  match cd.find? fun v => v.node == np.1 with
  | some d => link np.2 d.rt d.ifd
  | none => []

end Verif.Spec
