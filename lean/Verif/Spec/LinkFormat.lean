import Verif.Spec.UriPath

/-! # Reading link-format (RFC 6690 section 2), character by character -/
namespace Verif.Spec
open Verif.Model.Uri

/-- A link: target and attributes. -/
structure Link where
  target : List Char
  attrs : List (List Char × List Char)
deriving DecidableEq, Repr

/-- Where a reader is. -/
inductive LinkState
  /-- a link must follow -/
  | start
  /-- inside the angle brackets -/
  | target (u : List Char)
  /-- behind the target or a quoted value -/
  | params (l : Link)
  /-- inside the name of an attribute -/
  | name (l : Link) (n : List Char)
  /-- behind the equals sign -/
  | value (l : Link) (n : List Char)
  /-- inside quotes -/
  | quoted (l : Link) (n v : List Char)
  /-- behind a backslash inside quotes -/
  | escaped (l : Link) (n v : List Char)
  /-- inside a value without quotes -/
  | token (l : Link) (n v : List Char)

/-- The link with one more attribute. -/
def Link.with_ (l : Link) (n v : List Char) : Link := { l with attrs := l.attrs ++ [(n, v)] }

/-- One character behind something that ends an attribute: the next attribute or the next link. -/
def linkNext (done : List Link) (l : Link) (c : Char) : Option (List Link × LinkState) :=
  if c = ';' then some (done, .name l []) else if c = ',' then some (done ++ [l], .start) else none

/-- One character. -/
def linkStep : List Link × LinkState → Char → Option (List Link × LinkState)
  | (done, .start), c => if c = '<' then some (done, .target []) else none
  | (done, .target u), c => if c = '>' then some (done, .params ⟨u, []⟩) else some (done, .target (u ++ [c]))
  | (done, .params l), c => linkNext done l c
  | (done, .name l n), c => if c = '=' then some (done, .value l n) else if c = ';' ∨ c = ',' then linkNext done (l.with_ n []) c
      else some (done, .name l (n ++ [c]))
  | (done, .value l n), c => if c = '"' then some (done, .quoted l n []) else if c = ';' ∨ c = ',' then none
      else some (done, .token l n [c])
  | (done, .quoted l n v), c => if c = '"' then some (done, .params (l.with_ n v)) else if c = '\\' then some (done, .escaped l n v)
      else some (done, .quoted l n (v ++ [c]))
  | (done, .escaped l n v), c => some (done, .quoted l n (v ++ [c]))
  | (done, .token l n v), c => if c = ';' ∨ c = ',' then linkNext done (l.with_ n v) c else some (done, .token l n (v ++ [c]))

/-- All characters. -/
def linkRun (s : List Link × LinkState) : List Char → Option (List Link × LinkState)
  | [] => some s
  | c :: cs => (linkStep s c).bind (linkRun · cs)

/-- The links a text consists of, if it is link-format. -/
def readLinks (text : List Char) : Option (List Link) :=
  if text = [] then some []
  else
    match linkRun ([], .start) text with
    | some (done, .params l) => some (done ++ [l])
    | some (done, .name l n) => some (done ++ [l.with_ n []])
    | some (done, .token l n v) => some (done ++ [l.with_ n v])
    | _ => none

/-- The link a node should have: its full path, and its resource type, interface description and title if given. -/
def coreLink (cd : List CoREData) (title : Int → Option (List Char)) (np : Int × List (List Char)) : Option Link :=
  (cd.find? fun v => v.node == np.1).map fun d =>
    ⟨(np.2.map fun s => '/' :: s).flatten,
      (if d.rt = [] then [] else [("rt".toList, d.rt)]) ++ (if d.ifd = [] then [] else [("if".toList, d.ifd)]) ++
        match title np.1 with | none => [] | some t => [("title".toList, t)]⟩

/-- No character of the value has a meaning inside quotes. -/
def Plain (v : List Char) : Prop := '"' ∉ v ∧ '\\' ∉ v

end Verif.Spec
