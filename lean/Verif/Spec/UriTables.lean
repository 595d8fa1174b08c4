import Verif.Model.UriTables
import Verif.Spec.UriPath

/-! # What path tables in pieces mean -/
namespace Verif.Spec
open Verif.Model.Uri

/-- The one table that says the same: every child with its parent. -/
def flatTable (rels : List Relation) (count : Int) : List Entry :=
  (rels.take count.toNat).flatMap fun r => (r.children.take r.count.toNat).map fun c => ⟨c.seg, c.id, r.parent⟩

/-- The numbers given are not negative and not more than there are entries. -/
def CountsFit (rels : List Relation) (count : Int) : Prop :=
  0 ≤ count ∧ count ≤ rels.length ∧ ∀ r ∈ rels.take count.toNat, 0 ≤ r.count ∧ r.count ≤ r.children.length

/-- No parent has two tables. -/
def OneTableEach (rels : List Relation) (count : Int) : Prop := (rels.take count.toNat).Pairwise fun a b => a.parent ≠ b.parent

/-- Node ids are not negative. -/
def NodeIds (rels : List Relation) (count : Int) : Prop := ∀ e ∈ flatTable rels count, 0 ≤ e.id

end Verif.Spec
