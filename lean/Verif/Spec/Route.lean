import Verif.Model.Route
import Verif.Spec.Wire

/-! # Where a message goes in a tree of routes -/
namespace Verif.Spec
open Verif.Model.Dispatch

/-- A segment and a name do not differ in any place they both have.  (With signed characters, a name byte from 128 on
differs from every byte.) -/
def Agree (charSigned : Bool) (seg name : List UInt8) : Prop :=
  ∀ (i : Nat) (b p : UInt8), seg[i]? = some b → name[i]? = some p → b = p ∧ (charSigned = true → p < 128)

/-- `k` is the last of the routes whose name agrees with the segment. -/
def LastAgreeing (charSigned : Bool) (kids : List Route) (seg : List UInt8) (k : Route) : Prop :=
  ∃ a b, kids = a ++ k :: b ∧ Agree charSigned seg k.pre ∧ ∀ x ∈ b, ¬Agree charSigned seg x.pre

/-- Following the non-empty Uri-Path options (number 11) of `opts` from the routes `kids`, one arrives at observer `id` with
the options `rest` still to come.  The other options do not matter on the way. -/
inductive Arrives (charSigned : Bool) : List Route → List Opt → Nat → List Opt → Prop
  | skip {kids o opts id rest} : o.number ≠ 11 ∨ o.value = [] → Arrives charSigned kids opts id rest →
      Arrives charSigned kids (o :: opts) id rest
  | leaf {kids o opts id name} : o.number = 11 → o.value ≠ [] → LastAgreeing charSigned kids o.value (.leaf name id) →
      Arrives charSigned kids (o :: opts) id opts
  | node {kids o opts id rest name below} : o.number = 11 → o.value ≠ [] → LastAgreeing charSigned kids o.value (.node name below) →
      Arrives charSigned below opts id rest → Arrives charSigned kids (o :: opts) id rest

/-- What the user of the routes means: like `Arrives`, but names and segments are equal. -/
inductive Meant : List Route → List Opt → Nat → List Opt → Prop
  | skip {kids o opts id rest} : o.number ≠ 11 → Meant kids opts id rest → Meant kids (o :: opts) id rest
  | leaf {kids o opts id name} : o.number = 11 → name = o.value → Route.leaf name id ∈ kids → Meant kids (o :: opts) id opts
  | node {kids o opts id rest name below} : o.number = 11 → name = o.value → Route.node name below ∈ kids →
      Meant below opts id rest → Meant kids (o :: opts) id rest

end Verif.Spec
