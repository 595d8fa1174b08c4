import Verif.Spec.Read

/-! # What arbitrary bytes behind header and token say about observation -/
namespace Verif.Spec

/-- The first bytes of the Observe options that have one; numbers count modulo 65536. -/
def observeFirsts (is : List Item) : List UInt8 :=
  is.filterMap fun i => if i.number % 65536 = 6 then i.value.head? else none

end Verif.Spec
