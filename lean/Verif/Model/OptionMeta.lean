/-!
# Model of the option meta-data: `OptionDecoder::get_format` and `src/exp/option-trait.h`

Option numbers are `UInt16`, as they come out of the decoder.
-/
namespace Verif.Model.OptionMeta

/-- `Option::ValueFormats` — src/coap/option.h:91-98. -/
inductive Format
  | unknown | empty | opaque | uint | string
deriving DecidableEq, Repr

/-- `OptionDecoder::get_format` — src/coap/decoder/option.h:138-162; numbers from src/coap/option.h:39-69. -/
def getFormat (number : UInt16) : Format :=
  if number == 1 then .opaque
  else if number == 3 then .string
  else if number == 4 then .opaque
  else if number == 5 then .empty
  else if number == 7 then .uint
  else if number == 8 then .string
  else if number == 11 then .string
  else if number == 12 then .uint
  else if number == 15 then .string
  else if number == 17 then .uint
  else if number == 23 then .uint
  else if number == 27 then .uint
  else .unknown

/-- `OptionRuntimeTrait` — src/exp/option-trait.h:14-20, without the description. -/
structure Trait where
  format : Format
  min : Int
  max : Int
deriving DecidableEq, Repr

/-- `OptionTrait<number>` for the numbers in `option_traits_type`, in its order — src/exp/option-trait.h:88-174. -/
def traits : List (UInt16 × Trait) :=
  [(1, ⟨.opaque, 0, 8⟩), (60, ⟨.uint, 0, 4⟩), (11, ⟨.string, 0, 255⟩), (20, ⟨.string, 0, 255⟩), (12, ⟨.uint, 0, 2⟩),
   (17, ⟨.uint, 0, 2⟩), (4, ⟨.opaque, 1, 8⟩), (35, ⟨.string, 1, 1034⟩), (39, ⟨.string, 1, 255⟩), (23, ⟨.uint, 0, 3⟩),
   (27, ⟨.uint, 0, 3⟩), (60, ⟨.uint, 0, 4⟩)]

/-- `OptionTraitContainer::runtime_trait` — src/exp/option-trait.h:38-46 and 71-86. -/
def runtimeTrait (number : UInt16) : List (UInt16 × Trait) → Trait
  | [] => ⟨.unknown, -1, -1⟩
  | (n, t) :: ts => if number == n then t else runtimeTrait number ts

/-- `OptionTraitContainer::format` — src/exp/option-trait.h:30-33 and 65-70. -/
def format (number : UInt16) : List (UInt16 × Trait) → Format
  | [] => .unknown
  | (n, t) :: ts => if number == n then t.format else format number ts

/-- `OptionTraitContainer::min` — src/exp/option-trait.h:35 and 55-58. -/
def minLen (number : UInt16) : List (UInt16 × Trait) → Int
  | [] => -1
  | (n, t) :: ts => if number == n then t.min else minLen number ts

/-- `OptionTraitContainer::max` — src/exp/option-trait.h:36 and 60-63. -/
def maxLen (number : UInt16) : List (UInt16 × Trait) → Int
  | [] => -1
  | (n, t) :: ts => if number == n then t.max else maxLen number ts

end Verif.Model.OptionMeta
