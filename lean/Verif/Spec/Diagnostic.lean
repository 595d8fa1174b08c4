import Verif.Spec.Wire
import Verif.Spec.OptionMeta

/-!
# What a person looking at a message wants to see, and the text of a path
-/
namespace Verif.Spec

/-- The names of the options in `optionTable`. -/
def optionNames : List (Nat × String) :=
  [(1, "If-Match"), (3, "Uri-Host"), (4, "ETag"), (5, "If-None-Match"), (6, "Observe"), (7, "Uri-Port"), (8, "Location-Path"),
   (11, "Uri-Path"), (12, "Content-Format"), (14, "Max-Age"), (15, "Uri-Query"), (17, "Accept"), (20, "Location-Query"),
   (23, "Block1"), (27, "Block2"), (35, "Proxy-Uri"), (39, "Proxy-Scheme"), (60, "Size1")]

/-- A path as text: every segment followed by a slash. -/
def pathText (segs : List (List UInt8)) : List UInt8 := segs.flatMap (· ++ [0x2F])

/-- The path of a message. -/
def Msg.path (m : Msg) : List (List UInt8) := (m.opts.filter fun o => o.number = 11).map Opt.value

end Verif.Spec
