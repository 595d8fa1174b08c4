import Verif.Model.AggregateMessage

/-! # What several observers of one message make of it, and what a set of factories should make -/
namespace Verif.Spec
open Verif.Model

variable {χ : Type}

/-- An observer at work: its class and what its members hold. -/
abbrev Living (χ : Type) := (o : MObs χ) × o.σ

/-- One call, made to each observer in order; each keeps what it remembers. -/
def tellAll : List (Living χ) → χ → LEvent → List (Living χ) × χ
  | [], x, _ => ([], x)
  | w :: ws, x, e =>
    let r := w.1.call x w.2 e
    let rs := tellAll ws r.1 e
    (⟨w.1, r.2⟩ :: rs.1, rs.2)

/-- A whole message, told to each observer in order. -/
def together : List (Living χ) → χ → List LEvent → List (Living χ) × χ
  | ws, x, [] => (ws, x)
  | ws, x, e :: es => together (tellAll ws x e).1 (tellAll ws x e).2 es

/-- The calls before the payload. -/
def isHead : LEvent → Bool
  | .payload .. => false
  | .complete => false
  | _ => true

/-- An observer whose calls do not depend on what it remembers. -/
def Forgetful (o : MObs χ) : Prop := ∀ x s t e, (o.call x s e).1 = (o.call x t e).1

/-- An observer that does nothing at the payload and the completion. -/
def HeadOnly (o : MObs χ) : Prop := ∀ x s e, isHead e = false → (o.call x s e).1 = x

variable {κ ω : Type}

/-- A factory can make something for the key. -/
def canMake (f : AFactory κ ω) (key : κ) : Bool := (f.canCreate f.state key).2

/-- What the factory makes for the key, once asked whether it can. -/
def makes (f : AFactory κ ω) (key : κ) : ω := (f.create (f.canCreate f.state key).1 key).2

/-- The factory after it was asked once, and made something if it can. -/
def asked (f : AFactory κ ω) (key : κ) : AFactory κ ω :=
  match f.canCreate f.state key with
  | (s, true) => { f with state := (f.create s key).1 }
  | (s, false) => { f with state := s }

end Verif.Spec
