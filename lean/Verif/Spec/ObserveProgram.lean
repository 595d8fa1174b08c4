import Verif.Model.ObserveProgram
import Verif.Spec.Observe
import Verif.Spec.ObserveEmit
import Verif.Spec.Scan

/-! # What clients may expect of the observe example -/
namespace Verif.Spec
open Verif.Model Verif.Model.Observable

/-- A history as seen from outside: who sent which request, and when the clock was looked at. -/
inductive ObsSeen (A : Type)
  | request (addr : A) (m : Msg)
  | loop (now : Int)

/-- The event of the program is this event seen from outside: the datagram is any encoding of the request, memory held anything. -/
def SeenAs {A : Type} : ObsEv A → ObsSeen A → Prop
  | .got a bytes junk jt _, .request a' m =>
    a = a' ∧ (m.Ok ∧ ∃ ob, IsOpts 0 m.opts ob ∧ bytes = encHeader m ++ m.token ++ ob ++ encPayload m.payload) ∧
      junk.tbuf.length = 8 ∧ junk.opt.st ≠ .payload ∧ jt.length = 8
  | .loop now junk, .loop now' => now = now' ∧ 4 ≤ junk.length
  | _, _ => False

/-- The lists have the same length and what is at the same place is related. -/
def Each {α β : Type} (R : α → β → Prop) : List α → List β → Prop
  | [], [] => True
  | x :: xs, y :: ys => R x y ∧ Each R xs ys
  | _, _ => False

/-- The request has no Observe option. -/
def NoObserve (m : Msg) : Prop := ∀ o ∈ m.opts, o.number ≠ 6

/-- The request begins with an Observe option, whatever its value, followed by other options. -/
def ObserveFirst (m : Msg) : Prop := ∃ v o rest, m.opts = ⟨6, v⟩ :: o :: rest ∧ o.number ≠ 6 ∧ ∀ x ∈ rest, x.number ≠ 6

/-- The requests of a history that are looked at: with one Observe option in front or with none, and a path that fits. -/
def RequestsOk {A : Type} (uriCap : Nat) (hs : List (ObsSeen A)) : Prop :=
  ∀ a m, ObsSeen.request a m ∈ hs → (NoObserve m ∨ ObserveFirst m) ∧
    (((m.opts.filter fun o => o.number = 11).map fun o => o.value.length + 1).sum ≤ uriCap)

/-- Whether the request has an Observe option. -/
def asks (m : Msg) : Bool := m.opts.any fun o => decide (o.number = 6)

/-- How many requests with an Observe option came. -/
def asking {A : Type} : List (ObsSeen A) → Nat
  | [] => 0
  | .request _ m :: hs => (if asks m then 1 else 0) + asking hs
  | .loop _ :: hs => asking hs

/-- The number of looks at the clock. -/
def looks {A : Type} : List (ObsSeen A) → Nat
  | [] => 0
  | .request _ _ :: hs => looks hs
  | .loop _ :: hs => looks hs + 1

/-- When the last round was due, given that the one before the history was at `last`: a round is due at the first look more than a
second after the round before. -/
def lastTurn {A : Type} : Int → List (ObsSeen A) → Int
  | last, [] => last
  | last, .request _ _ :: hs => lastTurn last hs
  | last, .loop now :: hs => lastTurn (if now - last > 1000 then now else last) hs

/-- How many rounds were due. -/
def turns {A : Type} : Int → List (ObsSeen A) → Nat
  | _, [] => 0
  | last, .request _ _ :: hs => turns last hs
  | last, .loop now :: hs => if now - last > 1000 then turns now hs + 1 else turns last hs

/-- Who has asked, in order: address, token and the number of rounds that were due since. -/
def tally {A : Type} : Int → List (ObsSeen A) → List (A × List UInt8 × Nat)
  | _, [] => []
  | last, .request a m :: hs => (if asks m then [(a, m.token, turns last hs)] else []) ++ tally last hs
  | last, .loop now :: hs => tally (if now - last > 1000 then now else last) hs

/-- The bytes are a notification with this token, the number `n` as Observe option and as text. -/
def NotificationOf (token : List UInt8) (n : Nat) (bytes : List UInt8) : Prop :=
  ∃ mid v ds, mid < 65536 ∧ beValue v = n ∧ v.head? ≠ some 0 ∧ v.length ≤ 4 ∧ IsDecimal ds n ∧
    bytes = encMsg (notification mid token v (some (observedWord ++ ds)))

/-- The message id of a datagram: its third and fourth byte. -/
def idOf (bytes : List UInt8) : Nat := beValue ((bytes.drop 2).take 2)

/-- What is sent at an event, if it is a look at the clock. -/
def notesOf {A B : Type} : ObsSeen A → List B → List B
  | .request _ _, _ => []
  | .loop _, ms => ms

/-- All that is sent at looks at the clock, in order. -/
def notes {A B : Type} : List (ObsSeen A) → List (List B) → List B
  | h :: hs, ms :: outs => notesOf h ms ++ notes hs outs
  | _, _ => []

end Verif.Spec
