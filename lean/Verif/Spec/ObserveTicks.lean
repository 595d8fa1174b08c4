/-!
# Notifying at a pace

Time is counted in ticks since the system was started and does not wrap; a tick has `p` milliseconds.
-/
namespace Verif.Spec.Ticks

/-- Rounds of a loop, each with two moments at which the clock is read: time does not go back, and from the end of one round to
the end of the next no more than `g` ticks pass.  `t` is the end of the round before. -/
def Often (g : Nat) : Nat → List (Nat × Nat) → Prop
  | _, [] => True
  | t, r :: rs => t ≤ r.1 ∧ r.1 ≤ r.2 ∧ r.2 ≤ t + g ∧ Often g r.2 rs

/-- In which rounds a notification is due if one is due whenever more than `limit` milliseconds have passed since the last. -/
def paceEvery (limit p : Nat) : Nat → List (Nat × Nat) → List Bool
  | _, [] => []
  | last, r :: rs => if limit < (r.2 - last) * p then true :: paceEvery limit p r.1 rs else false :: paceEvery limit p last rs

instance instDecidableOften (g : Nat) : (t : Nat) → (rs : List (Nat × Nat)) → Decidable (Often g t rs)
  | _, [] => isTrue trivial
  | t, r :: rs =>
    have := instDecidableOften g r.2 rs
    inferInstanceAs (Decidable (t ≤ r.1 ∧ r.1 ≤ r.2 ∧ r.2 ≤ t + g ∧ Often g r.2 rs))

end Verif.Spec.Ticks
