import Verif.Spec.ExamplesAny

/-! # How the characters of a stream look to a reader that keeps them in its character type

A reader that keeps each character in a variable of the stream's character type and compares that with `eof()` cannot tell
the byte 0xFF from the end of the data: with a signed character type both look like the end, with an unsigned one both look
like the byte. -/
namespace Verif.Spec

/-- The first `n` characters that such a reader takes from the bytes, and the bytes left behind them.  With a signed
character type (`signed`) a byte 0xFF is no character, and at the end there are no more; with an unsigned one there is always
one more, 0xFF.  `none`: the reader waits for ever. -/
def takeChars (signed : Bool) : List UInt8 → Nat → Option (List UInt8 × List UInt8)
  | [], n => if signed && n != 0 then none else some (List.replicate n 0xFF, [])
  | b :: l, 0 => some ([], b :: l)
  | b :: l, n + 1 =>
    if signed && b == 0xFF then takeChars signed l (n + 1)
    else (takeChars signed l n).map fun (cs, rest) => (b :: cs, rest)

theorem takeChars_zero (signed : Bool) (l : List UInt8) : takeChars signed l 0 = some ([], l) := by
  cases l with
  | nil => simp [takeChars]
  | cons b l => simp [takeChars]

/-- Where there are enough bytes and, with a signed type, none of them is 0xFF, the reader takes just these. -/
theorem takeChars_clean (signed : Bool) (cs rest : List UInt8) (h : signed = true → ∀ b ∈ cs, b ≠ 0xFF) :
    takeChars signed (cs ++ rest) cs.length = some (cs, rest) := by
  induction cs with
  | nil => simp [takeChars_zero]
  | cons b cs ih =>
    have hb : (signed && b == 0xFF) = false := by
      cases signed with
      | false => rfl
      | true => simpa using h rfl b (by simp)
    simp only [List.cons_append, List.length_cons, takeChars, hb]
    rw [ih fun hs x hx => h hs x (by simp [hx])]
    rfl

theorem takeChars_length {signed : Bool} {l : List UInt8} {n : Nat} {cs rest : List UInt8}
    (h : takeChars signed l n = some (cs, rest)) : cs.length = n ∧ (signed = true → ∀ b ∈ cs, b ≠ 0xFF) := by
  induction l generalizing n cs rest with
  | nil =>
    rw [takeChars] at h
    by_cases hn : (signed && n != 0) = true
    · rw [if_pos hn] at h; cases h
    · rw [if_neg hn] at h
      simp only [Option.some.injEq, Prod.mk.injEq] at h
      obtain ⟨rfl, -⟩ := h
      refine ⟨by simp, fun hs b hb => ?_⟩
      subst hs
      have : n = 0 := by simpa using hn
      subst this
      cases hb
  | cons b l ih =>
    cases n with
    | zero =>
      rw [takeChars_zero] at h
      simp only [Option.some.injEq, Prod.mk.injEq] at h
      obtain ⟨rfl, -⟩ := h
      exact ⟨rfl, fun _ b hb => by cases hb⟩
    | succ n =>
      rw [takeChars] at h
      by_cases hb : (signed && b == 0xFF) = true
      · rw [if_pos hb] at h; exact ih h
      · rw [if_neg hb] at h
        cases e : takeChars signed l n with
        | none => rw [e] at h; cases h
        | some v =>
          obtain ⟨cs', r'⟩ := v
          rw [e] at h
          simp only [Option.map_some, Option.some.injEq, Prod.mk.injEq] at h
          obtain ⟨rfl, rfl⟩ := h
          have := ih e
          refine ⟨by simp [this.1], fun hs x hx => ?_⟩
          rcases List.mem_cons.1 hx with rfl | hx
          · subst hs; simpa using hb
          · exact this.2 hs x hx

/-- With an unsigned type nothing is waited for: what is missing is 0xFF. -/
theorem takeChars_unsigned (l : List UInt8) (n : Nat) :
    takeChars false l n = some ((l ++ List.replicate (n - l.length) 0xFF).take n, l.drop n) := by
  induction l generalizing n with
  | nil => simp [takeChars]
  | cons b l ih =>
    cases n with
    | zero => simp [takeChars]
    | succ n => simp [takeChars, ih]

/-- With a signed type the bytes 0xFF are skipped. -/
theorem takeChars_signed_iff (l : List UInt8) (n : Nat) :
    (takeChars true l n).isSome = true ↔ n ≤ (l.filter (· != 0xFF)).length := by
  induction l generalizing n with
  | nil => cases n <;> simp [takeChars]
  | cons b l ih =>
    cases n with
    | zero => simp [takeChars]
    | succ n =>
      by_cases hb : b = 0xFF
      · subst hb; simp [takeChars, ih]
      · have hb' : (b == 0xFF) = false := by simpa using hb
        simp [takeChars, hb', ih, hb]

/-- A datagram as such a reader takes it: the characters of header and token, and what is left.  `none`: they do not come. -/
def seenBytes (signed : Bool) (bytes : List UInt8) : Option (List UInt8) :=
  match takeChars signed bytes 4 with
  | none => none
  | some (head, r) => (takeChars signed r (tokenClaim head)).map fun (token, rest) => head ++ token ++ rest

/-- A datagram with a whole header and token in which, with a signed type, no byte 0xFF stands is seen as it is. -/
theorem seenBytes_clean (signed : Bool) (bytes : List UInt8) (hl : 4 + tokenClaim bytes ≤ bytes.length)
    (hc : signed = true → ∀ b ∈ bytes.take (4 + tokenClaim bytes), b ≠ 0xFF) : seenBytes signed bytes = some bytes := by
  match bytes, hl, hc with
  | [], hl, _ | [_], hl, _ | [_, _], hl, _ | [_, _, _], hl, _ => simp at hl <;> omega
  | b0 :: b1 :: b2 :: b3 :: t, hl, hc =>
    have ht : tokenClaim [b0, b1, b2, b3] = tokenClaim (b0 :: b1 :: b2 :: b3 :: t) := rfl
    have e1 := takeChars_clean signed [b0, b1, b2, b3] t fun hs b hb => hc hs b (by
      rw [Nat.add_comm, List.take_succ_cons, List.take_succ_cons, List.take_succ_cons, List.take_succ_cons]
      simp only [List.mem_cons, List.not_mem_nil, or_false] at hb ⊢
      rcases hb with h | h | h | h <;> simp [h])
    have e2 := takeChars_clean signed (t.take (tokenClaim (b0 :: b1 :: b2 :: b3 :: t))) (t.drop (tokenClaim (b0 :: b1 :: b2 :: b3 :: t)))
      fun hs b hb => hc hs b (by
        rw [Nat.add_comm, List.take_succ_cons, List.take_succ_cons, List.take_succ_cons, List.take_succ_cons]
        simp [hb])
    have e1' : takeChars signed (b0 :: b1 :: b2 :: b3 :: t) 4 = some ([b0, b1, b2, b3], t) := e1
    simp only [List.length_cons] at hl
    rw [List.take_append_drop, List.length_take, Nat.min_eq_left (by omega)] at e2
    simp only [seenBytes, e1', ht, e2, Option.map_some, List.append_assoc, List.take_append_drop]
    rfl

example : seenBytes true [0x42, 1, 0xFF, 0xFF, 0xAA, 0xBB, 0xCC] = none := by decide
example : seenBytes true [0x41, 1, 0xFF, 0xFF, 0xAA, 0xBB, 0xCC, 0xFF] = some [0x41, 1, 0xAA, 0xBB, 0xCC, 0xFF] := by decide

example : takeChars true [1, 0xFF, 2, 0xFF, 0xFF, 3, 4] 3 = some ([1, 2, 3], [4]) := by decide
example : takeChars true [1, 0xFF, 2] 3 = none := by decide
example : takeChars false [1, 0xFF] 3 = some ([1, 0xFF, 0xFF], []) := by decide

end Verif.Spec
