import Verif.Props.CborDoc

/-! # Which documents the CBOR encoder writes right (C48) -/
namespace Verif.Props
open Verif.Model Verif.Model.Cbor Verif.Spec Verif.Proofs Verif.Proofs.Cbor

/-- The fewest bytes a head with this argument can have, RFC 7049 section 2.1. -/
def minHead (a : Nat) : Nat := if a < 24 then 1 else if a < 256 then 2 else if a < 65536 then 3 else 5

/-- The fewest bytes an item can have. -/
def minAtom : CborAtom → Nat
  | .int v => minHead (if 0 ≤ v then v.toNat else (-1 - v).toNat)
  | .text s => minHead s.length + s.length
  | .bytes s => minHead s.length + s.length
  | .array n => minHead n
  | .map n => minHead n
  | .bool _ => 1
  | .null => 1

theorem minHead_pos (a : Nat) : 1 ≤ minHead a := by
  unfold minHead; (repeat' split) <;> omega

theorem head_min {h : List UInt8} {m a : Nat} (hh : CborHead h m a) : minHead a ≤ h.length := by
  cases hh with
  | tiny _ ha => simp [minHead, ha]
  | @ext m i bs hm hi hl =>
    have hb := beValue_lt bs
    rw [hl] at hb
    have : i = 0 ∨ i = 1 ∨ i = 2 ∨ i = 3 := by omega
    unfold minHead
    simp only [List.length_cons, hl]
    rcases this with rfl | rfl | rfl | rfl <;> simp at hb ⊢ <;> (repeat' split) <;> omega

theorem item_min {h c : List UInt8} {x : CborAtom} (hi : CborItem h c x) : minAtom x ≤ (h ++ c).length := by
  cases hi with
  | @int b m a hh hm =>
    have e := head_min hh
    have : m = 0 ∨ m = 1 := by omega
    rcases this with rfl | rfl
    · simpa [minAtom, cborInt] using e
    · have h1 : ¬(0 : Int) ≤ -1 - (a : Int) := by omega
      have h2 : (-1 - (-1 - (a : Int))).toNat = a := by omega
      simp only [minAtom, cborInt, if_true, if_neg h1, h2, List.append_nil]
      exact e
  | bytes hh => have := head_min hh; simp [minAtom]; omega
  | text hh => have := head_min hh; simp [minAtom]; omega
  | array hh => have := head_min hh; simpa [minAtom] using this
  | map hh => have := head_min hh; simpa [minAtom] using this
  | _ => simp [minAtom]

theorem seq_min {b : List UInt8} {xs : List CborAtom} (h : CborSeq b xs) : (xs.map minAtom).sum ≤ b.length := by
  induction h with
  | nil => simp
  | cons h1 h2 h3 ih =>
    have := item_min h1
    simp only [List.map_cons, List.sum_cons, List.length_append] at this ⊢
    omega

/-- How many bytes a head gets from the encoder: the fewest possible, for 24 one less. -/
theorem major_size (t : UInt8) (v : Nat) (hv : v < 2 ^ 32) (buf b : List UInt8) (n : Nat) (h : majorTypeAndInteger buf t v = some (b, n)) :
    n + (if v = 24 then 1 else 0) ≤ minHead v := by
  rw [majorTypeAndInteger] at h
  by_cases h24 : v ≤ 24
  · rw [if_pos h24, Option.map_eq_some_iff] at h
    obtain ⟨x, -, e⟩ := h
    simp only [Prod.mk.injEq] at e
    rw [← e.2]
    unfold minHead
    split <;> (repeat' split) <;> omega
  · rw [if_neg h24] at h
    have hn : n = (padSize (assess v)).toNat + 1 := by
      simp only at h
      split at h
      · cases h
      · cases h
      · rw [Option.map_eq_some_iff] at h
        obtain ⟨x, -, e⟩ := h
        simp only [Prod.mk.injEq] at e
        exact e.2.symm
    have ha : assess v = UInt8.ofNat (byteLen v) := by rw [assess_eq]; simp
    rw [if_neg (show ¬v = 24 by omega), hn, ha]
    have hp : ∀ k, k ≤ 4 → (padSize (UInt8.ofNat k)).toNat = if k = 3 then 4 else k := by
      intro k hk
      have : k = 0 ∨ k = 1 ∨ k = 2 ∨ k = 3 ∨ k = 4 := by omega
      rcases this with rfl | rfl | rfl | rfl | rfl <;> decide
    have h4 := byteLen_le (n := v) (k := 4) (by simpa using hv)
    rw [hp _ h4]
    unfold minHead
    rw [if_neg (show ¬v < 24 by omega)]
    by_cases h1 : v < 256
    · have := byteLen_le (n := v) (k := 1) (by simpa using h1)
      rw [if_pos h1]; split <;> omega
    · rw [if_neg h1]
      by_cases h2 : v < 65536
      · have := byteLen_le (n := v) (k := 2) (by simpa using h2)
        rw [if_pos h2]; split <;> omega
      · rw [if_neg h2]; split <;> omega

/-- Numbers and lengths of 31 bits. -/
def InRange : WCall → Prop
  | .integer v => -(2 : Int) ^ 31 < v ∧ v < 2 ^ 31
  | .string s => s.length < 2 ^ 31
  | .boolean _ => True
  | .null => True
  | .map n => n < 2 ^ 31
  | .array l => l.length < 2 ^ 31
  | .items l => l.length < 2 ^ 31

theorem writable_inRange {c : WCall} (h : Writable c) : InRange c := by
  cases c <;> simp only [Writable, InRange] at h ⊢ <;> first | exact ⟨h.1, h.2.1⟩ | exact h.1 | trivial

theorem elements_min (l : List UInt8) : l.length ≤ ((l.map fun b => CborAtom.int b.toNat).map minAtom).sum ∧
    ((∃ b ∈ l, 24 ≤ b.toNat) → l.length < ((l.map fun b => CborAtom.int b.toNat).map minAtom).sum) := by
  induction l with
  | nil => simp
  | cons b l ih =>
    have h1 : minAtom (.int b.toNat) = minHead b.toNat := by simp [minAtom]
    have h2 := minHead_pos b.toNat
    simp only [List.map_cons, List.sum_cons, List.length_cons, h1]
    refine ⟨by omega, ?_⟩
    rintro ⟨x, hx, h24⟩
    rcases List.mem_cons.1 hx with rfl | hx
    · have : 2 ≤ minHead x.toNat := by unfold minHead; (repeat' split) <;> omega
      omega
    · have := ih.2 ⟨x, hx, h24⟩
      omega

/-- A call that is told to have worked has written no more bytes than what is meant needs at least, and fewer if it is one of those that
the encoder cannot write. -/
theorem wcall_size (c : WCall) (hr : InRange c) (buf r : List UInt8) (n : Nat) (h : c.run buf = some (r, n, true)) :
    n ≤ ((meant c).map minAtom).sum ∧ (¬Writable c → n < ((meant c).map minAtom).sum) := by
  cases c with
  | integer v =>
    simp only [WCall.run, Option.map_eq_some_iff, Prod.mk.injEq] at h
    obtain ⟨⟨r', n'⟩, h, -, rfl, -⟩ := h
    simp only [InRange] at hr
    simp only [meant, List.map_cons, List.map_nil, List.sum_cons, List.sum_nil, minAtom, Writable, Nat.add_zero]
    by_cases hv : 0 ≤ v
    · rw [integerNet, if_pos hv] at h
      have := major_size 0 v.toNat (by omega) buf r' n' h
      rw [if_pos hv]
      refine ⟨by omega, fun hw => ?_⟩
      rw [if_pos (by omega)] at this
      omega
    · rw [integerNet, if_neg hv, if_neg (by simp; omega)] at h
      have e : (-v - 1).toNat = (-1 - v).toNat := by omega
      have := major_size 1 (-v - 1).toNat (by omega) buf r' n' h
      rw [if_neg hv, ← e]
      refine ⟨by omega, fun hw => ?_⟩
      rw [if_pos (by omega)] at this
      omega
  | string s =>
    simp only [WCall.run, stringNet] at h
    cases hm : majorTypeAndInteger buf 3 s.length with
    | none => simp [hm] at h
    | some x =>
      obtain ⟨b, k⟩ := x
      simp only [hm, Option.some.injEq, Prod.mk.injEq, beq_iff_eq] at h
      obtain ⟨-, h1, h2⟩ := h
      simp only [InRange] at hr
      have := major_size 3 s.length (by omega) buf b k hm
      simp only [meant, List.map_cons, List.map_nil, List.sum_cons, List.sum_nil, minAtom, Writable, Nat.add_zero]
      refine ⟨by omega, fun hw => ?_⟩
      rw [if_pos (by omega)] at this
      omega
  | boolean b =>
    simp only [WCall.run, Option.map_eq_some_iff, Prod.mk.injEq] at h
    obtain ⟨_, -, -, rfl, -⟩ := h
    simp [meant, minAtom, Writable]
  | null =>
    simp only [WCall.run, Option.map_eq_some_iff, Prod.mk.injEq] at h
    obtain ⟨_, -, -, rfl, -⟩ := h
    simp [meant, minAtom, Writable]
  | map k =>
    simp only [WCall.run, Option.map_eq_some_iff, Prod.mk.injEq] at h
    obtain ⟨⟨r', n'⟩, h, -, rfl, -⟩ := h
    simp only [InRange] at hr
    have := major_size 5 k (by omega) buf r' n' h
    simp only [meant, List.map_cons, List.map_nil, List.sum_cons, List.sum_nil, minAtom, Writable, Nat.add_zero]
    refine ⟨by omega, fun hw => ?_⟩
    rw [if_pos (by omega)] at this
    omega
  | array l =>
    simp only [WCall.run, listNet] at h
    cases hm : majorTypeAndInteger buf 2 l.length with
    | none => simp [hm] at h
    | some x =>
      obtain ⟨b, k⟩ := x
      simp only [hm] at h
      by_cases hk : k + l.length ≤ b.length
      · rw [if_pos hk] at h
        simp only [Option.some.injEq, Prod.mk.injEq] at h
        obtain ⟨-, h1, -⟩ := h
        simp only [InRange] at hr
        have := major_size 2 l.length (by omega) buf b k hm
        simp only [meant, List.map_cons, List.map_nil, List.sum_cons, List.sum_nil, minAtom, Writable, Nat.add_zero]
        refine ⟨by omega, fun hw => ?_⟩
        rw [if_pos (by omega)] at this
        omega
      · rw [if_neg hk] at h; cases h
  | items l =>
    simp only [WCall.run, listNet] at h
    cases hm : majorTypeAndInteger buf 4 l.length with
    | none => simp [hm] at h
    | some x =>
      obtain ⟨b, k⟩ := x
      simp only [hm] at h
      by_cases hk : k + l.length ≤ b.length
      · rw [if_pos hk] at h
        simp only [Option.some.injEq, Prod.mk.injEq] at h
        obtain ⟨-, h1, -⟩ := h
        simp only [InRange] at hr
        have := major_size 4 l.length (by omega) buf b k hm
        obtain ⟨e1, e2⟩ := elements_min l
        simp only [meant, List.map_cons, List.sum_cons, Writable, show minAtom (.array l.length) = minHead l.length from rfl]
        refine ⟨by omega, fun hw => ?_⟩
        by_cases h24 : l.length = 24
        · rw [if_pos h24] at this; omega
        · have : ∃ b ∈ l, 24 ≤ b.toNat := by
            apply Classical.byContradiction
            intro hne
            exact hw ⟨hr, h24, fun b hb => Nat.lt_of_not_le fun hx => hne ⟨b, hb, hx⟩⟩
          have := e2 this
          omega
      · rw [if_neg hk] at h; cases h

theorem writeAll_size (cs : List WCall) (hr : ∀ c ∈ cs, InRange c) : ∀ (buf : List UInt8) (pos : Nat) (out : List UInt8) (n : Nat),
    writeAll buf pos cs = some (out, n, true) →
    n ≤ pos + ((cs.flatMap meant).map minAtom).sum ∧ ((∃ c ∈ cs, ¬Writable c) → n < pos + ((cs.flatMap meant).map minAtom).sum) := by
  induction cs with
  | nil =>
    intro buf pos out n h
    simp only [writeAll, Option.some.injEq, Prod.mk.injEq] at h
    simp [h.2.1]
  | cons c cs ih =>
    intro buf pos out n h
    simp only [writeAll] at h
    cases h1 : c.run (buf.drop pos) with
    | none => simp [h1] at h
    | some x =>
      obtain ⟨r, k, ok⟩ := x
      simp only [h1] at h
      cases h2 : writeAll (buf.take pos ++ r) (pos + k) cs with
      | none => simp [h2] at h
      | some y =>
        obtain ⟨out', n', oks⟩ := y
        simp only [h2, Option.some.injEq, Prod.mk.injEq, Bool.and_eq_true] at h
        obtain ⟨-, rfl, rfl, rfl⟩ := h
        obtain ⟨a1, a2⟩ := wcall_size c (hr c List.mem_cons_self) _ r k h1
        obtain ⟨b1, b2⟩ := ih (fun x hx => hr x (List.mem_cons_of_mem _ hx)) _ _ _ _ h2
        simp only [List.flatMap_cons, List.map_append, List.sum_append]
        refine ⟨by omega, ?_⟩
        rintro ⟨x, hx, hn⟩
        rcases List.mem_cons.1 hx with rfl | hx
        · have := a2 hn; omega
        · have := b2 ⟨x, hx, hn⟩; omega

/-- C48, exactly which documents are written right: whenever a sequence of calls, with numbers and lengths of 31 bits, reports success
throughout, what it has written is an encoding of the items meant if and only if none of the calls is about the numbers 24 and -25 or
a length of 24, and no array has an element of 24 or more.  So one such call spoils every document it occurs in. -/
theorem cbor_document_written_iff (cs : List WCall) (hr : ∀ c ∈ cs, InRange c) (buf out : List UInt8) (n : Nat)
    (h : writeAll buf 0 cs = some (out, n, true)) : CborSeq (out.take n) (cs.flatMap meant) ↔ ∀ c ∈ cs, Writable c := by
  constructor
  · intro hs c hc
    apply Classical.byContradiction
    intro hw
    have h1 := seq_min hs
    have h2 := (writeAll_size cs hr buf 0 out n h).2 ⟨c, hc, hw⟩
    simp only [List.length_take] at h1
    omega
  · intro hw
    obtain ⟨b, hb, e⟩ := cbor_document_written_partial cs hw
    obtain ⟨e1, e2⟩ := e buf 0 (by omega)
    by_cases hl : 0 + b.length ≤ buf.length
    · rw [e1 hl] at h
      simp only [Option.some.injEq, Prod.mk.injEq, List.take_zero, List.nil_append, Nat.zero_add] at h
      rw [← h.1, ← h.2.1, List.take_left' rfl]
      exact hb
    · rcases e2 (by omega) with h' | ⟨r, k, h'⟩ <;> rw [h'] at h <;> simp at h

-- the number 24 spoils a document that would be right without it
example : writeAll (List.replicate 4 0) 0 [.integer 5, .integer 24, .integer 7] = some ([5, 0x18, 7, 0], 3, true) ∧
    (∀ c ∈ [WCall.integer 5, .integer 24, .integer 7], InRange c) ∧ ¬Writable (.integer 24) := by
  refine ⟨by decide, ?_, by simp [Writable]⟩
  intro c hc
  simp only [List.mem_cons, List.not_mem_nil, or_false] at hc
  rcases hc with rfl | rfl | rfl <;> simp [InRange]

end Verif.Props
