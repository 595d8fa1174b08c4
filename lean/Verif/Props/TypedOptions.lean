import Verif.Model.TypedOptions
import Verif.Props.PullDecoder
import Verif.Props.UInt

/-! # C84: numeric options read with the pull-style decoder -/
namespace Verif.Props
open Verif.Model Verif.Model.Pull Verif.Spec Verif.Proofs

/-- Number and value as the readers see them. -/
def seen (w : Nat) (o : UInt16 × List UInt8) : UInt16 × Nat := (o.1, if w = 8 then uintGet8 o.2 else uintGet w o.2)

theorem numberLoop_of : ∀ (w fuel : Nat) (p q : Pull) (l : List (UInt16 × List UInt8)), iterLoop fuel p = .ok (l, q) →
    numberLoop w fuel p = .ok (l.map (seen w)) := by
  intro w fuel
  induction fuel with
  | zero => intro p q l h; simp [iterLoop] at h
  | succ n ih =>
    intro p q l h
    rw [iterLoop] at h
    rw [numberLoop]
    by_cases hv : p.iterValid = true
    · rw [if_pos hv] at h ⊢
      cases hn : p.iterNext with
      | error e => simp [hn] at h
      | ok q1 =>
        simp only [hn] at h ⊢
        cases hl : iterLoop n q1 with
        | error e => simp [hl] at h
        | ok r =>
          obtain ⟨l1, q2⟩ := r
          simp only [hl, Except.ok.injEq, Prod.mk.injEq] at h
          rw [ih q1 q2 l1 hl, ← h.1]
          rfl
    · rw [if_neg hv] at h ⊢
      simp only [Except.ok.injEq, Prod.mk.injEq] at h
      rw [← h.1]; rfl

theorem nextNumberLoop_of : ∀ (w fuel : Nat) (more : Bool) (p q : Pull) (l : List (UInt16 × List UInt8)),
    nextLoop fuel more p = .ok (l, q) → nextNumberLoop w fuel more p = .ok (l.map (seen w)) := by
  intro w fuel
  induction fuel with
  | zero => intro more p q l h; simp [nextLoop] at h
  | succ n ih =>
    intro more p q l h
    cases more with
    | false =>
      simp only [nextLoop, Except.ok.injEq, Prod.mk.injEq] at h
      rw [nextNumberLoop, ← h.1]; rfl
    | true =>
      rw [nextLoop] at h
      rw [nextNumberLoop]
      cases hn : p.optionNext with
      | error e => simp [hn] at h
      | ok r =>
        obtain ⟨more, q1⟩ := r
        simp only [hn] at h ⊢
        cases hl : nextLoop n more q1 with
        | error e => simp [hl] at h
        | ok r =>
          obtain ⟨l1, q2⟩ := r
          simp only [hl, Except.ok.injEq, Prod.mk.injEq] at h
          rw [ih more q1 q2 l1 hl, ← h.1]
          rfl

theorem readNumbers_of (w fuel : Nat) (p : Pull) (r : Reading) (h : readWith (iterAll fuel) p = .ok r) :
    readNumbers w fuel p = .ok (r.options.map (seen w)) := by
  unfold readWith at h
  unfold readNumbers
  cases e1 : p.header with
  | error e => simp [e1] at h
  | ok a =>
    obtain ⟨_, p1⟩ := a
    simp only [e1] at h ⊢
    cases e2 : p1.token with
    | error e => simp [e2] at h
    | ok b =>
      obtain ⟨_, _, p2⟩ := b
      simp only [e2] at h ⊢
      cases e3 : iterAll fuel p2 with
      | error e => simp [e3] at h
      | ok c =>
        obtain ⟨l, q⟩ := c
        simp only [e3, Except.ok.injEq] at h
        subst h
        rw [iterAll] at e3
        cases e4 : p2.iterNew with
        | error e => simp [e4] at e3
        | ok x =>
          simp only [e4] at e3 ⊢
          exact numberLoop_of w fuel _ _ _ e3

theorem readNextNumbers_of (w fuel : Nat) (p : Pull) (r : Reading) (h : readWith (nextAll fuel) p = .ok r) :
    readNextNumbers w fuel p = .ok (r.options.map (seen w)) := by
  unfold readWith at h
  unfold readNextNumbers
  cases e1 : p.header with
  | error e => simp [e1] at h
  | ok a =>
    obtain ⟨_, p1⟩ := a
    simp only [e1] at h ⊢
    cases e2 : p1.token with
    | error e => simp [e2] at h
    | ok b =>
      obtain ⟨_, _, p2⟩ := b
      simp only [e2] at h ⊢
      cases e3 : nextAll fuel p2 with
      | error e => simp [e3] at h
      | ok c =>
        obtain ⟨l, q⟩ := c
        simp only [e3, Except.ok.injEq] at h
        subst h
        rw [nextAll] at e3
        cases e4 : p2.beginOption with
        | error e => simp [e4] at e3
        | ok x =>
          simp only [e4] at e3 ⊢
          exact nextNumberLoop_of w fuel _ _ _ _ e3

/-- C84, the functions themselves: number and big-endian value of every option, modulo the width, for every well-formed message in every
option encoding.  Missing: the iterator, which does something else (`iterator_numbers`), and the exception of `pull_reads_message_partial`. -/
theorem numbers_read_partial (w : Nat) (hw : 16 ≤ w) (m : Msg) (hm : m.Ok) (ob : List UInt8) (hob : IsOpts 0 m.opts ob) (junk : Dec)
    (hj : junk.tbuf.length = 8) (hst : junk.opt.st ≠ .payload ∨ m.token ≠ [] ∨ m.opts ≠ [] ∨ m.payload ≠ none)
    (fuel : Nat) (hf : m.opts.length < fuel) :
    readNextNumbers w fuel (make junk (wire m ob)) =
      .ok (m.opts.map fun o => (UInt16.ofNat o.number, beValue o.value % 2 ^ w)) := by
  rw [readNextNumbers_of w fuel _ _ (pull_reads_message_partial m hm ob hob junk hj hst fuel hf)]
  have h8 : w ≠ 8 := by omega
  simp [reading, seen, h8, uint_decode_value w hw]

/-- C84: the 8-bit reader gives the first byte, which is the value only for values of at most one byte. -/
theorem numbers_read8_partial (m : Msg) (hm : m.Ok) (ob : List UInt8) (hob : IsOpts 0 m.opts ob) (junk : Dec)
    (hj : junk.tbuf.length = 8) (hst : junk.opt.st ≠ .payload ∨ m.token ≠ [] ∨ m.opts ≠ [] ∨ m.payload ≠ none)
    (fuel : Nat) (hf : m.opts.length < fuel) :
    readNextNumbers 8 fuel (make junk (wire m ob)) =
      .ok (m.opts.map fun o => (UInt16.ofNat o.number, beValue (o.value.take 1))) := by
  rw [readNextNumbers_of 8 fuel _ _ (pull_reads_message_partial m hm ob hob junk hj hst fuel hf)]
  have h8 : ∀ v : List UInt8, uintGet8 v = beValue (v.take 1) := by
    intro v
    match v with
    | [] => rfl
    | b :: v => simp [uintGet8, beValue]
  simp [reading, seen, h8]

theorem beValue_snoc (l : List UInt8) (b : UInt8) : beValue (l ++ [b]) = beValue l * 256 + b.toNat := by
  induction l with
  | nil => simp [beValue]
  | cons a l ih => simp only [List.cons_append, beValue, ih, List.length_append, List.length_cons, List.length_nil, Nat.zero_add, Nat.pow_succ,
      ← Nat.mul_assoc]; omega

theorem beValue_low (l : List UInt8) : beValue l % 256 = (l.getLast?.map UInt8.toNat).getD 0 := by
  rcases List.eq_nil_or_concat l with rfl | ⟨a, b, rfl⟩
  · rfl
  · rw [List.concat_eq_append, beValue_snoc]
    have := b.toNat_lt
    simp

theorem beValue_first (l : List UInt8) : beValue (l.take 1) = (l.head?.map UInt8.toNat).getD 0 := by
  cases l <;> simp [beValue]

/-- C84, exactly when the 8-bit reader gives the low byte of every option, as the other widths do: when in every value the first and the
last byte are the same. -/
theorem numbers_read8_iff (m : Msg) (hm : m.Ok) (ob : List UInt8) (hob : IsOpts 0 m.opts ob) (junk : Dec)
    (hj : junk.tbuf.length = 8) (hst : junk.opt.st ≠ .payload ∨ m.token ≠ [] ∨ m.opts ≠ [] ∨ m.payload ≠ none)
    (fuel : Nat) (hf : m.opts.length < fuel) :
    readNextNumbers 8 fuel (make junk (wire m ob)) = .ok (m.opts.map fun o => (UInt16.ofNat o.number, beValue o.value % 2 ^ 8)) ↔
      ∀ o ∈ m.opts, o.value.head? = o.value.getLast? := by
  rw [numbers_read8_partial m hm ob hob junk hj hst fuel hf]
  simp only [Except.ok.injEq, List.map_inj_left, Prod.mk.injEq, true_and, beValue_first, show (2 : Nat) ^ 8 = 256 from rfl, beValue_low]
  constructor
  · intro h o ho
    have := h o ho
    cases hv : o.value with
    | nil => rfl
    | cons a l =>
      rw [hv] at this
      cases hg : (a :: l).getLast? with
      | none => simp at hg
      | some z =>
        simp only [hg, List.head?_cons, Option.map_some, Option.getD_some] at this
        rw [List.head?_cons, UInt8.toNat_inj.1 this]
  · intro h o ho
    rw [h o ho]

example : ([5] : List UInt8).head? = ([5] : List UInt8).getLast? ∧ ([1, 0] : List UInt8).head? ≠ ([1, 0] : List UInt8).getLast? := by
  decide

/-- C84 fails for the iterator: the numbers are those of the options and values that `iteratorShows` lists. -/
theorem iterator_numbers (w : Nat) (hw : 16 ≤ w) (m : Msg) (hm : m.Ok) (ob : List UInt8) (hob : IsOpts 0 m.opts ob) (junk : Dec)
    (hj : junk.tbuf.length = 8) (hst : junk.opt.st ≠ .payload ∨ m.token ≠ [] ∨ m.opts ≠ [] ∨ m.payload ≠ none)
    (fuel : Nat) (hf : m.opts.length < fuel) :
    readNumbers w fuel (make junk (wire m ob)) =
      .ok ((iteratorShows m.payload.isSome m.opts).map fun o => (UInt16.ofNat o.number, beValue o.value % 2 ^ w)) := by
  rw [readNumbers_of w fuel _ _ (iterator_shows_partial m hm ob hob junk hj hst fuel hf)]
  have h8 : w ≠ 8 := by omega
  simp [reading, seen, h8, uint_decode_value w hw]

theorem shows_fewer (marker : Bool) : ∀ os : List Opt, 2 ≤ os.length → (iteratorShows marker os).length < os.length
  | [], h | [_], h => by simp at h
  | [_, _], _ => by simp [iteratorShows]
  | _ :: _ :: _ :: rest, _ => by
    have := shows_length marker rest
    simp only [iteratorShows, List.length_cons]; omega

/-- C84, exactly when the iterator gives the numbers that were sent: when there is no option, or a single one whose number is zero at this width and
which is empty or followed by a payload. -/
theorem iterator_numbers_iff (w : Nat) (hw : 16 ≤ w) (m : Msg) (hm : m.Ok) (ob : List UInt8) (hob : IsOpts 0 m.opts ob) (junk : Dec)
    (hj : junk.tbuf.length = 8) (hst : junk.opt.st ≠ .payload ∨ m.token ≠ [] ∨ m.opts ≠ [] ∨ m.payload ≠ none)
    (fuel : Nat) (hf : m.opts.length < fuel) :
    readNumbers w fuel (make junk (wire m ob)) = .ok (m.opts.map fun o => (UInt16.ofNat o.number, beValue o.value % 2 ^ w)) ↔
      m.opts = [] ∨ ∃ o, m.opts = [o] ∧ beValue o.value % 2 ^ w = 0 ∧ (o.value = [] ∨ m.payload ≠ none) := by
  rw [iterator_numbers w hw m hm ob hob junk hj hst fuel hf, Except.ok.injEq]
  match ho : m.opts with
  | [] => simp [iteratorShows]
  | [o] =>
    have hp : (m.payload.isSome = true ∨ o.value = []) ↔ (o.value = [] ∨ m.payload ≠ none) := by
      rw [Option.isSome_iff_ne_none]; exact Or.comm
    by_cases h : m.payload.isSome = true ∨ o.value = []
    · simp only [iteratorShows, if_pos h, List.map_cons, List.map_nil, List.cons.injEq, Prod.mk.injEq, true_and, and_true]
      constructor
      · intro e
        exact Or.inr ⟨o, rfl, by rw [← e]; simp [beValue], hp.mp h⟩
      · rintro (e | ⟨o', e, e2, -⟩)
        · cases e
        · subst e; rw [e2]; simp [beValue]
    · simp only [iteratorShows, if_neg h, List.map_cons, List.map_nil]
      constructor
      · intro e; cases e
      · rintro (e | ⟨o', e, -, e3⟩)
        · cases e
        · simp only [List.cons.injEq, and_true] at e; subst e; exact absurd (hp.mpr e3) h
  | a :: b :: rest =>
    constructor
    · intro e
      have h1 := congrArg List.length e
      rw [List.length_map, List.length_map] at h1
      have := shows_fewer m.payload.isSome (a :: b :: rest) (by simp)
      omega
    · rintro (e | ⟨o', e, -⟩) <;> cases e

/-- C84 fails: through the iterator the first of several options, or the only one before a payload, is read as zero whatever its value, with
every width. -/
theorem iterator_first_zero (w : Nat) (m : Msg) (hm : m.Ok) (o : Opt) (rest : List Opt) (ho : m.opts = o :: rest)
    (hr : rest ≠ [] ∨ m.payload ≠ none) (ob : List UInt8) (hob : IsOpts 0 m.opts ob) (junk : Dec) (hj : junk.tbuf.length = 8)
    (fuel : Nat) (hf : m.opts.length < fuel) :
    ∃ l, readNumbers w fuel (make junk (wire m ob)) = .ok ((UInt16.ofNat o.number, 0) :: l) := by
  rw [readNumbers_of w fuel _ _ (iterator_shows_partial m hm ob hob junk hj (by simp [ho]) fuel hf)]
  have : ∃ l, iteratorShows m.payload.isSome m.opts = ⟨o.number, []⟩ :: l := by
    rw [ho]
    match rest, hr with
    | [], hr =>
      have hs : m.payload.isSome = true := by
        cases hp : m.payload with
        | none => simp [hp] at hr
        | some _ => rfl
      exact ⟨[], by simp [iteratorShows, hs]⟩
    | [o2], _ => exact ⟨[], rfl⟩
    | o2 :: o3 :: rest, _ => exact ⟨_, rfl⟩
  obtain ⟨l, hl⟩ := this
  refine ⟨l.map fun o => seen w (UInt16.ofNat o.number, o.value), ?_⟩
  simp [reading, hl, seen, uintGet8, uintGet]

/-- A request with an Accept option (17) of 60 and a Size1 option (60) of 70000. -/
def numericMsg : Msg := ⟨1, 0, 1, 7, [], [⟨17, [60]⟩, ⟨60, [1, 0x11, 0x70]⟩], none⟩

example : numericMsg.Ok := by decide
example : readNextNumbers 32 9 (make Dec.zero (encMsg numericMsg)) = .ok [(17, 60), (60, 70000)] := by decide +kernel
example : readNextNumbers 16 9 (make Dec.zero (encMsg numericMsg)) = .ok [(17, 60), (60, 4464)] := by decide +kernel
example : readNextNumbers 8 9 (make Dec.zero (encMsg numericMsg)) = .ok [(17, 60), (60, 1)] := by decide +kernel
example : readNumbers 32 9 (make Dec.zero (encMsg numericMsg)) = .ok [(17, 0)] := by decide +kernel

end Verif.Props
