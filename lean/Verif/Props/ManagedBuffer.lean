import Verif.Model.ManagedBuffer

/-! # C44: the managed buffer -/
namespace Verif.Props
open Verif.Model MBuf

/-- All segments one after the other. -/
def joined (segs : List (UInt8 × List UInt8)) : List UInt8 := (segs.map (·.2)).flatten

/-- The segments up to and with the first one ended by `b`. -/
def through (b : UInt8) : List (UInt8 × List UInt8) → List UInt8
  | [] => []
  | (c, d) :: xs => if c = b then d else d ++ through b xs

/-- Where segments starting at `p` end; a segment with boundary 0 is not marked. -/
def segEnds (p : Nat) : List (UInt8 × List UInt8) → List (UInt8 × Nat)
  | [] => []
  | (b, d) :: xs => if b = 0 then segEnds (p + d.length) xs else (b, p + d.length) :: segEnds (p + d.length) xs

theorem writeAll_ok (segs : List (UInt8 × List UInt8)) : ∀ (s : MBuf),
    s.bounds.length + (segs.filter (·.1 ≠ 0)).length ≤ 10 → s.pos + (joined segs).length ≤ s.chunk.length →
    s.writeAll segs = some ⟨s.chunk.take s.pos ++ joined segs ++ s.chunk.drop (s.pos + (joined segs).length),
      s.bounds ++ segEnds s.pos segs, s.cur, s.pos + (joined segs).length⟩ := by
  induction segs with
  | nil => intro s _ _; simp [writeAll, joined, segEnds]
  | cons x segs ih =>
    obtain ⟨b, d⟩ := x
    intro s hl hc
    have hj : joined ((b, d) :: segs) = d ++ joined segs := by simp [joined]
    rw [hj, List.length_append] at hc
    have e1 : s.write d = some { s with chunk := s.chunk.take s.pos ++ d ++ s.chunk.drop (s.pos + d.length) } := by
      rw [write, if_pos (by omega)]
    have hlen : (s.chunk.take s.pos ++ d ++ s.chunk.drop (s.pos + d.length)).length = s.chunk.length := by
      simp only [List.length_append, List.length_take, List.length_drop]; omega
    have ht : (s.chunk.take s.pos ++ (d ++ s.chunk.drop (s.pos + d.length))).take (s.pos + d.length) = s.chunk.take s.pos ++ d := by
      rw [← List.append_assoc, List.take_append_of_le_length (by simp; omega)]
      apply List.take_of_length_le
      simp; omega
    have hd : (s.chunk.take s.pos ++ (d ++ s.chunk.drop (s.pos + d.length))).drop (s.pos + (d.length + (joined segs).length)) =
        s.chunk.drop (s.pos + (d.length + (joined segs).length)) := by
      rw [← List.append_assoc, List.drop_append, List.drop_eq_nil_of_le (by simp; omega), List.nil_append, List.drop_drop]
      congr 1
      simp only [List.length_append, List.length_take]
      omega
    by_cases hb : b = 0
    · have hf : ((b, d) :: segs).filter (·.1 ≠ 0) = segs.filter (·.1 ≠ 0) := by simp [hb]
      rw [hf] at hl
      simp only [writeAll, e1, boundary, hb, bne_self_eq_false, Bool.false_eq_true, if_false]
      rw [ih _ (by simp only; omega) (by rw [hlen]; simp only; omega)]
      simp only [hb ▸ hj, segEnds, if_true, List.length_append, List.append_assoc, Nat.add_assoc]
      congr 2
      rw [ht, hd]
      simp
    · have hf : ((b, d) :: segs).filter (·.1 ≠ 0) = (b, d) :: segs.filter (·.1 ≠ 0) := by simp [hb]
      rw [hf, List.length_cons] at hl
      simp only [writeAll, e1, boundary, bne_iff_ne, ne_eq, hb, not_false_eq_true, if_true]
      rw [if_pos (by omega)]
      simp only
      rw [ih _ (by simp only [List.length_append, List.length_cons, List.length_nil]; omega) (by rw [hlen]; simp only; omega)]
      simp only [hj, segEnds, hb, if_false, List.length_append, List.append_assoc, List.singleton_append, Nat.add_assoc]
      congr 2
      rw [ht, hd]
      simp

/-- The buffer is positioned at the start of `segs`. -/
def At (s : MBuf) (segs : List (UInt8 × List UInt8)) : Prop :=
  s.bounds.drop s.cur = segEnds s.pos segs ∧ ∃ rest, s.chunk.drop s.pos = joined segs ++ rest ∧ s.pos ≤ s.chunk.length

theorem limit_segEnds (b : UInt8) (hb0 : b ≠ 0) (whole : Nat) : ∀ (segs : List (UInt8 × List UInt8)) (p : Nat), b ∈ segs.map (·.1) →
    limit b whole (segEnds p segs) = p + (through b segs).length
  | [], p, h => by simp at h
  | (c, d) :: segs, p, h => by
    by_cases hc : c = b
    · simp [segEnds, limit, through, hc, hb0]
    · have hb : b ∈ segs.map (·.1) := by
        simp only [List.map_cons, List.mem_cons] at h
        rcases h with h | h
        · exact absurd h.symm hc
        · exact h
      have ih := limit_segEnds b hb0 whole segs (p + d.length) hb
      by_cases hc0 : c = 0
      · simp only [segEnds, hc0, if_true, through, hc0 ▸ hc, if_false, ih, List.length_append]
        omega
      · simp only [segEnds, hc0, limit, through, hc, beq_iff_eq, if_false, ih, List.length_append]
        omega

theorem through_prefix (b : UInt8) : ∀ (segs : List (UInt8 × List UInt8)), through b segs <+: joined segs
  | [] => by simp [through]
  | (c, d) :: segs => by
    have hj : joined ((c, d) :: segs) = d ++ joined segs := by simp [joined]
    rw [hj, through]
    by_cases hc : c = b
    · simp [hc]
    · simp only [hc, if_false]
      exact List.prefix_append_right_inj d |>.mpr (through_prefix b segs)

/-- C44: at the start of some segments, reading up to a boundary gives the segments up to it. -/
theorem managed_read_through (s : MBuf) (segs : List (UInt8 × List UInt8)) (h : At s segs) (b : UInt8) (hb0 : b ≠ 0)
    (hb : b ∈ segs.map (·.1)) : s.currentRo b = some (through b segs) := by
  obtain ⟨h1, rest, h2, h3⟩ := h
  obtain ⟨t, ht⟩ := through_prefix b segs
  have hlen : s.chunk.length - s.pos = (through b segs).length + t.length + rest.length := by
    rw [← List.length_drop, h2, ← ht]
    simp [Nat.add_assoc]
  simp only [currentRo, beq_iff_eq, hb0, if_false, h1, limit_segEnds b hb0 _ segs _ hb]
  rw [if_pos ⟨by omega, by omega⟩, h2, ← ht, Nat.add_sub_cancel_left, List.append_assoc, List.take_left']
  rfl

/-- C44: reading without a boundary gives everything from the position on. -/
theorem managed_read_rest (s : MBuf) (h : s.pos ≤ s.chunk.length) : s.currentRo 0 = some (s.chunk.drop s.pos) := by
  simp [currentRo, h]

theorem writeAll_fits (segs : List (UInt8 × List UInt8)) : ∀ (s s' : MBuf), s.writeAll segs = some s' →
    s.bounds.length ≤ 10 → s.pos ≤ s.chunk.length →
    s.bounds.length + (segs.filter (·.1 ≠ 0)).length ≤ 10 ∧ s.pos + (joined segs).length ≤ s.chunk.length := by
  induction segs with
  | nil => intro s s' _ h1 h2; exact ⟨by simpa using h1, by simpa [joined] using h2⟩
  | cons x segs ih =>
    obtain ⟨b, d⟩ := x
    intro s s' h h1 h2
    have hj : (joined ((b, d) :: segs)).length = d.length + (joined segs).length := by simp [joined]
    rw [writeAll] at h
    by_cases hw : s.pos + d.length ≤ s.chunk.length
    · have hlen : (s.chunk.take s.pos ++ d ++ s.chunk.drop (s.pos + d.length)).length = s.chunk.length := by
        simp only [List.length_append, List.length_take, List.length_drop]; omega
      rw [write, if_pos hw] at h
      simp only [boundary] at h
      by_cases hb : b = 0
      · subst hb
        simp only [bne_self_eq_false, Bool.false_eq_true, if_false] at h
        obtain ⟨g1, g2⟩ := ih _ s' h h1 (by simp only [hlen]; exact hw)
        simp only [hlen] at g2
        refine ⟨by simpa using g1, by omega⟩
      · simp only [bne_iff_ne, ne_eq, hb, not_false_eq_true, if_true] at h
        by_cases hc : s.bounds.length < 10
        · rw [if_pos hc] at h
          obtain ⟨g1, g2⟩ := ih _ s' h (by simp only [List.length_append, List.length_cons, List.length_nil]; omega) (by simp only [hlen]; exact hw)
          simp only [hlen] at g2
          simp only [List.length_append, List.length_cons, List.length_nil] at g1
          refine ⟨?_, by omega⟩
          rw [List.filter_cons_of_pos (by simp [hb]), List.length_cons]
          omega
        · rw [if_neg hc] at h; simp at h
    · rw [write, if_neg hw] at h; simp at h

/-- C44: writing segments is defined exactly when at most ten of them end with a boundary other than 0 and all of them
together fit into the buffer. -/
theorem managed_writes_iff (chunk : List UInt8) (segs : List (UInt8 × List UInt8)) :
    (∃ s, (init chunk).writeAll segs = some s) ↔ (segs.filter (·.1 ≠ 0)).length ≤ 10 ∧ (joined segs).length ≤ chunk.length := by
  constructor
  · rintro ⟨s, h⟩
    obtain ⟨h1, h2⟩ := writeAll_fits segs _ s h (by simp [init]) (by simp [init])
    exact ⟨by simpa [init] using h1, by simpa [init] using h2⟩
  · rintro ⟨h1, h2⟩
    exact ⟨_, writeAll_ok segs (init chunk) (by simpa [init] using h1) (by simpa [init] using h2)⟩

/-- The buffer after writing segments and going back to the start. -/
theorem written_at (chunk : List UInt8) (segs : List (UInt8 × List UInt8)) (hl : (segs.filter (·.1 ≠ 0)).length ≤ 10)
    (hc : (joined segs).length ≤ chunk.length) (flag : Bool) :
    ∃ s, (init chunk).writeAll segs = some s ∧ (s.reset flag).pos = 0 ∧ (s.reset flag).cur = 0 ∧
      (s.reset flag).bounds = segEnds 0 segs ∧ (s.reset flag).chunk = joined segs ++ chunk.drop (joined segs).length := by
  refine ⟨_, writeAll_ok segs (init chunk) (by simpa [init] using hl) (by simpa [init] using hc), rfl, rfl, ?_, ?_⟩
  · simp [reset, init]
  · simp [reset, init]

/-- C44 (partial: the first two segments): whatever segments are written, reading them back gives the first and the
second unchanged. -/
theorem managed_first_two_partial (chunk : List UInt8) (b1 b2 : UInt8) (d1 d2 : List UInt8) (segs : List (UInt8 × List UInt8))
    (hb : ∀ x ∈ (b1, d1) :: (b2, d2) :: segs, x.1 ≠ 0) (hl : segs.length + 2 ≤ 10)
    (hc : (joined ((b1, d1) :: (b2, d2) :: segs)).length ≤ chunk.length) (flag : Bool) :
    ∃ s s1 s2, (init chunk).writeAll ((b1, d1) :: (b2, d2) :: segs) = some s ∧
      (s.reset flag).read b1 = some (d1, s1) ∧ s1.read b2 = some (d2, s2) := by
  have hb1 : b1 ≠ 0 := hb (b1, d1) List.mem_cons_self
  have hb2 : b2 ≠ 0 := hb (b2, d2) (List.mem_cons_of_mem _ List.mem_cons_self)
  obtain ⟨s, w, p1, p2, p3, p4⟩ := written_at chunk _ (Nat.le_trans (List.length_filter_le ..) (by simpa using hl)) hc flag
  have hj : joined ((b1, d1) :: (b2, d2) :: segs) = d1 ++ (d2 ++ joined segs) := by simp [joined]
  have hat : At (s.reset flag) ((b1, d1) :: (b2, d2) :: segs) := by
    refine ⟨by rw [p1, p2, p3]; rfl, _, by rw [p1, p4]; rfl, by rw [p1]; omega⟩
  have r1 := managed_read_through _ _ hat b1 (hb _ List.mem_cons_self) (by simp)
  have n1 : (s.reset flag).next = some { s.reset flag with pos := d1.length, cur := 1 } := by
    simp [next, p1, p2, p3, segEnds, hb1]
  have hat2 : At { s.reset flag with pos := d1.length, cur := 1 } ((b2, d2) :: segs) := by
    refine ⟨by simp only [p3]; simp [segEnds, hb1], chunk.drop (joined ((b1, d1) :: (b2, d2) :: segs)).length, ?_, ?_⟩
    · simp only [p4]
      rw [hj]
      simp [joined]
    · simp only [p4]
      simp [hj]
  have r2 := managed_read_through _ _ hat2 b2 (hb _ (List.mem_cons_of_mem _ List.mem_cons_self)) (by simp)
  have n2 : ∃ s2, MBuf.next { s.reset flag with pos := d1.length, cur := 1 } = some s2 := by
    refine ⟨{ s.reset flag with pos := d1.length + (d1.length + d2.length), cur := 2 }, ?_⟩
    simp [next, p3, segEnds, hb1, hb2]
  obtain ⟨s2, n2⟩ := n2
  have t1 : through b1 ((b1, d1) :: (b2, d2) :: segs) = d1 := by simp [through]
  have t2 : through b2 ((b2, d2) :: segs) = d2 := by simp [through]
  refine ⟨s, { s.reset flag with pos := d1.length, cur := 1 }, s2, w, ?_, ?_⟩
  · rw [MBuf.read, r1, n1, t1]
  · rw [MBuf.read, r2, n2, t2]

/-- Any number of moves to the next segment. -/
def nexts : Nat → MBuf → Option MBuf
  | 0, s => some s
  | n + 1, s => match s.next with | none => none | some s => nexts n s

theorem nexts_same : ∀ (n : Nat) (s s' : MBuf), nexts n s = some s' → s'.bounds = s.bounds ∧ s'.chunk = s.chunk
  | 0, s, s', h => by simp only [nexts, Option.some.injEq] at h; subst h; exact ⟨rfl, rfl⟩
  | n + 1, s, s', h => by
    simp only [nexts] at h
    cases hn : s.next with
    | none => rw [hn] at h; simp at h
    | some s1 =>
      rw [hn] at h
      obtain ⟨h1, h2⟩ := nexts_same n s1 s' h
      rw [next] at hn
      cases hb : s.bounds[s.cur]? with
      | none => rw [hb] at hn; simp at hn
      | some x =>
        rw [hb] at hn
        simp only [Option.some.injEq] at hn
        subst hn
        exact ⟨h1, h2⟩

/-- C44: after writing segments - some of them without boundary - and whatever reading, a reset leads back to the
start: reading up to a boundary gives everything written before it. -/
theorem managed_reread (chunk : List UInt8) (segs : List (UInt8 × List UInt8)) (hl : (segs.filter (·.1 ≠ 0)).length ≤ 10)
    (hc : (joined segs).length ≤ chunk.length) (b : UInt8) (hb0 : b ≠ 0) (hb : b ∈ segs.map (·.1)) (flag flag' : Bool) :
    ∃ s, (init chunk).writeAll segs = some s ∧ ∀ (n : Nat) (s' : MBuf), nexts n (s.reset flag) = some s' →
      (s'.reset flag').currentRo b = some (through b segs) ∧
      (s'.reset flag').currentRo 0 = some (joined segs ++ chunk.drop (joined segs).length) := by
  obtain ⟨s, w, p1, p2, p3, p4⟩ := written_at chunk segs hl hc flag
  refine ⟨s, w, fun n s' hs' => ?_⟩
  obtain ⟨q1, q2⟩ := nexts_same n _ _ hs'
  rw [p3] at q1
  rw [p4] at q2
  constructor
  · refine managed_read_through _ segs ⟨?_, chunk.drop (joined segs).length, ?_, ?_⟩ b hb0 hb
    · simp [reset, q1]
    · simp [reset, q2]
    · simp [reset]
  · rw [managed_read_rest _ (by simp [reset])]
    simp [reset, q2]

-- two pieces without boundary in front of one with, read twice
example : ∃ s s1, (init (List.replicate 8 0)).writeAll [(0, [1]), (0, [2, 3]), (5, [4])] = some s ∧
    nexts 1 (s.reset true) = some s1 ∧ (s1.reset false).currentRo 5 = some [1, 2, 3, 4] := ⟨_, _, rfl, rfl, rfl⟩

/-- C44 fails from the third segment on: its start is off by the length of the first segment, so that the third read
loses that many bytes, or is of no sensible length at all if there are not so many. -/
theorem managed_third_wrong (chunk : List UInt8) (b1 b2 b3 : UInt8) (d1 d2 d3 : List UInt8) (segs : List (UInt8 × List UInt8))
    (hb : ∀ x ∈ (b1, d1) :: (b2, d2) :: (b3, d3) :: segs, x.1 ≠ 0) (hl : segs.length + 3 ≤ 10)
    (hc : (joined ((b1, d1) :: (b2, d2) :: (b3, d3) :: segs)).length ≤ chunk.length) (flag : Bool) :
    ∃ s s1 s2, (init chunk).writeAll ((b1, d1) :: (b2, d2) :: (b3, d3) :: segs) = some s ∧
      (s.reset flag).next = some s1 ∧ s1.next = some s2 ∧
      s2.currentRo b3 = if d1.length ≤ d3.length then some (d3.drop d1.length) else none := by
  have hb1 : b1 ≠ 0 := hb (b1, d1) List.mem_cons_self
  have hb2 : b2 ≠ 0 := hb (b2, d2) (List.mem_cons_of_mem _ List.mem_cons_self)
  obtain ⟨s, w, p1, p2, p3, p4⟩ := written_at chunk _ (Nat.le_trans (List.length_filter_le ..) (by simpa using hl)) hc flag
  have hj : joined ((b1, d1) :: (b2, d2) :: (b3, d3) :: segs) = d1 ++ (d2 ++ (d3 ++ joined segs)) := by simp [joined]
  have n1 : (s.reset flag).next = some { s.reset flag with pos := d1.length, cur := 1 } := by
    simp [next, p1, p2, p3, segEnds, hb1]
  have n2 : MBuf.next { s.reset flag with pos := d1.length, cur := 1 } =
      some { s.reset flag with pos := d1.length + (d1.length + d2.length), cur := 2 } := by
    simp [next, p3, segEnds, hb1, hb2]
  refine ⟨s, _, _, w, n1, n2, ?_⟩
  have hb3 : b3 ≠ 0 := hb (b3, d3) (by simp)
  rw [hj] at hc
  simp only [List.length_append] at hc
  have hlim : limit b3 (s.reset flag).chunk.length ((s.reset flag).bounds.drop 2) = d1.length + d2.length + d3.length := by
    rw [p3]
    simp [segEnds, limit, hb1, hb2, hb3]
  have hclen : (s.reset flag).chunk.length = chunk.length := by
    rw [p4, hj]
    simp only [List.length_append, List.length_drop]
    omega
  simp only [currentRo, beq_iff_eq, hb3, if_false, hlim]
  by_cases hle : d1.length ≤ d3.length
  · rw [if_pos ⟨by omega, by omega⟩, if_pos hle, p4, hj]
    congr 1
    have : (d1 ++ (d2 ++ (d3 ++ joined segs)) ++ chunk.drop (d1 ++ (d2 ++ (d3 ++ joined segs))).length).drop
        (d1.length + (d1.length + d2.length)) = d3.drop d1.length ++ (joined segs ++ chunk.drop (d1 ++ (d2 ++ (d3 ++ joined segs))).length) := by
      rw [show d1.length + (d1.length + d2.length) = d1.length + (d2.length + d1.length) by omega, ← List.drop_drop]
      simp only [List.append_assoc, List.drop_left]
      rw [← List.drop_drop, List.drop_left, List.drop_append_of_le_length hle]
    rw [this, List.take_left' (by simp; omega)]
  · rw [if_neg (by omega), if_neg hle]

/-- C44: the eleventh boundary is written past the table. -/
theorem managed_eleventh_boundary (s : MBuf) (h : 10 ≤ s.bounds.length) (b : UInt8) (hb : b ≠ 0) (n : Nat) : s.boundary b n = none := by
  simp [boundary, hb]; omega

/-- C44: resetting "with boundaries" keeps them. -/
theorem managed_reset_keeps (s : MBuf) (flag : Bool) : (s.reset flag).bounds = s.bounds := rfl

-- three segments: the third comes back without its first two bytes
example : ∃ s s1 s2 s3, (init (List.replicate 16 0)).writeAll [(1, [1, 2]), (2, [3]), (1, [4, 5, 6])] = some s ∧
    (s.reset false).read 1 = some ([1, 2], s1) ∧ s1.read 2 = some ([3], s2) ∧ s2.read 1 = some ([6], s3) :=
  ⟨_, _, _, _, rfl, rfl, rfl, rfl⟩

-- reading to an outer boundary joins the inner segments
example : ∃ s, (init (List.replicate 16 0)).writeAll [(1, [1, 2]), (1, [3]), (2, [4])] = some s ∧
    (s.reset false).currentRo 2 = some [1, 2, 3, 4] ∧ At (s.reset false) [(1, [1, 2]), (1, [3]), (2, [4])] :=
  ⟨_, rfl, rfl, rfl, List.replicate 12 0, rfl, by decide⟩

end Verif.Props
