import Verif.Props.SocketsReliable

/-! # C85: exactly which runs of the helper with the reliable feature misbehave -/
namespace Verif.Props
open Verif.Model Verif.Spec Verif.Proofs

variable {A : Type}

/-- After this turn of the loop the first datagram waiting has a long token. -/
def LongFront (e : SockEv A) (p : Sock A) : Prop := (∃ ok i, e = .loop ok i) ∧ ∃ x, p.inq.head? = some x ∧ LongToken x.1

theorem rel_step {P : Retry.PQ (List UInt8 × A)} {same : A → A → Bool} {junk : Dec} (hj : junk.tbuf.length = 8) (s : Rel A)
    (h0 : s.retry = Retry.init) (e : SockEv A × Nat) :
    (s.pump.step e.1 = none → s.step P same junk e = .error .ended) ∧
    ∀ p, s.pump.step e.1 = some p → (LongFront e.1 p → s.step P same junk e = .error .memory) ∧
      (¬LongFront e.1 p → s.step P same junk e = .ok ⟨p, Retry.init⟩) := by
  obtain ⟨e, now⟩ := e
  cases e with
  | loop ok i =>
    simp only [Sock.step, Rel.step, rel_loop s h0]
    refine ⟨fun h => by rw [h], fun p h => ?_⟩
    rw [h]
    simp only
    cases hq : p.inq with
    | nil => simp [LongFront, hq]
    | cons x xs =>
      by_cases hl : LongToken x.1
      · have := readHead_long junk hj x.1 hl
        refine ⟨fun _ => by simp [this], fun hn => absurd ⟨⟨ok, i, rfl⟩, x, by simp [hq], hl⟩ hn⟩
      · obtain ⟨r, hr⟩ := readHead_any junk hj x.1 hl
        refine ⟨?_, fun _ => by simp [hr]⟩
        rintro ⟨-, y, hy, hly⟩
        rw [hq] at hy
        simp only [List.head?_cons, Option.some.injEq] at hy
        exact absurd (hy ▸ hly) hl
  | enqueue b a =>
    obtain ⟨r, hr⟩ := header_any junk b
    refine ⟨fun h => by simp [Sock.step] at h, fun p h => ?_⟩
    simp only [Sock.step, Option.some.injEq] at h
    exact ⟨by rintro ⟨⟨ok, i, h⟩, -⟩; simp at h, fun _ => by rw [Rel.step, Rel.enqueue, hr, ← h, ← h0]⟩
  | take =>
    refine ⟨fun h => by simp [Sock.step] at h, fun p h => ?_⟩
    simp only [Sock.step, Option.some.injEq] at h
    exact ⟨by rintro ⟨⟨ok, i, h⟩, -⟩; simp at h, fun _ => by rw [Rel.step, ← h, ← h0]⟩

/-- C85, exactly which runs survive: with the reliable feature a run goes on to the end if and only if the run of the plain helper does, and no
turn of the loop ends with a datagram with a long token first in the queue; otherwise the process ended, or memory outside the buffers was
written, and the latter exactly if such a datagram is met before the process ends. -/
theorem reliable_runs_iff (P : Retry.PQ (List UInt8 × A)) (same : A → A → Bool) (junk : Dec) (hj : junk.tbuf.length = 8)
    (es : List (SockEv A × Nat)) :
    ((∃ s, Rel.empty.run P same junk es = .ok s) ↔ (∃ p, Sock.empty.run (es.map (·.1)) = some p) ∧
      ∀ pre e post p, es.map (·.1) = pre ++ e :: post → Sock.empty.run (pre ++ [e]) = some p → ¬LongFront e p) ∧
    (Rel.empty.run P same junk es = .error .memory ↔
      ∃ pre e post p, es.map (·.1) = pre ++ e :: post ∧ Sock.empty.run (pre ++ [e]) = some p ∧ LongFront e p) := by
  have key : ∀ (es : List (SockEv A × Nat)) (s : Rel A), s.retry = Retry.init →
      ((∃ s', s.run P same junk es = .ok s') ↔ (∃ p, s.pump.run (es.map (·.1)) = some p) ∧
        ∀ pre e post p, es.map (·.1) = pre ++ e :: post → s.pump.run (pre ++ [e]) = some p → ¬LongFront e p) ∧
      (s.run P same junk es = .error .memory ↔
        ∃ pre e post p, es.map (·.1) = pre ++ e :: post ∧ s.pump.run (pre ++ [e]) = some p ∧ LongFront e p) := by
    intro es
    induction es with
    | nil => intro s _; simp [Rel.run, Sock.run]
    | cons e es ih =>
      intro s h0
      obtain ⟨g1, g2⟩ := rel_step (P := P) (same := same) hj s h0 e
      cases hp : s.pump.step e.1 with
      | none =>
        have hno : ∀ pre x post p, (e :: es).map (·.1) = pre ++ x :: post → s.pump.run (pre ++ [x]) ≠ some p := by
          intro pre x post p he
          cases pre with
          | nil =>
            simp only [List.map_cons, List.nil_append, List.cons.injEq] at he
            simp [Sock.run, ← he.1, hp]
          | cons y pre =>
            simp only [List.map_cons, List.cons_append, List.cons.injEq] at he
            simp [Sock.run, ← he.1, hp]
        rw [Rel.run, g1 hp]
        refine ⟨⟨by rintro ⟨s', h⟩; simp at h, ?_⟩, by simp, ?_⟩
        · rintro ⟨⟨p, h⟩, -⟩
          simp [Sock.run, hp] at h
        · rintro ⟨pre, x, post, p, he, hr, -⟩
          exact absurd hr (hno pre x post p he)
      | some p1 =>
        obtain ⟨k1, k2⟩ := g2 p1 hp
        by_cases hl : LongFront e.1 p1
        · rw [Rel.run, k1 hl]
          have hw : (e :: es).map (·.1) = [] ++ e.1 :: es.map (·.1) ∧ s.pump.run ([] ++ [e.1]) = some p1 ∧ LongFront e.1 p1 :=
            ⟨rfl, by simp [Sock.run, hp], hl⟩
          refine ⟨⟨by rintro ⟨s', h⟩; simp at h, ?_⟩, fun _ => ⟨[], e.1, _, p1, hw⟩, fun _ => rfl⟩
          rintro ⟨-, h⟩
          exact absurd hw.2.2 (h [] e.1 _ p1 hw.1 hw.2.1)
        · obtain ⟨i1, i2⟩ := ih ⟨p1, Retry.init⟩ rfl
          rw [Rel.run, k2 hl]
          simp only
          rw [i1, i2]
          have hrun : ∀ xs : List (SockEv A), s.pump.run (e.1 :: xs) = p1.run xs := fun xs => by simp [Sock.run, hp]
          have hs :
              (∃ pre x post p, (e :: es).map (·.1) = pre ++ x :: post ∧ s.pump.run (pre ++ [x]) = some p ∧ LongFront x p) ↔
              (∃ pre x post p, es.map (·.1) = pre ++ x :: post ∧ p1.run (pre ++ [x]) = some p ∧ LongFront x p) := by
            constructor
            · rintro ⟨pre, x, post, p, he, hr, hf⟩
              cases pre with
              | nil =>
                simp only [List.map_cons, List.nil_append, List.cons.injEq] at he
                obtain ⟨rfl, -⟩ := he
                rw [List.nil_append, hrun, Sock.run, Option.some.injEq] at hr
                exact absurd (hr ▸ hf) hl
              | cons y pre =>
                simp only [List.map_cons, List.cons_append, List.cons.injEq] at he
                obtain ⟨rfl, he⟩ := he
                rw [List.cons_append, hrun] at hr
                exact ⟨pre, x, post, p, he, hr, hf⟩
            · rintro ⟨pre, x, post, p, he, hr, hf⟩
              exact ⟨e.1 :: pre, x, post, p, by simp [he], by rw [List.cons_append, hrun]; exact hr, hf⟩
          refine ⟨?_, hs.symm⟩
          rw [List.map_cons, hrun]
          refine and_congr Iff.rfl ?_
          constructor
          · intro h pre x post p he hr hf
            obtain ⟨pre', x', post', p', he', hr', hf'⟩ := hs.1 ⟨pre, x, post, p, he, hr, hf⟩
            exact h pre' x' post' p' he' hr' hf'
          · intro h pre x post p he hr hf
            obtain ⟨pre', x', post', p', he', hr', hf'⟩ := hs.2 ⟨pre, x, post, p, he, hr, hf⟩
            exact h pre' x' post' p' he' hr' hf'
  exact key es Rel.empty rfl

/-- A long token behind a datagram that is not taken does no harm until that is taken and the loop turns again. -/
example : let l : List UInt8 := [0x49, 1, 0, 7, 1, 2, 3, 4, 5, 6, 7, 8, 9]
    let es : List (SockEv Nat) := [.loop true (.datagram [0x40, 1, 0, 7] 7), .loop true (.datagram l 7), .take]
    LongToken l ∧ ((Sock.empty.run es).map fun p => p.inq) = some [(l, 7)] ∧
    ((Sock.empty.run (es ++ [.loop true .quiet])).map fun p => p.inq) = some [(l, 7)] := by
  refine ⟨by unfold LongToken; decide, by decide, by decide⟩

example := fun P => reliable_runs_iff (A := Nat) P (fun a b => a == b) Dec.zero rfl silentDay

end Verif.Props
