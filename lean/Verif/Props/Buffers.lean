import Verif.Model.Buffers

/-! # C86: network buffers -/
namespace Verif.Props
open Verif.Model.Buf

/-- The buffers that are allocated are the ones in the queues, each once, and the ones that were forgotten (`lost`). -/
structure BufInv (s : St) (lost : List Nat) : Prop where
  perm : s.heap.live.Perm (s.inq ++ s.outq ++ lost)
  nodup : s.heap.live.Nodup
  old : ∀ b ∈ s.heap.live, b < s.heap.next

/-- Specification: how many messages `process_messageobserver` takes from the queue, given how many wait. -/
def observed : Nat → List Ev → Nat
  | _, [] => 0
  | n, .turn true :: es => observed (n + 1) es
  | n, .turn false :: es => observed n es
  | n, .observer :: es => (if n = 0 then 0 else 1) + observed (n - 1) es
  | n, .observer2 :: es => observed (n - 1) es
  | n, .answer :: es => observed (n - 1) es
  | n, .send :: es => observed n es

theorem BufInv.new {s : St} {lost : List Nat} (h : BufInv s lost) : (s.heap.next :: s.heap.live).Nodup ∧
    ∀ b ∈ s.heap.next :: s.heap.live, b < s.heap.next + 1 := by
  refine ⟨List.nodup_cons.mpr ⟨fun hm => Nat.lt_irrefl _ (h.old _ hm), h.nodup⟩, ?_⟩
  intro b hb
  rcases List.mem_cons.mp hb with rfl | hb
  · omega
  · have := h.old b hb; omega

theorem BufInv.receive {s : St} {lost : List Nat} (h : BufInv s lost) (a : Bool) : BufInv (s.receive a) lost := by
  cases a with
  | false => exact h
  | true =>
    obtain ⟨n1, n2⟩ := h.new
    refine ⟨?_, n1, n2⟩
    simp only [St.receive, Heap.new, if_true]
    have : (s.inq ++ [s.heap.next] ++ s.outq ++ lost).Perm (s.heap.next :: (s.inq ++ s.outq ++ lost)) := by
      simp only [List.append_assoc, List.cons_append, List.nil_append]
      exact List.perm_middle
    exact (h.perm.cons _).trans this.symm

theorem BufInv.delete_in {s : St} {lost : List Nat} {b : Nat} {inq : List Nat} (h : BufInv s lost) (hq : s.inq = b :: inq) :
    s.heap.delete b = some ⟨s.heap.live.erase b, s.heap.next⟩ ∧ BufInv ⟨⟨s.heap.live.erase b, s.heap.next⟩, inq, s.outq⟩ lost := by
  have hm : b ∈ s.heap.live := h.perm.mem_iff.mpr (by rw [hq]; simp)
  refine ⟨by rw [Heap.delete, if_pos hm], ?_, h.nodup.erase b, fun x hx => h.old x (List.mem_of_mem_erase hx)⟩
  have := h.perm.erase b
  rw [hq] at this
  simpa using this

theorem BufInv.delete_out {s : St} {lost : List Nat} {b : Nat} {outq : List Nat} (h : BufInv s lost) (hq : s.outq = b :: outq) :
    s.heap.delete b = some ⟨s.heap.live.erase b, s.heap.next⟩ ∧ BufInv ⟨⟨s.heap.live.erase b, s.heap.next⟩, s.inq, outq⟩ lost := by
  have hm : b ∈ s.heap.live := h.perm.mem_iff.mpr (by rw [hq]; simp)
  refine ⟨by rw [Heap.delete, if_pos hm], ?_, h.nodup.erase b, fun x hx => h.old x (List.mem_of_mem_erase hx)⟩
  have hp : s.heap.live.Perm (b :: (s.inq ++ outq ++ lost)) := by
    refine h.perm.trans ?_
    rw [hq, List.append_assoc, List.append_assoc]
    exact List.perm_middle
  have := hp.erase b
  simpa using this

/-- One action never touches a buffer that is not allocated, and forgets one exactly if it is `process_messageobserver` and a message
waits. -/
theorem BufInv.step {s : St} {lost : List Nat} (h : BufInv s lost) (e : Ev) :
    ∃ s' lost', s.step e = some s' ∧ BufInv s' lost' ∧
      lost'.length = lost.length + observed s.inq.length [e] ∧ ∀ es, observed s.inq.length (e :: es) = observed s.inq.length [e] + observed s'.inq.length es := by
  cases e with
  | turn a =>
    have ht : ∃ s1, s.transmit = some s1 ∧ BufInv s1 lost ∧ s1.inq = s.inq := by
      cases hq : s.outq with
      | nil => exact ⟨s, by simp [St.transmit, hq], h, rfl⟩
      | cons b outq =>
        obtain ⟨e1, h1⟩ := h.delete_out hq
        exact ⟨_, by simp only [St.transmit, hq, e1, Option.map_some], h1, rfl⟩
    obtain ⟨s1, e1, h1, hi⟩ := ht
    refine ⟨s1.receive a, lost, by simp [St.step, e1], h1.receive a, ?_, ?_⟩
    · cases a <;> simp [observed]
    · intro es
      cases a <;> simp [observed, St.receive, Heap.new, hi]
  | observer =>
    cases hq : s.inq with
    | nil => exact ⟨s, lost, by simp [St.step, St.observer, hq], h, by simp [observed], fun es => by simp [observed, hq]⟩
    | cons b inq =>
      obtain ⟨e1, h1⟩ := h.delete_in hq
      obtain ⟨n1, n2⟩ := h1.new
      refine ⟨_, s.heap.next :: lost, by simp only [St.step, St.observer, hq, e1, Option.map_some]; rfl, ⟨?_, n1, n2⟩, by simp [observed], fun es => by simp [observed]⟩
      exact (h1.perm.cons s.heap.next).trans (List.perm_middle.symm)
  | observer2 =>
    cases hq : s.inq with
    | nil => exact ⟨s, lost, by simp [St.step, St.observer2, hq], h, by simp [observed], fun es => by simp [observed, hq]⟩
    | cons b inq =>
      obtain ⟨e1, h1⟩ := h.delete_in hq
      exact ⟨_, lost, by simp only [St.step, St.observer2, hq, e1, Option.map_some], h1, by simp [observed], fun es => by simp [observed]⟩
  | answer =>
    cases hq : s.inq with
    | nil => exact ⟨s, lost, by simp [St.step, St.answer, hq], h, by simp [observed], fun es => by simp [observed, hq]⟩
    | cons b inq =>
      obtain ⟨e1, h1⟩ := h.delete_in hq
      obtain ⟨n1, n2⟩ := h1.new
      refine ⟨_, lost, by simp only [St.step, St.answer, hq, e1, Option.map_some]; rfl, ⟨?_, n1, n2⟩, by simp [observed], fun es => by simp [observed]⟩
      refine (h1.perm.cons s.heap.next).trans ?_
      simp only [Heap.new, List.append_assoc, List.cons_append, List.nil_append]
      rw [← List.append_assoc, ← List.append_assoc]
      exact List.perm_middle.symm
  | send =>
    obtain ⟨n1, n2⟩ := h.new
    refine ⟨_, lost, rfl, ⟨?_, n1, n2⟩, by simp [observed], fun es => by simp [observed, St.send]⟩
    refine (h.perm.cons s.heap.next).trans ?_
    simp only [St.send, Heap.new, List.append_assoc, List.cons_append, List.nil_append]
    rw [← List.append_assoc, ← List.append_assoc]
    exact List.perm_middle.symm

theorem BufInv.run (es : List Ev) : ∀ {s : St} {lost : List Nat}, BufInv s lost →
    ∃ s' lost', s.run es = some s' ∧ BufInv s' lost' ∧ lost'.length = lost.length + observed s.inq.length es := by
  induction es with
  | nil => intro s lost h; exact ⟨s, lost, rfl, h, by simp [observed]⟩
  | cons e es ih =>
    intro s lost h
    obtain ⟨s1, l1, e1, h1, c1, d1⟩ := h.step e
    obtain ⟨s2, l2, e2, h2, c2⟩ := ih h1
    exact ⟨s2, l2, by rw [St.run, e1, Option.bind_some, e2], h2, by rw [c2, c1, d1 es]; omega⟩

theorem bufInv_init : BufInv St.init [] := ⟨by simp [St.init], by simp [St.init], by simp [St.init]⟩

/-- C86: in every run no buffer is used, sent or deleted when it is not allocated (`some`), and without `process_messageobserver` exactly the buffers
in the queues are allocated, each of them once. -/
theorem buffers_accounted_partial (es : List Ev) (h : Ev.observer ∉ es) :
    ∃ s, St.init.run es = some s ∧ s.heap.live.Perm (s.inq ++ s.outq) ∧ (s.inq ++ s.outq).Nodup := by
  obtain ⟨s, lost, e, hi, hc⟩ := bufInv_init.run es
  have h0 : ∀ (es : List Ev) (n : Nat), Ev.observer ∉ es → observed n es = 0 := by
    intro es
    induction es with
    | nil => intro n _; rfl
    | cons x es ih =>
      intro n hn
      simp only [List.mem_cons, not_or] at hn
      cases x with
      | turn a => cases a <;> simp [observed, ih _ hn.2]
      | observer => exact absurd rfl hn.1
      | observer2 => simp [observed, ih _ hn.2]
      | answer => simp [observed, ih _ hn.2]
      | send => simp [observed, ih _ hn.2]
  have : lost = [] := List.length_eq_zero_iff.mp (by rw [hc, h0 es _ h]; rfl)
  subst this
  have hp := hi.perm
  rw [List.append_nil] at hp
  exact ⟨s, e, hp, hp.nodup_iff.mp hi.nodup⟩

/-- C86, exactly: whatever the run, no buffer is used or deleted when it is not allocated, and the buffers allocated are exactly the ones in the two
queues, each once, if and only if `process_messageobserver` has not taken any message. -/
theorem buffers_accounted_iff (es : List Ev) :
    ∃ s, St.init.run es = some s ∧ (s.inq ++ s.outq).Nodup ∧ (s.heap.live.Perm (s.inq ++ s.outq) ↔ observed 0 es = 0) := by
  obtain ⟨s, lost, e, hi, hc⟩ := bufInv_init.run es
  have hc' : lost.length = observed 0 es := by simpa [St.init] using hc
  refine ⟨s, e, (List.nodup_append.mp (hi.perm.nodup_iff.mp hi.nodup)).1, fun h => ?_, fun h => ?_⟩
  · have h1 := h.length_eq
    rw [hi.perm.length_eq, List.length_append (bs := lost)] at h1
    omega
  · rw [← hc', List.length_eq_zero_iff] at h
    subst h
    simpa using hi.perm

/-- C86 fails with `process_messageobserver`: for every run, the buffers allocated are those in the queues and one more for every message it has
taken. -/
theorem observer_leaks (es : List Ev) :
    ∃ s, St.init.run es = some s ∧ s.heap.live.length = s.inq.length + s.outq.length + observed 0 es := by
  obtain ⟨s, lost, e, hi, hc⟩ := bufInv_init.run es
  refine ⟨s, e, ?_⟩
  rw [hi.perm.length_eq, List.length_append, List.length_append, hc]
  simp [St.init]

/-- C86 fails: receiving and observing `n` messages leaves `n` buffers behind with both queues empty. -/
theorem observer_leaks_n (n : Nat) : ∃ s, St.init.run ((List.replicate n [Ev.turn true, .observer]).flatten) = some s ∧
    s.heap.live.length = n ∧ s.inq = [] ∧ s.outq = [] := by
  have key : ∀ (n : Nat) (s : St) (lost : List Nat), BufInv s lost → s.inq = [] → s.outq = [] →
      ∃ s', s.run ((List.replicate n [Ev.turn true, .observer]).flatten) = some s' ∧ s'.heap.live.length = s.heap.live.length + n ∧ s'.inq = [] ∧ s'.outq = [] := by
    intro n
    induction n with
    | zero => intro s lost _ h1 h2; exact ⟨s, rfl, rfl, h1, h2⟩
    | succ n ih =>
      intro s lost h h1 h2
      have e1 : s.step (.turn true) = some ⟨⟨s.heap.next :: s.heap.live, s.heap.next + 1⟩, [s.heap.next], []⟩ := by
        simp [St.step, St.transmit, St.receive, Heap.new, h1, h2]
      have e2 : St.step ⟨⟨s.heap.next :: s.heap.live, s.heap.next + 1⟩, [s.heap.next], []⟩ .observer =
          some ⟨⟨(s.heap.next + 1) :: s.heap.live, s.heap.next + 2⟩, [], []⟩ := by
        simp [St.step, St.observer, Heap.delete, Heap.new]
      obtain ⟨s1, l1, f1, i1, -⟩ := h.step (.turn true)
      obtain ⟨s2, l2, f2, i2, -⟩ := i1.step .observer
      rw [e1, Option.some.injEq] at f1
      subst f1
      rw [e2, Option.some.injEq] at f2
      subst f2
      obtain ⟨s3, g1, g2, g3, g4⟩ := ih _ _ i2 rfl rfl
      refine ⟨s3, ?_, ?_, g3, g4⟩
      · rw [List.replicate_succ, List.flatten_cons, List.cons_append, List.cons_append, List.nil_append, St.run, e1, Option.bind_some, St.run, e2, Option.bind_some, g1]
      · rw [g2]; simp only [List.length_cons]; omega
  obtain ⟨s, h1, h2, h3, h4⟩ := key n St.init [] bufInv_init rfl rfl
  exact ⟨s, h1, by rw [h2]; simp [St.init], h3, h4⟩

example : Ev.observer ∉ [Ev.turn true, .answer, .send, .turn true, .observer2, .turn false] := by decide
example : (St.init.run [.turn true, .answer, .send, .turn true, .turn false, .observer2]).map (·.heap.live) = some [] := by decide
example : (St.init.run [.turn true, .observer, .turn true, .observer]).map (·.heap.live.length) = some 2 := by decide

end Verif.Props
