import Verif.Props.Retry
import Verif.Spec.RetryLoop

/-!
# C72: what a confirmable message leads to when the transport reports every datagram it sends
-/
namespace Verif.Props
open Verif.Model Verif.Model.Retry Verif.Spec Verif.Proofs.Retry

variable {A : Type}

/-- The sum of the retransmission counters. -/
def counters (q : List (Item A)) : Nat := (q.map (·.counter)).sum

theorem counters_perm {a b : List (Item A)} (h : a.Perm b) : counters a = counters b := by
  unfold counters
  exact (h.map _).sum_nat

/-- What holds after any history: `m` confirmable messages asked for, `n` arrivals, `c` confirmable messages sent. -/
structure LoopInv (P : PQ A) (s : LoopSt A) (m n c : Nat) : Prop where
  heap : P.heap s.r.q
  small : s.r.q.length ≤ 10
  item : ∀ x ∈ s.r.q, x.counter ≤ 2 ∧ x.timeout < 4096
  count : ∃ a b r d, r ≤ n ∧ s.r.q.length + (s.out.filter (·.con)).length + r = m + a ∧
    counters s.r.q + 2 * b + d = a ∧ d ≤ 2 * r ∧ c + (s.out.filter (·.con)).length = m + a + b

theorem LoopInv.init (P : PQ A) : LoopInv P (loopInit : LoopSt A) 0 0 0 :=
  ⟨P.heap_nil, by simp [loopInit, Retry.init], by simp [loopInit, Retry.init],
    0, 0, 0, 0, by simp [loopInit, Retry.init, counters]⟩

theorem enqueue_cases {P : PQ A} {s : St A} {now rnd addr mid token r} (h : enqueue P s now rnd addr mid token = some r) :
    s.q.length < 10 ∧ ∃ x : Item A, r.1 = ⟨P.push s.q x, s.next + 1⟩ ∧ x.addr = addr ∧ x.mid = mid ∧ x.token = token ∧ x.counter = 0 ∧
      x.timeout < 4096 ∧ x.due = now + x.timeout := by
  simp only [enqueue] at h
  split at h
  · rename_i hl
    refine ⟨hl, _, by cases h; rfl, rfl, rfl, rfl, rfl, by simp; omega, by simp [Item.delta]⟩
  · exact absurd h (by simp)

theorem loopStep_inv {P : PQ A} {same : A → A → Bool} {s s' : LoopSt A} {m n c : Nat} {e : LoopEv A} {o}
    (h : LoopInv P s m n c) (hs : loopStep P same s e = some (s', o)) :
    LoopInv P s' (m + askedCon [e]) (n + arrivals [e]) (c + conSends o) := by
  obtain ⟨hh, hl, hi, a, b, r, d, h1, h2, h3, h4, h5⟩ := h
  cases e with
  | app g =>
    simp only [loopStep, Option.some.injEq, Prod.mk.injEq] at hs
    obtain ⟨rfl, rfl⟩ := hs
    refine ⟨hh, hl, hi, a, b, r, d, ?_⟩
    cases hg : g.con <;> simp [askedCon, arrivals, conSends, List.filter_append, hg] <;> omega
  | transmit now rnd =>
    simp only [loopStep] at hs
    cases ho : s.out with
    | nil =>
      rw [ho] at hs
      simp only [Option.some.injEq, Prod.mk.injEq] at hs
      obtain ⟨rfl, rfl⟩ := hs
      exact ⟨hh, hl, hi, a, b, r, d, by simp [askedCon, arrivals, conSends]; omega⟩
    | cons g out =>
      rw [ho] at hs h2 h5
      simp only [notifySent] at hs
      cases hg : g.con with
      | false =>
        simp only [hg, Bool.false_eq_true, if_false, Option.map_some, Option.some.injEq, Prod.mk.injEq] at hs
        obtain ⟨rfl, rfl⟩ := hs
        simp only [List.filter_cons, hg, Bool.false_eq_true, if_false] at h2 h5
        exact ⟨hh, hl, hi, a, b, r, d, by simp [askedCon, arrivals, conSends, hg]; omega⟩
      | true =>
        simp only [hg, if_true, Option.map_map, Option.map_eq_some_iff, Prod.mk.injEq, Function.comp] at hs
        obtain ⟨w, hw, rfl, rfl⟩ := hs
        obtain ⟨hlt, x, hx, -, -, -, hc, ht, -⟩ := enqueue_cases hw
        have hp := P.push_perm s.r.q x hh
        simp only [List.filter_cons, hg, if_true, List.length_cons] at h2 h5
        rw [hx]
        refine ⟨P.push_heap _ _ hh, ?_, ?_, a, b, r, d, ?_⟩
        · simp only [hp.length_eq, List.length_cons]; omega
        · intro y hy
          rcases List.mem_cons.1 (hp.mem_iff.1 hy) with rfl | hy
          · omega
          · exact hi y hy
        · simp only [hp.length_eq, counters_perm hp, List.length_cons, askedCon, arrivals, conSends, hg, if_true]
          simp only [counters, List.map_cons, List.sum_cons, hc] at h3 ⊢
          refine ⟨?_, ?_, ?_, ?_, ?_⟩ <;> omega
  | recv addr hd token =>
    simp only [loopStep, Option.some.injEq, Prod.mk.injEq] at hs
    obtain ⟨rfl, rfl⟩ := hs
    simp only [serviceAck]
    split
    · rcases ack_cases P same s.r addr hd.messageId token with ⟨e, -⟩ | ⟨x, l1, l2, q', hq, -, -, hp, hh', e⟩
      · rw [e]
        exact ⟨hh, hl, hi, a, b, r, d, by simp [askedCon, arrivals, conSends]; omega⟩
      · rw [e]
        have hx : x ∈ s.r.q := by rw [hq]; simp
        have hq2 : s.r.q.Perm (x :: q') := by rw [hq]; exact List.perm_middle.trans (hp.symm.cons x)
        have hl2 := hq2.length_eq
        have hc2 := counters_perm hq2
        have := (hi x hx).1
        simp only [List.length_cons] at hl2
        simp only [counters, List.map_cons, List.sum_cons] at hc2 h3
        refine ⟨hh', by simp only; omega, fun y hy => hi y (hq2.mem_iff.2 (List.mem_cons_of_mem _ hy)), a, b, r + 1, d + x.counter, ?_⟩
        simp only [askedCon, arrivals, conSends, counters]
        refine ⟨?_, ?_, ?_, ?_, ?_⟩ <;> omega
    · exact ⟨hh, hl, hi, a, b, r, d, by simp [askedCon, arrivals, conSends]; omega⟩
  | service now =>
    simp only [loopStep, Option.some.injEq, Prod.mk.injEq] at hs
    obtain ⟨rfl, rfl⟩ := hs
    rcases service_cases P s.r now hh (fun x hx => (hi x hx).1) with ⟨e, -⟩ | ⟨x, l, q', hq, hd, -, hh', e, hp⟩
    · rw [e]
      have : handedOver s.r.q ([] : List (Out A)) = [] := by cases s.r.q <;> rfl
      simp only [this, List.append_nil]
      exact ⟨hh, hl, hi, a, b, r, d, by simp [askedCon, arrivals, conSends]; omega⟩
    · rw [e, hq]
      simp only [handedOver]
      rw [hq] at hl hi h2 h3
      simp only [counters, List.map_cons, List.sum_cons, List.length_cons] at hl h2 h3
      have hx := hi x List.mem_cons_self
      rcases hp with ⟨c1, hp⟩ | ⟨c2, hp⟩
      · refine ⟨hh', ?_, ?_, a + 1, b, r, d, ?_⟩
        · simp only [hp.length_eq, List.length_cons]; omega
        · intro y hy
          rcases List.mem_cons.1 (hp.mem_iff.1 hy) with rfl | hy
          · exact ⟨by simp; omega, hx.2⟩
          · exact hi y (List.mem_cons_of_mem _ hy)
        · have hc := counters_perm hp
          simp only [counters, List.map_cons, List.sum_cons] at hc
          simp only [hp.length_eq, List.length_cons, askedCon, arrivals, conSends, counters, List.map_cons, List.sum_cons,
            List.filter_append, List.length_append, List.filter_cons, Item.gram, if_true, List.filter_nil, List.length_nil]
          refine ⟨?_, ?_, ?_, ?_, ?_⟩ <;> omega
      · refine ⟨hh', ?_, ?_, a, b + 1, r, d, ?_⟩
        · simp only [hp.length_eq]; omega
        · exact fun y hy => hi y (List.mem_cons_of_mem _ (hp.mem_iff.1 hy))
        · have hc := counters_perm hp
          simp only [counters, List.map_cons, List.sum_cons] at hc
          simp only [hp.length_eq, List.length_cons, askedCon, arrivals, conSends, counters, List.map_cons, List.sum_cons,
            List.filter_append, List.length_append, List.filter_cons, Item.gram, if_true, List.filter_nil, List.length_nil]
          refine ⟨?_, ?_, ?_, ?_, ?_⟩ <;> omega


theorem conSends_append (a b : List (Nat × Gram A)) : conSends (a ++ b) = conSends a + conSends b := by
  induction a with
  | nil => simp [conSends]
  | cons p a ih => simp only [List.cons_append, conSends]; omega

theorem loopRun_inv {P : PQ A} {same : A → A → Bool} {es : List (LoopEv A)} : ∀ {s s' : LoopSt A} {m n c : Nat} {o},
    LoopInv P s m n c → loopRun P same s es = some (s', o) →
    LoopInv P s' (m + askedCon es) (n + arrivals es) (c + conSends o) := by
  induction es with
  | nil =>
    intro s s' m n c o h hs
    simp only [loopRun, Option.some.injEq, Prod.mk.injEq] at hs
    obtain ⟨rfl, rfl⟩ := hs
    exact h
  | cons e es ih =>
    intro s s' m n c o h hs
    simp only [loopRun] at hs
    split at hs
    · exact absurd hs (by simp)
    · rename_i s1 o1 h1
      cases hr : loopRun P same s1 es with
      | none => rw [hr] at hs; exact absurd hs (by simp)
      | some r =>
        rw [hr] at hs
        simp only [Option.map_some, Option.some.injEq, Prod.mk.injEq] at hs
        obtain ⟨rfl, rfl⟩ := hs
        have := ih (loopStep_inv h h1) hr
        have e1 : askedCon [e] + askedCon es = askedCon (e :: es) := by cases e <;> simp [askedCon]; omega
        have e2 : arrivals [e] + arrivals es = arrivals (e :: es) := by cases e <;> simp [arrivals]; omega
        have e3 := (conSends_append o1 r.2).symm
        rw [Nat.add_assoc, Nat.add_assoc, Nat.add_assoc, e1, e2, e3] at this
        exact this

/-- C72 (what holds of the number of datagrams).  When everything handed to the transport has left, then for `m` confirmable
messages of the application and `n` messages that arrived, confirmable datagrams left at most `(3 · (10 + n) - m) / 2` times: 14
times for one message and no arrival. -/
theorem loop_sends_bounded (P : PQ A) (same : A → A → Bool) (es : List (LoopEv A)) (s : LoopSt A) (tx : List (Nat × Gram A))
    (h : loopRun P same loopInit es = some (s, tx)) (ho : s.out = []) :
    2 * conSends tx + askedCon es ≤ 3 * (10 + arrivals es) := by
  obtain ⟨-, hl, -, a, b, r, d, h1, h2, h3, h4, h5⟩ := loopRun_inv (LoopInv.init P) h
  rw [ho] at h2 h5
  simp only [List.filter_nil, List.length_nil, Nat.zero_add] at h1 h2 h5
  omega

/-- C72 (what does not hold).  A message of the application that has left `c` times is not settled by fewer than
`(1 + 2 · c) / 3` arrivals, whatever they are: something is still waiting to be sent. -/
theorem loop_unsettled (P : PQ A) (same : A → A → Bool) (es : List (LoopEv A)) (s : LoopSt A) (tx : List (Nat × Gram A))
    (h : loopRun P same loopInit es = some (s, tx)) (hn : 3 * arrivals es < askedCon es + 2 * conSends tx) :
    s.r.q ≠ [] ∨ s.out ≠ [] := by
  obtain ⟨-, hl, -, a, b, r, d, h1, h2, h3, h4, h5⟩ := loopRun_inv (LoopInv.init P) h
  by_cases hq : s.r.q = []
  · right
    intro ho
    rw [ho] at h2 h5
    rw [hq] at h2
    simp only [List.filter_nil, List.length_nil, Nat.zero_add] at h1 h2 h5
    omega
  · exact Or.inl hq

/-- Everything tracked or waiting was handed over by the application, and so was everything that left. -/
theorem loop_origin_aux {P : PQ A} {same : A → A → Bool} {S : Gram A → Prop} : ∀ (es : List (LoopEv A)) (s s' : LoopSt A)
    (tx : List (Nat × Gram A)), P.heap s.r.q → (∀ x ∈ s.r.q, x.counter ≤ 2) → (∀ x ∈ s.r.q, S x.gram) → (∀ g ∈ s.out, S g) →
    (∀ g, .app g ∈ es → S g) → loopRun P same s es = some (s', tx) →
    (∀ x ∈ s'.r.q, S x.gram) ∧ (∀ g ∈ s'.out, S g) ∧ ∀ p ∈ tx, S p.2 := by
  intro es
  induction es with
  | nil =>
    intro s s' tx hh hc hq ho ha hs
    simp only [loopRun, Option.some.injEq, Prod.mk.injEq] at hs
    obtain ⟨rfl, rfl⟩ := hs
    exact ⟨hq, ho, by simp⟩
  | cons e es ih =>
    intro s s' tx hh hc hq ho ha hs
    simp only [loopRun] at hs
    split at hs
    · exact absurd hs (by simp)
    · rename_i s1 o1 h1
      cases hr : loopRun P same s1 es with
      | none => rw [hr] at hs; exact absurd hs (by simp)
      | some r =>
        rw [hr] at hs
        simp only [Option.map_some, Option.some.injEq, Prod.mk.injEq] at hs
        obtain ⟨rfl, rfl⟩ := hs
        have key : P.heap s1.r.q ∧ (∀ x ∈ s1.r.q, x.counter ≤ 2) ∧ (∀ x ∈ s1.r.q, S x.gram) ∧ (∀ g ∈ s1.out, S g) ∧ ∀ p ∈ o1, S p.2 := by
          cases e with
          | app g =>
            simp only [loopStep, Option.some.injEq, Prod.mk.injEq] at h1
            obtain ⟨rfl, rfl⟩ := h1
            refine ⟨hh, hc, hq, ?_, by simp⟩
            intro g' hg'
            rcases List.mem_append.1 hg' with hg' | hg'
            · exact ho g' hg'
            · rw [List.mem_singleton.1 hg']; exact ha g List.mem_cons_self
          | transmit now rnd =>
            simp only [loopStep] at h1
            cases hout : s.out with
            | nil =>
              rw [hout] at h1
              simp only [Option.some.injEq, Prod.mk.injEq] at h1
              obtain ⟨rfl, rfl⟩ := h1
              exact ⟨hh, hc, hq, ho, by simp⟩
            | cons g out =>
              rw [hout] at h1 ho
              have hg := ho g List.mem_cons_self
              have hrest : ∀ g ∈ out, S g := fun g hg => ho g (List.mem_cons_of_mem _ hg)
              simp only [notifySent] at h1
              cases hcon : g.con with
              | false =>
                simp only [hcon, Bool.false_eq_true, if_false, Option.map_some, Option.some.injEq, Prod.mk.injEq] at h1
                obtain ⟨rfl, rfl⟩ := h1
                exact ⟨hh, hc, hq, hrest, by simpa using hg⟩
              | true =>
                simp only [hcon, if_true, Option.map_map, Option.map_eq_some_iff, Prod.mk.injEq, Function.comp] at h1
                obtain ⟨w, hw, rfl, rfl⟩ := h1
                obtain ⟨hlt, x, hx, e1, e2, e3, hc0, ht, -⟩ := enqueue_cases hw
                have hp := P.push_perm s.r.q x hh
                rw [hx]
                refine ⟨P.push_heap _ _ hh, ?_, ?_, hrest, by simpa using hg⟩
                · intro y hy
                  rcases List.mem_cons.1 (hp.mem_iff.1 hy) with rfl | hy
                  · omega
                  · exact hc y hy
                · intro y hy
                  rcases List.mem_cons.1 (hp.mem_iff.1 hy) with rfl | hy
                  · obtain ⟨ga, gc, gm, gt⟩ := g
                    simp only at e1 e2 e3 hcon
                    subst e1 e2 e3 hcon
                    exact hg
                  · exact hq y hy
          | recv addr hd token =>
            simp only [loopStep, Option.some.injEq, Prod.mk.injEq] at h1
            obtain ⟨rfl, rfl⟩ := h1
            simp only [serviceAck]
            split
            · rcases ack_cases P same s.r addr hd.messageId token with ⟨e, -⟩ | ⟨x, l1, l2, q', hq', -, -, hp, hh', e⟩
              · rw [e]; exact ⟨hh, hc, hq, ho, by simp⟩
              · rw [e]
                have hsub : ∀ y ∈ q', y ∈ s.r.q := by
                  intro y hy
                  rw [hq']
                  have := hp.mem_iff.1 hy
                  simp only [List.mem_append, List.mem_cons] at this ⊢
                  rcases this with h | h
                  · exact Or.inl h
                  · exact Or.inr (Or.inr h)
                exact ⟨hh', fun y hy => hc y (hsub y hy), fun y hy => hq y (hsub y hy), ho, by simp⟩
            · exact ⟨hh, hc, hq, ho, by simp⟩
          | service now =>
            simp only [loopStep, Option.some.injEq, Prod.mk.injEq] at h1
            obtain ⟨rfl, rfl⟩ := h1
            rcases service_cases P s.r now hh hc with ⟨e, -⟩ | ⟨x, l, q', hq', hd, -, hh', e, hp⟩
            · rw [e]
              have : handedOver s.r.q ([] : List (Out A)) = [] := by cases s.r.q <;> rfl
              simp only [this, List.append_nil]
              exact ⟨hh, hc, hq, ho, by simp⟩
            · rw [e, hq']
              rw [hq'] at hq hc
              have hx := hq x List.mem_cons_self
              have hcx := hc x List.mem_cons_self
              have hout : ∀ g ∈ s.out ++ [x.gram], S g := by
                intro g hg
                rcases List.mem_append.1 hg with hg | hg
                · exact ho g hg
                · rw [List.mem_singleton.1 hg]; exact hx
              refine ⟨hh', ?_, ?_, hout, by simp⟩
              · intro y hy
                rcases hp with ⟨c1, hp⟩ | ⟨c2, hp⟩
                · rcases List.mem_cons.1 (hp.mem_iff.1 hy) with rfl | hy
                  · simp only; omega
                  · exact hc y (List.mem_cons_of_mem _ hy)
                · exact hc y (List.mem_cons_of_mem _ (hp.mem_iff.1 hy))
              · intro y hy
                rcases hp with ⟨c1, hp⟩ | ⟨c2, hp⟩
                · rcases List.mem_cons.1 (hp.mem_iff.1 hy) with rfl | hy
                  · exact hx
                  · exact hq y (List.mem_cons_of_mem _ hy)
                · exact hq y (List.mem_cons_of_mem _ (hp.mem_iff.1 hy))
        obtain ⟨k1, k2, k3, k4, k5⟩ := key
        obtain ⟨r1, r2, r3⟩ := ih s1 r.1 r.2 k1 k2 k3 k4 (fun g hg => ha g (List.mem_cons_of_mem _ hg)) hr
        refine ⟨r1, r2, ?_⟩
        intro p hp
        rcases List.mem_append.1 hp with hp | hp
        · exact k5 p hp
        · exact r3 p hp

/-- C72 (what holds of the content).  Every datagram that leaves is one the application handed over. -/
theorem loop_origin_partial (P : PQ A) (same : A → A → Bool) (es : List (LoopEv A)) (s : LoopSt A) (tx : List (Nat × Gram A))
    (h : loopRun P same loopInit es = some (s, tx)) (t : Nat) (g : Gram A) (hg : (t, g) ∈ tx) : .app g ∈ es :=
  (loop_origin_aux (S := fun g => .app g ∈ es) es loopInit s tx P.heap_nil (by simp [loopInit, Retry.init]) (by simp [loopInit, Retry.init])
    (by simp [loopInit]) (fun _ h => h) h).2.2 _ hg

/-- One event that does not acknowledge `k` leaves `k` waiting. -/
theorem loop_waits_step {P : PQ A} {same : A → A → Bool} {k : Gram A} (hk : k.con = true) {e : LoopEv A} {s s' : LoopSt A}
    {tx : List (Nat × Gram A)} (hh : P.heap s.r.q) (hc : ∀ x ∈ s.r.q, x.counter ≤ 2) (hna : ¬ Acknowledges same k e)
    (hs : loopStep P same s e = some (s', tx)) (hw : Waiting s k ∨ e = .app k) : Waiting s' k := by
  cases e with
  | app g =>
    simp only [loopStep, Option.some.injEq, Prod.mk.injEq] at hs
    obtain ⟨rfl, rfl⟩ := hs
    rcases hw with (hw | hw) | hw
    · exact Or.inl (by simp [hw])
    · exact Or.inr hw
    · cases hw; exact Or.inl (by simp)
  | transmit now rnd =>
    replace hw : Waiting s k := by rcases hw with hw | hw; exact hw; cases hw
    simp only [loopStep] at hs
    cases hout : s.out with
    | nil =>
      rw [hout] at hs
      simp only [Option.some.injEq, Prod.mk.injEq] at hs
      obtain ⟨rfl, rfl⟩ := hs
      exact hw
    | cons g out =>
      rw [hout] at hs
      simp only [notifySent] at hs
      cases hcon : g.con with
      | false =>
        simp only [hcon, Bool.false_eq_true, if_false, Option.map_some, Option.some.injEq, Prod.mk.injEq] at hs
        obtain ⟨rfl, rfl⟩ := hs
        rcases hw with hw | hw
        · rw [hout] at hw
          rcases List.mem_cons.1 hw with rfl | hw
          · rw [hk] at hcon; exact absurd hcon (by simp)
          · exact Or.inl hw
        · exact Or.inr hw
      | true =>
        simp only [hcon, if_true, Option.map_map, Option.map_eq_some_iff, Prod.mk.injEq, Function.comp] at hs
        obtain ⟨w, hw', rfl, rfl⟩ := hs
        obtain ⟨hlt, x, hx, e1, e2, e3, hc0, ht, -⟩ := enqueue_cases hw'
        have hp := P.push_perm s.r.q x hh
        rw [hx]
        rcases hw with hw | ⟨y, hy, hw⟩
        · rw [hout] at hw
          rcases List.mem_cons.1 hw with rfl | hw
          · exact Or.inr ⟨x, hp.mem_iff.2 List.mem_cons_self, e1, e2, e3⟩
          · exact Or.inl hw
        · exact Or.inr ⟨y, hp.mem_iff.2 (List.mem_cons_of_mem _ hy), hw⟩
  | recv addr hd token =>
    replace hw : Waiting s k := by rcases hw with hw | hw; exact hw; cases hw
    simp only [loopStep, Option.some.injEq, Prod.mk.injEq] at hs
    obtain ⟨rfl, rfl⟩ := hs
    simp only [serviceAck]
    split
    · rename_i hty
      rcases ack_cases P same s.r addr hd.messageId token with ⟨e, -⟩ | ⟨x, l1, l2, q', hq', hhit, -, hp, hh', e⟩
      · rw [e]; exact hw
      · rw [e]
        rcases hw with hw | ⟨y, hy, w1, w2, w3⟩
        · exact Or.inl hw
        · right
          rw [hq'] at hy
          have : y ≠ x := by
            rintro rfl
            apply hna
            simp only [hits, Bool.and_eq_true, beq_iff_eq] at hhit
            obtain ⟨⟨g1, g2⟩, g3⟩ := hhit
            exact ⟨by simpa using hty, by rw [← w1]; exact g1, by rw [← w3, g2], by rw [← w2, g3]⟩
          refine ⟨y, hp.mem_iff.2 ?_, w1, w2, w3⟩
          simp only [List.mem_append, List.mem_cons] at hy ⊢
          rcases hy with hy | hy | hy
          · exact Or.inl hy
          · exact absurd hy this
          · exact Or.inr hy
    · exact hw
  | service now =>
    replace hw : Waiting s k := by rcases hw with hw | hw; exact hw; cases hw
    simp only [loopStep, Option.some.injEq, Prod.mk.injEq] at hs
    obtain ⟨rfl, rfl⟩ := hs
    rcases service_cases P s.r now hh hc with ⟨e, -⟩ | ⟨x, l, q', hq', hd, -, hh', e, hp⟩
    · rw [e]
      have : handedOver s.r.q ([] : List (Out A)) = [] := by cases s.r.q <;> rfl
      simp only [this, List.append_nil]
      exact hw
    · rw [e, hq']
      rcases hw with hw | ⟨y, hy, w1, w2, w3⟩
      · exact Or.inl (List.mem_append_left _ hw)
      · rw [hq'] at hy
        rcases List.mem_cons.1 hy with rfl | hy
        · left
          apply List.mem_append_right
          obtain ⟨ka, kc, km, kt⟩ := k
          simp only at hk w1 w2 w3
          subst hk w1 w2 w3
          simp [handedOver, Item.gram]
        · right
          refine ⟨y, ?_, w1, w2, w3⟩
          rcases hp with ⟨c1, hp⟩ | ⟨c2, hp⟩
          · exact hp.mem_iff.2 (List.mem_cons_of_mem _ hy)
          · exact hp.mem_iff.2 hy

theorem loop_waits_aux {P : PQ A} {same : A → A → Bool} {k : Gram A} (hk : k.con = true) : ∀ (es : List (LoopEv A)) (s s' : LoopSt A)
    (tx : List (Nat × Gram A)) (m n c : Nat), LoopInv P s m n c → (∀ e ∈ es, ¬ Acknowledges same k e) → loopRun P same s es = some (s', tx) →
    Waiting s k ∨ .app k ∈ es → Waiting s' k := by
  intro es
  induction es with
  | nil =>
    intro s s' tx m n c _ _ hs hw
    simp only [loopRun, Option.some.injEq, Prod.mk.injEq] at hs
    obtain ⟨rfl, rfl⟩ := hs
    simpa using hw
  | cons e es ih =>
    intro s s' tx m n c hi hna hs hw
    simp only [loopRun] at hs
    split at hs
    · exact absurd hs (by simp)
    · rename_i s1 o1 h1
      cases hr : loopRun P same s1 es with
      | none => rw [hr] at hs; exact absurd hs (by simp)
      | some r =>
        rw [hr] at hs
        simp only [Option.map_some, Option.some.injEq, Prod.mk.injEq] at hs
        obtain ⟨rfl, rfl⟩ := hs
        refine ih s1 r.1 r.2 _ _ _ (loopStep_inv hi h1) (fun e he => hna e (List.mem_cons_of_mem _ he)) hr ?_
        rcases hw with hw | hw
        · exact Or.inl (loop_waits_step hk hi.heap (fun x hx => (hi.item x hx).1) (hna e List.mem_cons_self) h1 (Or.inl hw))
        · rcases List.mem_cons.1 hw with rfl | hw
          · exact Or.inl (loop_waits_step hk hi.heap (fun x hx => (hi.item x hx).1) (hna _ List.mem_cons_self) h1 (Or.inr rfl))
          · exact Or.inr hw

/-- C72 (what does not hold: the message is never given up).  A confirmable message that no arriving message acknowledges is
waiting to be sent, or may be sent again, after every history. -/
theorem loop_never_given_up (P : PQ A) (same : A → A → Bool) (es : List (LoopEv A)) (s : LoopSt A) (tx : List (Nat × Gram A))
    (h : loopRun P same loopInit es = some (s, tx)) (k : Gram A) (hk : k.con = true) (ha : .app k ∈ es)
    (hna : ∀ e ∈ es, ¬ Acknowledges same k e) : Waiting s k :=
  loop_waits_aux hk es loopInit s tx 0 0 0 (LoopInv.init P) hna h (Or.inr ha)

theorem loopRun_two {P : PQ A} {same : A → A → Bool} (s : LoopSt A) (e1 e2 : LoopEv A) (es : List (LoopEv A)) :
    loopRun P same s (e1 :: e2 :: es) = (loopRun P same s [e1, e2]).bind fun r => (loopRun P same r.1 es).map fun w => (w.1, r.2 ++ w.2) := by
  simp only [loopRun]
  cases loopStep P same s e1 with
  | none => rfl
  | some r1 =>
    cases h2 : loopStep P same r1.1 e2 with
    | none => simp [h2]
    | some r2 =>
      cases h3 : loopRun P same r2.1 es with
      | none => simp [h2, h3]
      | some r3 => simp [h2, h3]

/-- A call of the retry manager when every tracked item is due, followed by the transport sending one datagram, when only `k` is
tracked. -/
theorem loop_round {P : PQ A} {same : A → A → Bool} {k : Gram A} (hk : k.con = true) {s : LoopSt A} {m n c : Nat} (hi : LoopInv P s m n c)
    (ho : s.out = []) (hq : s.r.q ≠ []) (hS : ∀ x ∈ s.r.q, x.gram = k) {a : Nat} (ha : ∀ x ∈ s.r.q, x.due ≤ a) (b rnd : Nat) :
    (s.r.q.length = 10 ∧ loopRun P same s [.service a, .transmit b rnd] = none) ∨
    ∃ s', loopRun P same s [.service a, .transmit b rnd] = some (s', [(b, k)]) ∧ s'.out = [] ∧ s'.r.q ≠ [] ∧
      (∀ x ∈ s'.r.q, x.gram = k) ∧ s'.r.q.length ≤ s.r.q.length + 1 ∧ (a ≤ b → ∀ x ∈ s'.r.q, x.due ≤ b + 16380) := by
  obtain ⟨r, out⟩ := s
  simp only at ho hq hS ha hi ⊢
  subst ho
  rcases service_cases P r a hi.heap (fun x hx => (hi.item x hx).1) with ⟨e, hne⟩ | ⟨x, l, q', hq', hd, -, hh', e, hp⟩
  · obtain ⟨y, hy⟩ := List.exists_mem_of_ne_nil _ hq
    have := ha y hy
    have := hne y hy
    omega
  · have hx := hS x (by rw [hq']; exact List.mem_cons_self)
    have hxi := hi.item x (by rw [hq']; exact List.mem_cons_self)
    have hlen : q'.length ≤ r.q.length := by
      rw [hq']
      rcases hp with ⟨_, hp⟩ | ⟨_, hp⟩ <;> simp [hp.length_eq]
    have hsmall := hi.small
    simp only at hsmall hxi
    have hg : ∀ y ∈ q', y.gram = k := by
      intro y hy
      rcases hp with ⟨_, hp⟩ | ⟨_, hp⟩
      · rcases List.mem_cons.1 (hp.mem_iff.1 hy) with rfl | hy
        · exact hx
        · exact hS y (by rw [hq']; exact List.mem_cons_of_mem _ hy)
      · exact hS y (by rw [hq']; exact List.mem_cons_of_mem _ (hp.mem_iff.1 hy))
    have hdue : ∀ y ∈ q', y.due ≤ a + 16380 := by
      intro y hy
      rcases hp with ⟨hc1, hp⟩ | ⟨_, hp⟩
      · rcases List.mem_cons.1 (hp.mem_iff.1 hy) with rfl | hy
        · simp only
          have h2 : (2 : Nat) ^ (x.counter + 1) ≤ 2 ^ 2 := Nat.pow_le_pow_right (by omega) (by omega)
          have h3 := Nat.mul_le_mul (Nat.le_of_lt_succ hxi.2) h2
          omega
        · have := ha y (by rw [hq']; exact List.mem_cons_of_mem _ hy); omega
      · have := ha y (by rw [hq']; exact List.mem_cons_of_mem _ (hp.mem_iff.1 hy)); omega
    have e1 : loopStep P same ⟨r, []⟩ (.service a) = some (⟨⟨q', r.next⟩, [k]⟩, []) := by
      simp only [loopStep, e]
      rw [hq']
      simp only [handedOver, hx, List.nil_append]
    by_cases hfull : q'.length < 10
    · right
      have hpush := P.push_perm q' ⟨r.next, k.addr, k.mid, k.token, rnd % 4096, 0, b + rnd % 4096⟩ hh'
      refine ⟨⟨⟨P.push q' ⟨r.next, k.addr, k.mid, k.token, rnd % 4096, 0, b + rnd % 4096⟩, r.next + 1⟩, []⟩, ?_, rfl, ?_, ?_, ?_, ?_⟩
      · simp only [loopRun]
        rw [e1]
        simp [loopStep, notifySent, hk, enqueue, hfull, Item.delta]
      · intro hnil
        simp only at hnil
        rw [hnil] at hpush
        exact absurd hpush.length_eq (by simp)
      · intro y hy
        rcases List.mem_cons.1 (hpush.mem_iff.1 hy) with rfl | hy
        · obtain ⟨ka, kc, km, kt⟩ := k
          simp only at hk
          subst hk
          rfl
        · exact hg y hy
      · simp only [hpush.length_eq, List.length_cons]; omega
      · intro hab y hy
        rcases List.mem_cons.1 (hpush.mem_iff.1 hy) with rfl | hy
        · simp only
          have := Nat.mod_lt rnd (show 0 < 4096 by omega)
          omega
        · have := hdue y hy; omega
    · left
      refine ⟨by omega, ?_⟩
      simp only [loopRun]
      rw [e1]
      simp [loopStep, notifySent, hk, enqueue, hfull]

/-- Where only `k` was handed over, only `k` is tracked or waiting. -/
theorem loop_only {P : PQ A} {same : A → A → Bool} {es : List (LoopEv A)} {s : LoopSt A} {tx : List (Nat × Gram A)}
    (h : loopRun P same loopInit es = some (s, tx)) {k : Gram A} (hok : OnlyAsks k es) : (∀ x ∈ s.r.q, x.gram = k) ∧ ∀ g ∈ s.out, g = k :=
  let r := loop_origin_aux (S := fun g => g = k) es loopInit s tx P.heap_nil (by simp [loopInit, Retry.init]) (by simp [loopInit, Retry.init])
    (by simp [loopInit]) hok h
  ⟨r.1, r.2.1⟩

theorem exists_last_due (q : List (Item A)) : ∃ d, ∀ x ∈ q, x.due ≤ d := by
  induction q with
  | nil => exact ⟨0, by simp⟩
  | cons x q ih =>
    obtain ⟨d, h⟩ := ih
    refine ⟨d + x.due, fun y hy => ?_⟩
    rcases List.mem_cons.1 hy with rfl | hy
    · omega
    · have := h y hy; omega

/-- C72 (what does not hold: retransmission ends).  When the application hands over nothing but `k`, no arriving message
acknowledges it and everything handed to the transport has left, then from some time on the next call of the retry manager has
`k` sent once more, unless there is no room left to track it. -/
theorem loop_sent_again (P : PQ A) (same : A → A → Bool) (es : List (LoopEv A)) (s : LoopSt A) (tx : List (Nat × Gram A))
    (h : loopRun P same loopInit es = some (s, tx)) (k : Gram A) (hk : k.con = true) (ha : .app k ∈ es) (hok : OnlyAsks k es)
    (hna : ∀ e ∈ es, ¬ Acknowledges same k e) (ho : s.out = []) :
    ∃ d, ∀ a, d ≤ a → ∀ b rnd, (s.r.q.length = 10 ∧ loopRun P same s [.service a, .transmit b rnd] = none) ∨
      ∃ s', loopRun P same s [.service a, .transmit b rnd] = some (s', [(b, k)]) := by
  obtain ⟨d, hd⟩ := exists_last_due s.r.q
  have hq : s.r.q ≠ [] := by
    rcases loop_never_given_up P same es s tx h k hk ha hna with hw | ⟨x, hx, -⟩
    · rw [ho] at hw; exact absurd hw (by simp)
    · exact List.ne_nil_of_mem hx
  refine ⟨d, fun a hda b rnd => ?_⟩
  rcases loop_round hk (loopRun_inv (LoopInv.init P) h) ho hq (loop_only h hok).1 (fun x hx => Nat.le_trans (hd x hx) hda) b rnd with h' | ⟨s', h', -⟩
  · exact Or.inl h'
  · exact Or.inr ⟨s', h'⟩

/-- C72 (what does not hold: one acknowledgement ends it).  When the application hands over nothing but `k` and `k` has left `c`
times, then after fewer than `(1 + 2 · c) / 3` arriving messages — acknowledgements of `k` included — the retry manager has it sent
again.  For a message that left twice one acknowledgement is not enough. -/
theorem loop_sent_after_acknowledgement (P : PQ A) (same : A → A → Bool) (es : List (LoopEv A)) (s : LoopSt A) (tx : List (Nat × Gram A))
    (h : loopRun P same loopInit es = some (s, tx)) (k : Gram A) (hk : k.con = true) (ha : .app k ∈ es) (hok : OnlyAsks k es)
    (hn : 3 * arrivals es < 1 + 2 * conSends tx) (ho : s.out = []) :
    ∃ d, ∀ a, d ≤ a → ∀ b rnd, (s.r.q.length = 10 ∧ loopRun P same s [.service a, .transmit b rnd] = none) ∨
      ∃ s', loopRun P same s [.service a, .transmit b rnd] = some (s', [(b, k)]) := by
  obtain ⟨d, hd⟩ := exists_last_due s.r.q
  have h1 : 1 ≤ askedCon es := by
    clear h hok hn
    induction es with
    | nil => exact absurd ha (by simp)
    | cons e es ih =>
      rcases List.mem_cons.1 ha with rfl | ha
      · simp only [askedCon, hk, if_true]; omega
      · have := ih ha
        cases e <;> simp only [askedCon] <;> omega
  have hq : s.r.q ≠ [] := by
    rcases loop_unsettled P same es s tx h (by omega) with hq | hq
    · exact hq
    · exact absurd ho hq
  refine ⟨d, fun a hda b rnd => ?_⟩
  rcases loop_round hk (loopRun_inv (LoopInv.init P) h) ho hq (loop_only h hok).1 (fun x hx => Nat.le_trans (hd x hx) hda) b rnd with h' | ⟨s', h', -⟩
  · exact Or.inl h'
  · exact Or.inr ⟨s', h'⟩

theorem conSends_singleton {k : Gram A} (hk : k.con = true) (b : Nat) : conSends [(b, k)] = 1 := by simp [conSends, hk]

theorem rounds_zero {T : Nat} {es : List (LoopEv A)} (h : Rounds T es 0) : es = [] := by
  unfold Rounds at h
  split at h
  · rfl
  · omega
  · exact h.elim

theorem rounds_succ {T n : Nat} {es : List (LoopEv A)} (h : Rounds T es (n + 1)) :
    ∃ a b rnd es', es = .service a :: .transmit b rnd :: es' ∧ T + 16380 ≤ a ∧ a ≤ b ∧ Rounds b es' n := by
  unfold Rounds at h
  split at h
  · omega
  · rename_i T t a b rnd es' m hm
    obtain rfl : n = m := by omega
    exact ⟨a, b, rnd, es', rfl, h.1, h.2.1, h.2.2⟩
  · exact h.elim

theorem loop_rounds_aux {P : PQ A} {same : A → A → Bool} {k : Gram A} (hk : k.con = true) : ∀ (n : Nat) (es : List (LoopEv A)) (T : Nat)
    (s : LoopSt A) (m i c : Nat), LoopInv P s m i c → s.out = [] → s.r.q ≠ [] → (∀ x ∈ s.r.q, x.gram = k) →
    (∀ x ∈ s.r.q, x.due ≤ T + 16380) → Rounds T es n →
    (10 < s.r.q.length + n ∧ loopRun P same s es = none) ∨ ∃ s' tx, loopRun P same s es = some (s', tx) ∧ s'.out = [] ∧ conSends tx = n := by
  intro n
  induction n with
  | zero =>
    intro es T s m i c hi ho hq hS hd hr
    rw [rounds_zero hr]
    exact Or.inr ⟨s, [], rfl, ho, rfl⟩
  | succ n ih =>
    intro es T s m i c hi ho hq hS hd hr
    obtain ⟨a, b, rnd, es, rfl, h1, h2, h3⟩ := rounds_succ hr
    · rw [loopRun_two]
      rcases loop_round (same := same) hk hi ho hq hS (fun x hx => Nat.le_trans (hd x hx) h1) b rnd with ⟨h4, h5⟩ | ⟨s', h4, h5, h6, h7, h8, h9⟩
      · left
        rw [h5]
        exact ⟨by omega, rfl⟩
      · rw [h4]
        simp only [Option.bind_some]
        rcases ih es b s' _ _ _ (loopRun_inv hi h4) h5 h6 h7 (h9 h2) h3 with ⟨g1, g2⟩ | ⟨s'', tx, g1, g2, g3⟩
        · left
          rw [g2]
          exact ⟨by omega, rfl⟩
        · right
          rw [g1]
          refine ⟨s'', (b, k) :: tx, rfl, g2, ?_⟩
          simp only [conSends, hk, if_true, g3]

theorem loop_start {P : PQ A} {same : A → A → Bool} {k : Gram A} (hk : k.con = true) (T rnd : Nat) :
    ∃ s, loopRun P same loopInit [.app k, .transmit T rnd] = some (s, [(T, k)]) ∧ s.out = [] ∧ s.r.q.length = 1 ∧
      (∀ x ∈ s.r.q, x.gram = k) ∧ ∀ x ∈ s.r.q, x.due ≤ T + 16380 := by
  have hp := P.push_perm [] ⟨0, k.addr, k.mid, k.token, rnd % 4096, 0, T + rnd % 4096⟩ P.heap_nil
  have hp := List.perm_singleton.1 hp
  refine ⟨⟨⟨P.push [] ⟨0, k.addr, k.mid, k.token, rnd % 4096, 0, T + rnd % 4096⟩, 1⟩, []⟩, ?_, rfl, ?_, ?_, ?_⟩
  · simp [loopRun, loopStep, loopInit, Retry.init, notifySent, hk, enqueue, Item.delta]
  · rw [hp]; rfl
  · rw [hp]
    intro x hx
    rw [List.mem_singleton.1 hx]
    obtain ⟨ka, kc, km, kt⟩ := k
    simp only at hk
    subst hk
    rfl
  · rw [hp]
    intro x hx
    rw [List.mem_singleton.1 hx]
    simp only
    have := Nat.mod_lt rnd (show 0 < 4096 by omega)
    omega

/-- C72 (what does not hold: at most `COAP_MAX_RETRANSMIT` retransmissions).  One confirmable message that is not acknowledged leaves
once more for each of up to nine calls of the retry manager, however long apart they are. -/
theorem loop_sends_every_round (P : PQ A) (same : A → A → Bool) (k : Gram A) (hk : k.con = true) (T rnd n : Nat) (es : List (LoopEv A))
    (hr : Rounds T es n) (hn : n ≤ 9) :
    ∃ s tx, loopRun P same loopInit (.app k :: .transmit T rnd :: es) = some (s, tx) ∧ conSends tx = n + 1 := by
  obtain ⟨s, h1, h2, h3, h4, h5⟩ := loop_start (P := P) (same := same) hk T rnd
  rw [loopRun_two, h1]
  simp only [Option.bind_some]
  rcases loop_rounds_aux (same := same) hk n es T s _ _ _ (loopRun_inv (LoopInv.init P) h1) h2 (fun h => by rw [h] at h3; exact absurd h3 (by simp)) h4 h5 hr with
    ⟨g1, g2⟩ | ⟨s', tx, g1, g2, g3⟩
  · omega
  · rw [g1]
    exact ⟨s', (T, k) :: tx, rfl, by simp only [conSends, hk, if_true, g3]⟩

/-- C72 (what does not hold: there is room).  After fourteen calls of the retry manager, however long apart they are, one confirmable
message that is not acknowledged has been pushed into a full container. -/
theorem loop_overflows (P : PQ A) (same : A → A → Bool) (k : Gram A) (hk : k.con = true) (T rnd n : Nat) (es : List (LoopEv A))
    (hr : Rounds T es n) (hn : 14 ≤ n) : loopRun P same loopInit (.app k :: .transmit T rnd :: es) = none := by
  cases h : loopRun P same loopInit (.app k :: .transmit T rnd :: es) with
  | none => rfl
  | some r =>
    exfalso
    obtain ⟨r1, r2⟩ := r
    obtain ⟨s, h1, h2, h3, h4, h5⟩ := loop_start (P := P) (same := same) hk T rnd
    have hasked : ∀ (n T : Nat) (es : List (LoopEv A)), Rounds T es n → askedCon es = 0 ∧ arrivals es = 0 := by
      intro n
      induction n with
      | zero => intro T es hr; rw [rounds_zero hr]; exact ⟨rfl, rfl⟩
      | succ n ih =>
        intro T es hr
        obtain ⟨a, b, rnd, es, rfl, -, -, hr⟩ := rounds_succ hr
        simpa [askedCon, arrivals] using ih b es hr
    have hb := loop_sends_bounded P same _ r1 r2 h
    rw [loopRun_two, h1] at h
    simp only [Option.bind_some] at h
    rcases loop_rounds_aux (same := same) hk n es T s _ _ _ (loopRun_inv (LoopInv.init P) h1) h2 (fun h => by rw [h] at h3; exact absurd h3 (by simp)) h4 h5 hr with
      ⟨g1, g2⟩ | ⟨s', tx, g1, g2, g3⟩
    · rw [g2] at h; exact absurd h (by simp)
    · rw [g1] at h
      simp only [Option.map_some, Option.some.injEq, Prod.mk.injEq] at h
      obtain ⟨rfl, rfl⟩ := h
      have := hb g2
      simp only [List.singleton_append, askedCon, arrivals, conSends, hk, if_true, g3, (hasked n T es hr).1, (hasked n T es hr).2] at this
      omega

/-- C72 (`service_ack` with a datapump).  While the acknowledgement stays at the front of the queue of arrived messages, each call
retires one of the tracked copies and says so; as many calls as there are copies leave nothing to be sent again. -/
theorem ack_pump_retires (P : PQ A) (same : A → A → Bool) (addr : A) (h : Header) (token : List UInt8) (rest : List (A × Header × List UInt8))
    (hty : h.type = Header.acknowledgement) (s : St A)
    (hall : ∀ x ∈ s.q, same addr x.addr = true ∧ x.token = token ∧ x.mid = h.messageId) :
    (serviceAckPump P same s ((addr, h, token) :: rest)).2 = !s.q.isEmpty ∧
    ∀ n, (Nat.repeat (fun s => (serviceAckPump P same s ((addr, h, token) :: rest)).1) n s).q.length = s.q.length - n := by
  have one : ∀ s : St A, (∀ x ∈ s.q, same addr x.addr = true ∧ x.token = token ∧ x.mid = h.messageId) →
      (serviceAckPump P same s ((addr, h, token) :: rest)).2 = !s.q.isEmpty ∧
      (serviceAckPump P same s ((addr, h, token) :: rest)).1.q.length = s.q.length - 1 ∧
      ∀ x ∈ (serviceAckPump P same s ((addr, h, token) :: rest)).1.q, same addr x.addr = true ∧ x.token = token ∧ x.mid = h.messageId := by
    intro s hall
    simp only [serviceAckPump, serviceAck, hty, beq_self_eq_true, if_true]
    rcases ack_cases P same s addr h.messageId token with ⟨e, hno⟩ | ⟨x, l1, l2, q', hq, -, -, hp, -, e⟩
    · rw [e]
      have : s.q = [] := by
        cases hq : s.q with
        | nil => rfl
        | cons y l =>
          have hy : y ∈ s.q := by rw [hq]; exact List.mem_cons_self
          obtain ⟨g1, g2, g3⟩ := hall y hy
          have := hno y hy
          simp [hits, g1, g2, g3] at this
      rw [this]
      exact ⟨rfl, rfl, by simp⟩
    · rw [e]
      refine ⟨by rw [hq]; simp, by simp only [hq, hp.length_eq, List.length_append, List.length_cons]; omega, fun y hy => hall y ?_⟩
      rw [hq]
      have := hp.mem_iff.1 hy
      simp only [List.mem_append, List.mem_cons] at this ⊢
      rcases this with h | h
      · exact Or.inl h
      · exact Or.inr (Or.inr h)
  refine ⟨(one s hall).1, fun n => ?_⟩
  have : ∀ n, (Nat.repeat (fun s => (serviceAckPump P same s ((addr, h, token) :: rest)).1) n s).q.length = s.q.length - n ∧
      ∀ x ∈ (Nat.repeat (fun s => (serviceAckPump P same s ((addr, h, token) :: rest)).1) n s).q,
        same addr x.addr = true ∧ x.token = token ∧ x.mid = h.messageId := by
    intro n
    induction n with
    | zero => exact ⟨by simp [Nat.repeat], hall⟩
    | succ n ih =>
      obtain ⟨-, g2, g3⟩ := one _ ih.2
      exact ⟨by simp only [Nat.repeat]; rw [g2, ih.1]; omega, g3⟩
  exact (this n).1

/-- C72 (`service_ack` with a datapump).  Nothing happens when no message has arrived; otherwise the first message is treated as by
`service_ack`, whatever comes after it. -/
theorem ack_pump_front (P : PQ A) (same : A → A → Bool) (s : St A) :
    serviceAckPump P same s [] = (s, false) ∧
    ∀ addr h token rest, serviceAckPump P same s ((addr, h, token) :: rest) =
      ((serviceAck P same s addr h token).1, (serviceAck P same s addr h token).2.2) := ⟨rfl, fun _ _ _ _ => rfl⟩

/-- The datapump's event is that of C28 to C30. -/
theorem notifySent_onSent (P : PQ A) (s : St A) (now rnd : Nat) (addr : A) (h : Header) (token : List UInt8) :
    notifySent P s now rnd ⟨addr, h.type == Header.confirmable, h.messageId, token⟩ = (onSent P s now rnd addr h token).map (·.1) := by
  simp only [notifySent, onSent]
  split <;> rfl

/-! ## An example -/

/-- A confirmable message. -/
def loopGram : Gram Nat := ⟨5, true, 7, [1]⟩

/-- One message, two calls of the retry manager, an acknowledgement, two more calls. -/
def loopHistory : List (LoopEv Nat) :=
  [.app loopGram, .transmit 0 2000, .service 17000, .transmit 17001 2500, .recv 5 ackHdr [1], .service 34000, .transmit 34001 3000]

example : (loopRun sortedPQ (fun a b => a == b) loopInit loopHistory).map (·.2) = some [(0, loopGram), (17001, loopGram), (34001, loopGram)] := by
  decide +kernel

example : Rounds 0 (loopHistory.drop 2 |>.take 2) 1 := by simp [loopHistory, Rounds]
example : OnlyAsks loopGram loopHistory ∧ 3 * arrivals (loopHistory.take 5) < 1 + 2 * conSends [(0, loopGram), (17001, loopGram)] := by
  refine ⟨?_, by decide⟩
  intro g hg
  simpa [loopHistory] using hg
example : ∃ e ∈ loopHistory, Acknowledges (fun a b => a == b) loopGram e := ⟨.recv 5 ackHdr [1], by simp [loopHistory], by simp [Acknowledges, loopGram, ackHdr]; decide⟩

end Verif.Props
