import Verif.Props.Retry
import Verif.Spec.RetryClock

/-!
# C73: retransmission with a clock that wraps
-/
namespace Verif.Props
open Verif.Model Verif.Model.Retry Verif.Spec Verif.Spec.Retry Verif.Proofs.Retry

variable {A : Type}

theorem delay_small {T c : Nat} (hT : T < 4096) (hc : c ≤ 2) : T * 2 ^ c ≤ 16380 := by
  have h2 : (2 : Nat) ^ c ≤ 2 ^ 2 := Nat.pow_le_pow_right (by omega) hc
  have h3 := Nat.mul_le_mul (Nat.le_of_lt_succ hT) h2
  omega

theorem stepOn_eq {M : Nat} {P : PQ A} {same : A → A → Bool} {s : St A} {e : Ev A} (hc : ∀ x ∈ s.q, x.counter ≤ 2 ∧ x.timeout < 4096)
    (he : BeforeWrap M e) : stepOn M P same s e = Retry.step P same s e := by
  cases e with
  | sent now rnd addr h token =>
    simp only [BeforeWrap] at he
    simp only [stepOn, Retry.step, onSentOn, onSent, enqueueOn, enqueue, clockAdd, clock, Item.delta]
    have := Nat.mod_lt rnd (show 0 < 4096 by omega)
    rw [Nat.mod_eq_of_lt (show now < M by omega), Nat.mod_eq_of_lt (show now + rnd % 4096 * 2 ^ 0 < M by omega)]
  | recv addr h token => rfl
  | service now =>
    simp only [BeforeWrap] at he
    have hcl : clock M now = now := Nat.mod_eq_of_lt (show now < M by omega)
    simp only [stepOn, Retry.step, serviceRetryOn, serviceRetry, clockAdd, hcl]
    cases hq : s.q with
    | nil => rfl
    | cons f l =>
      have := hc f (by rw [hq]; exact List.mem_cons_self)
      simp only
      by_cases h2 : f.counter < 4 - 2
      · have hd := delay_small (c := (f.counter + 1) % 8) this.2 (by omega)
        have hm : (now + f.timeout * 2 ^ ((f.counter + 1) % 8)) % M = now + f.timeout * 2 ^ ((f.counter + 1) % 8) := Nat.mod_eq_of_lt (by omega)
        simp only [h2, if_true, Item.delta, hm]
      · simp only [h2, if_false]

theorem step_small {P : PQ A} {same : A → A → Bool} {s s' : St A} {e : Ev A} {o} (hh : P.heap s.q)
    (hc : ∀ x ∈ s.q, x.counter ≤ 2 ∧ x.timeout < 4096) (hs : Retry.step P same s e = some (s', o)) :
    P.heap s'.q ∧ ∀ x ∈ s'.q, x.counter ≤ 2 ∧ x.timeout < 4096 := by
  cases e with
  | sent now rnd addr h token =>
    simp only [Retry.step, onSent, enqueue] at hs
    split at hs
    · split at hs
      · simp only [Option.some.injEq, Prod.mk.injEq] at hs
        obtain ⟨rfl, rfl⟩ := hs
        refine ⟨P.push_heap _ _ hh, fun y hy => ?_⟩
        rcases List.mem_cons.1 ((P.push_perm _ _ hh).mem_iff.1 hy) with rfl | hy
        · simp only; exact ⟨by omega, Nat.mod_lt rnd (by omega)⟩
        · exact hc y hy
      · exact absurd hs (by simp)
    · simp only [Option.some.injEq, Prod.mk.injEq] at hs
      obtain ⟨rfl, rfl⟩ := hs
      exact ⟨hh, hc⟩
  | recv addr h token =>
    simp only [Retry.step, serviceAck, Option.some.injEq, Prod.mk.injEq] at hs
    split at hs
    · rcases ack_cases P same s addr h.messageId token with ⟨e, -⟩ | ⟨x, l1, l2, q', hq, -, -, hp, hh', e⟩
      · rw [e] at hs; obtain ⟨rfl, rfl⟩ := hs; exact ⟨hh, hc⟩
      · rw [e] at hs; obtain ⟨rfl, rfl⟩ := hs
        refine ⟨hh', fun y hy => hc y ?_⟩
        rw [hq]
        have := hp.mem_iff.1 hy
        simp only [List.mem_append, List.mem_cons] at this ⊢
        rcases this with h | h
        · exact Or.inl h
        · exact Or.inr (Or.inr h)
    · obtain ⟨rfl, rfl⟩ := hs; exact ⟨hh, hc⟩
  | service now =>
    simp only [Retry.step, Option.some.injEq] at hs
    rcases service_cases P s now hh (fun x hx => (hc x hx).1) with ⟨e, -⟩ | ⟨x, l, q', hq, hd, -, hh', e, hp⟩
    · rw [e] at hs; cases hs; exact ⟨hh, hc⟩
    · rw [e] at hs; cases hs
      have hx := hc x (by rw [hq]; exact List.mem_cons_self)
      refine ⟨hh', fun y hy => ?_⟩
      rcases hp with ⟨c1, hp⟩ | ⟨c2, hp⟩
      · rcases List.mem_cons.1 (hp.mem_iff.1 hy) with rfl | hy
        · exact ⟨by simp only; omega, hx.2⟩
        · exact hc y (by rw [hq]; exact List.mem_cons_of_mem _ hy)
      · exact hc y (by rw [hq]; exact List.mem_cons_of_mem _ (hp.mem_iff.1 hy))

/-- C73 (what holds).  Before the clock wraps for the first time everything happens as with a clock that never wraps, so that C28 to
C31 hold. -/
theorem clock_before_wrap_partial (M : Nat) (P : PQ A) (same : A → A → Bool) (es : List (Ev A)) (h : ∀ e ∈ es, BeforeWrap M e) :
    runOn M P same Retry.init es = Retry.run P same Retry.init es := by
  have : ∀ (es : List (Ev A)) (s : St A), P.heap s.q → (∀ x ∈ s.q, x.counter ≤ 2 ∧ x.timeout < 4096) → (∀ e ∈ es, BeforeWrap M e) →
      runOn M P same s es = Retry.run P same s es := by
    intro es
    induction es with
    | nil => intros; rfl
    | cons e es ih =>
      intro s hh hc h
      simp only [runOn, Retry.run]
      rw [stepOn_eq hc (h e List.mem_cons_self)]
      cases hs : Retry.step P same s e with
      | none => rfl
      | some r =>
        obtain ⟨g1, g2⟩ := step_small hh hc hs
        simp only [ih r.1 g1 g2 (fun e he => h e (List.mem_cons_of_mem _ he))]
  exact this es Retry.init P.heap_nil (by simp [Retry.init]) h

theorem pop_one (P : PQ A) (x : Item A) : P.push [] x = [x] ∧ P.pop [x] = [] := by
  have h1 := List.perm_singleton.1 (P.push_perm [] x P.heap_nil)
  have h2 := P.push_heap [] x P.heap_nil
  rw [h1] at h2
  exact ⟨h1, List.perm_nil.1 (P.pop_perm x [] h2)⟩

/-- A sum that passes the end of the clock is less than what the clock shows. -/
theorem clockAdd_wrapped {M t d : Nat} (ht : t < M) (hd : d ≤ M) (hw : M ≤ t + d) : clockAdd M t d ≤ t := by
  unfold clockAdd
  rw [Nat.mod_eq_sub_mod hw, Nat.mod_eq_of_lt (by omega)]
  omega

theorem clock_same_lap {M now t : Nat} (h1 : now ≤ t) (h2 : t / M = now / M) : clock M t = clock M now + (t - now) := by
  unfold clock
  have a := Nat.div_add_mod t M
  have b := Nat.div_add_mod now M
  rw [h2] at a
  omega

theorem service_one {M : Nat} (P : PQ A) (x : Item A) (n t : Nat) (hd : x.due ≤ clock M t) :
    (x.counter < 2 → serviceRetryOn M P ⟨[x], n⟩ t =
      (⟨[{ x with counter := x.counter + 1, due := clockAdd M (clock M t) (x.timeout * 2 ^ (x.counter + 1)) }], n⟩, [.sent t x.id x.addr])) ∧
    (x.counter = 2 → serviceRetryOn M P ⟨[x], n⟩ t = (⟨[], n⟩, [.sent t x.id x.addr])) := by
  constructor
  · intro hc
    have e : (x.counter + 1) % 8 = x.counter + 1 := by omega
    simp only [serviceRetryOn, ge_iff_le, hd, if_true, Nat.reduceSub, hc, e, (pop_one P _).1, (pop_one P _).2, Item.delta]
  · intro hc
    have e : ¬ x.counter < 2 := by omega
    simp only [serviceRetryOn, ge_iff_le, hd, if_true, Nat.reduceSub, e, if_false, hc, Nat.lt_irrefl, (pop_one P _).2]

/-- C73 (what does not hold: never too early).  Let a confirmable message be sent so late in a lap of the clock that its initial
timeout `T` ends in the next lap.  Then the next three calls of the retry manager in this lap — all of them before the initial
timeout has passed once — send all the retransmissions there are, and the message is given up. -/
theorem clock_wrap_burst (M : Nat) (P : PQ A) (same : A → A → Bool) (now rnd : Nat) (addr : A) (h : Header) (token : List UInt8)
    (hcon : h.type = Header.confirmable) (hM : 16380 < M) (hw : M ≤ now % M + rnd % 4096)
    (t1 t2 t3 : Nat) (h1 : now ≤ t1) (h2 : t1 ≤ t2) (h3 : t2 ≤ t3) (hlap : t3 / M = now / M) :
    runOn M P same Retry.init [.sent now rnd addr h token, .service t1, .service t2, .service t3] =
      some (⟨[], 1⟩, [.queued now 0 (rnd % 4096) addr, .sent t1 0 addr, .sent t2 0 addr, .sent t3 0 addr]) ∧
    t3 < now + rnd % 4096 := by
  have hM0 : 0 < M := by omega
  have d2 : t2 / M = now / M := Nat.le_antisymm (hlap ▸ Nat.div_le_div_right h3) (Nat.div_le_div_right (by omega))
  have d1 : t1 / M = now / M := Nat.le_antisymm (d2 ▸ Nat.div_le_div_right h2) (Nat.div_le_div_right (by omega))
  have c1 := clock_same_lap h1 d1
  have c2 := clock_same_lap (show now ≤ t2 by omega) d2
  have c3 := clock_same_lap (show now ≤ t3 by omega) hlap
  have l0 : clock M now < M := Nat.mod_lt _ hM0
  have l1 : clock M t1 < M := Nat.mod_lt _ hM0
  have l2 : clock M t2 < M := Nat.mod_lt _ hM0
  have l3 : clock M t3 < M := Nat.mod_lt _ hM0
  have hT := Nat.mod_lt rnd (show 0 < 4096 by omega)
  have hw : M ≤ clock M now + rnd % 4096 := hw
  generalize hTr : rnd % 4096 = T at *
  generalize hn0 : clock M now = n0 at *
  generalize hn1 : clock M t1 = n1 at *
  generalize hn2 : clock M t2 = n2 at *
  generalize hn3 : clock M t3 = n3 at *
  have e0 := clockAdd_wrapped l0 (show T * 2 ^ 0 ≤ M by omega) (by omega)
  have e1 := clockAdd_wrapped l1 (show T * 2 ^ 1 ≤ M by omega) (by omega)
  have e2 := clockAdd_wrapped l2 (show T * 2 ^ 2 ≤ M by omega) (by omega)
  have hrun : ∀ (s : St A) (t : Nat) (r : St A × List (Out A)) (es : List (Ev A)), serviceRetryOn M P s t = r →
      runOn M P same s (.service t :: es) = (runOn M P same r.1 es).map fun w => (w.1, r.2 ++ w.2) := by
    intro s t r es hr
    simp only [runOn, stepOn, hr]
  refine ⟨?_, by omega⟩
  have s0 : stepOn M P same Retry.init (.sent now rnd addr h token) =
      some (⟨[⟨0, addr, h.messageId, token, T, 0, clockAdd M n0 (T * 2 ^ 0)⟩], 1⟩, [.queued now 0 T addr]) := by
    simp [stepOn, onSentOn, hcon, enqueueOn, Retry.init, hn0, hTr, Item.delta, (pop_one P _).1]
  have s1 := (service_one P (⟨0, addr, h.messageId, token, T, 0, clockAdd M n0 (T * 2 ^ 0)⟩ : Item A) 1 t1 (M := M) (by simp only; omega)).1 (by simp)
  simp only [Nat.zero_add, hn1] at s1
  have s2 := (service_one P (⟨0, addr, h.messageId, token, T, 1, clockAdd M n1 (T * 2 ^ 1)⟩ : Item A) 1 t2 (M := M) (by simp only; omega)).1 (by simp)
  simp only [Nat.reduceAdd, hn2] at s2
  have s3 := (service_one P (⟨0, addr, h.messageId, token, T, 2, clockAdd M n2 (T * 2 ^ 2)⟩ : Item A) 1 t3 (M := M) (by simp only; omega)).2 rfl
  rw [show runOn M P same Retry.init [.sent now rnd addr h token, .service t1, .service t2, .service t3] =
    (runOn M P same ⟨[⟨0, addr, h.messageId, token, T, 0, clockAdd M n0 (T * 2 ^ 0)⟩], 1⟩ [.service t1, .service t2, .service t3]).map
      (fun w => (w.1, [.queued now 0 T addr] ++ w.2)) by rw [runOn, s0], hrun _ _ _ _ s1, hrun _ _ _ _ s2, hrun _ _ _ _ s3]
  rfl

/-- C73 (what does not hold: not too late).  A message sent at `now` whose initial timeout `T` ends when the clock shows `d` is not
retransmitted by any number of calls of the retry manager that happen while the clock shows less than `d`, however long ago the
timeout ended: for instance not by calls whenever the clock starts again. -/
theorem clock_wrap_late (M : Nat) (P : PQ A) (same : A → A → Bool) (now rnd : Nat) (addr : A) (h : Header) (token : List UInt8)
    (hcon : h.type = Header.confirmable) (es : List (Ev A)) (hes : ∀ e ∈ es, ShowsLess M ((now + rnd % 4096) % M) e) :
    ∃ s, runOn M P same Retry.init (.sent now rnd addr h token :: es) = some (s, [.queued now 0 (rnd % 4096) addr]) ∧
      ∃ x, s.q = [x] ∧ x.counter = 0 := by
  have s0 : stepOn M P same Retry.init (.sent now rnd addr h token) =
      some (⟨[⟨0, addr, h.messageId, token, rnd % 4096, 0, (now + rnd % 4096) % M⟩], 1⟩, [.queued now 0 (rnd % 4096) addr]) := by
    simp [stepOn, onSentOn, hcon, enqueueOn, Retry.init, Item.delta, (pop_one P _).1, clockAdd, clock]
  have hrun : ∀ es : List (Ev A), (∀ e ∈ es, ShowsLess M ((now + rnd % 4096) % M) e) →
      runOn M P same ⟨[⟨0, addr, h.messageId, token, rnd % 4096, 0, (now + rnd % 4096) % M⟩], 1⟩ es =
        some (⟨[⟨0, addr, h.messageId, token, rnd % 4096, 0, (now + rnd % 4096) % M⟩], 1⟩, []) := by
    intro es
    induction es with
    | nil => intro _; rfl
    | cons e es ih =>
      intro hes
      have he := hes e List.mem_cons_self
      cases e with
      | service t =>
        simp only [ShowsLess] at he
        have : serviceRetryOn M P ⟨[⟨0, addr, h.messageId, token, rnd % 4096, 0, (now + rnd % 4096) % M⟩], 1⟩ t =
            (⟨[⟨0, addr, h.messageId, token, rnd % 4096, 0, (now + rnd % 4096) % M⟩], 1⟩, []) := by
          simp only [serviceRetryOn, clock]
          rw [if_neg (by omega)]
        simp only [runOn, stepOn, this, ih (fun e he => hes e (List.mem_cons_of_mem _ he))]
        rfl
      | sent => exact he.elim
      | recv => exact he.elim
  rw [runOn, s0]
  simp only [hrun es hes]
  exact ⟨_, rfl, _, rfl, rfl⟩

/-- C73, exactly when the first retransmission is sent: a message sent at `now` with initial timeout `T` is retransmitted by calls of the
retry manager at the times `ts`, in whatever laps of the clock, if and only if one of these calls happens while the clock shows at least
what it shows at `now + T`. -/
theorem clock_first_iff (M : Nat) (P : PQ A) (same : A → A → Bool) (now rnd : Nat) (addr : A) (h : Header) (token : List UInt8)
    (hcon : h.type = Header.confirmable) (ts : List Nat) :
    ∃ s tr, runOn M P same Retry.init (.sent now rnd addr h token :: ts.map .service) = some (s, tr) ∧
      ((∃ t, Out.sent t 0 addr ∈ tr) ↔ ∃ t ∈ ts, (now + rnd % 4096) % M ≤ t % M) := by
  have s0 : stepOn M P same Retry.init (.sent now rnd addr h token) =
      some (⟨[⟨0, addr, h.messageId, token, rnd % 4096, 0, (now + rnd % 4096) % M⟩], 1⟩, [.queued now 0 (rnd % 4096) addr]) := by
    simp [stepOn, onSentOn, hcon, enqueueOn, Retry.init, Item.delta, (pop_one P _).1, clockAdd, clock]
  have total : ∀ (ts : List Nat) (s : St A), ∃ r, runOn M P same s (ts.map .service) = some r := by
    intro ts
    induction ts with
    | nil => exact fun s => ⟨_, rfl⟩
    | cons t ts ih =>
      intro s
      obtain ⟨r, hr⟩ := ih (serviceRetryOn M P s t).1
      exact ⟨_, by simp only [List.map_cons, runOn, stepOn, hr]; rfl⟩
  have hrun : ∀ (ts : List Nat) (s : St A) (tr : List (Out A)),
      runOn M P same ⟨[⟨0, addr, h.messageId, token, rnd % 4096, 0, (now + rnd % 4096) % M⟩], 1⟩ (ts.map .service) = some (s, tr) →
      ((∃ t, Out.sent t 0 addr ∈ tr) ↔ ∃ t ∈ ts, (now + rnd % 4096) % M ≤ t % M) := by
    intro ts
    induction ts with
    | nil =>
      intro s tr e
      simp only [List.map_nil, runOn, Option.some.injEq, Prod.mk.injEq] at e
      simp [← e.2]
    | cons t ts ih =>
      intro s tr e
      by_cases ht : (now + rnd % 4096) % M ≤ t % M
      · obtain ⟨r, hr⟩ := total ts (serviceRetryOn M P ⟨[⟨0, addr, h.messageId, token, rnd % 4096, 0, (now + rnd % 4096) % M⟩], 1⟩ t).1
        have h1 := (service_one P (⟨0, addr, h.messageId, token, rnd % 4096, 0, (now + rnd % 4096) % M⟩ : Item A) 1 t (M := M) ht).1 (by simp)
        rw [h1] at hr
        simp only [List.map_cons, runOn, stepOn, h1, hr, Option.map_some, Option.some.injEq, Prod.mk.injEq] at e
        rw [← e.2]
        exact ⟨fun _ => ⟨t, List.mem_cons_self, ht⟩, fun _ => ⟨t, by simp⟩⟩
      · have h1 : serviceRetryOn M P ⟨[⟨0, addr, h.messageId, token, rnd % 4096, 0, (now + rnd % 4096) % M⟩], 1⟩ t =
            (⟨[⟨0, addr, h.messageId, token, rnd % 4096, 0, (now + rnd % 4096) % M⟩], 1⟩, []) := by
          simp only [serviceRetryOn, clock]
          rw [if_neg (by omega)]
        obtain ⟨⟨s', tr'⟩, hr⟩ := total ts ⟨[⟨0, addr, h.messageId, token, rnd % 4096, 0, (now + rnd % 4096) % M⟩], 1⟩
        simp only [List.map_cons, runOn, stepOn, h1, hr, Option.map_some, Option.some.injEq, Prod.mk.injEq, List.nil_append] at e
        rw [← e.2, ih s' tr' hr]
        simp [ht]
  obtain ⟨⟨s, tr⟩, hr⟩ := total ts ⟨[⟨0, addr, h.messageId, token, rnd % 4096, 0, (now + rnd % 4096) % M⟩], 1⟩
  refine ⟨s, .queued now 0 (rnd % 4096) addr :: tr, by rw [runOn, s0]; simp only [hr]; rfl, ?_⟩
  rw [← hrun ts s tr hr]
  simp

-- a clock of 65536 ticks: sent 1000 ticks before the end of a lap with a timeout of 2000, retransmitted at once
example : (64536 + 2000) % 65536 ≤ 64537 % 65536 ∧ 64537 < 64536 + 2000 := by decide

/-- One call of `service_retry` on a heap, for any clock. -/
theorem serviceOn_cases (M : Nat) (P : PQ A) (s : St A) (now : Nat) (hh : P.heap s.q) (hc : ∀ x ∈ s.q, x.counter ≤ 2) :
    serviceRetryOn M P s now = (s, []) ∨
    ∃ x l q', s.q = x :: l ∧ x.due ≤ clock M now ∧ P.heap q' ∧ serviceRetryOn M P s now = (⟨q', s.next⟩, [.sent now x.id x.addr]) ∧
      ((x.counter < 2 ∧ ∃ d, q'.Perm ({ x with counter := x.counter + 1, due := d } :: l)) ∨ (x.counter = 2 ∧ q'.Perm l)) := by
  obtain ⟨q, n⟩ := s
  cases q with
  | nil => exact Or.inl rfl
  | cons x l =>
    simp only at hh hc
    by_cases hd : clock M now ≥ x.due
    · right
      have h1 := P.pop_heap x l hh
      have h2 := P.pop_perm x l hh
      have := hc x List.mem_cons_self
      by_cases c1 : x.counter < 2
      · have e : (x.counter + 1) % 8 = x.counter + 1 := by omega
        refine ⟨x, l, _, rfl, hd, P.push_heap _ _ h1, ?_, Or.inl ⟨c1, clockAdd M (clock M now) (x.timeout * 2 ^ (x.counter + 1)), (P.push_perm _ _ h1).trans (h2.cons _)⟩⟩
        simp only [serviceRetryOn, if_pos hd, Nat.reduceSub, if_pos c1, e, Item.delta]
      · have c2 : x.counter = 2 := by omega
        refine ⟨x, l, _, rfl, hd, h1, ?_, Or.inr ⟨c2, h2⟩⟩
        simp only [serviceRetryOn, if_pos hd, Nat.reduceSub, if_neg c1, if_pos c2]
    · left
      simp only [serviceRetryOn, if_neg hd]

/-- What holds between the queue and everything observed so far, whatever the clock shows. -/
structure ClockInv (P : PQ A) (s : St A) (tr : List (Out A)) : Prop where
  heap : P.heap s.q
  nodup : (s.q.map (·.id)).Nodup
  item : ∀ x ∈ s.q, x.id < s.next ∧ x.counter ≤ 2 ∧ (sendsOf x.id tr).length = x.counter
  most : ∀ id, (sendsOf id tr).length ≤ 3
  none : ∀ id, s.next ≤ id → (sendsOf id tr).length = 0

theorem ClockInv.drop {P : PQ A} {s : St A} {tr} (h : ClockInv P s tr) {q' : List (Item A)} {x : Item A} (hq : s.q.Perm (x :: q')) (hh : P.heap q') :
    ClockInv P ⟨q', s.next⟩ tr :=
  ⟨hh, (List.nodup_cons.1 ((hq.map _).nodup_iff.1 h.nodup)).2, fun y hy => h.item y (hq.mem_iff.2 (List.mem_cons_of_mem _ hy)), h.most, h.none⟩

theorem clockStep_inv {M : Nat} {P : PQ A} {same : A → A → Bool} {s s' : St A} {tr} {e : Ev A} {o} (h : ClockInv P s tr)
    (hs : stepOn M P same s e = some (s', o)) : ClockInv P s' (tr ++ o) := by
  cases e with
  | sent now rnd addr hd token =>
    simp only [stepOn, onSentOn, enqueueOn] at hs
    split at hs
    · split at hs
      · simp only [Option.some.injEq, Prod.mk.injEq] at hs
        obtain ⟨rfl, rfl⟩ := hs
        have hp := P.push_perm s.q
          ⟨s.next, addr, hd.messageId, token, rnd % 4096, 0, clockAdd M (clock M now) (Item.delta ⟨s.next, addr, hd.messageId, token, rnd % 4096, 0, 0⟩)⟩ h.heap
        refine ⟨P.push_heap _ _ h.heap, (hp.map _).nodup_iff.2 (List.nodup_cons.2 ⟨?_, h.nodup⟩), fun y hy => ?_, ?_, ?_⟩
        · simp only [List.mem_map, not_exists, not_and]
          intro y hy e
          have := (h.item y hy).1
          omega
        · rcases List.mem_cons.1 (hp.mem_iff.1 hy) with rfl | hy
          · simp [sendsOf, h.none s.next (Nat.le_refl _)]
          · have := h.item y hy
            simp [sendsOf]; omega
        · intro id; simpa [sendsOf] using h.most id
        · intro id hid
          simp only at hid
          simpa [sendsOf] using h.none id (by omega)
      · exact absurd hs (by simp)
    · simp only [Option.some.injEq, Prod.mk.injEq] at hs
      obtain ⟨rfl, rfl⟩ := hs
      simpa using h
  | recv addr hd token =>
    simp only [stepOn, serviceAck, Option.some.injEq, Prod.mk.injEq] at hs
    split at hs
    · rcases ack_cases P same s addr hd.messageId token with ⟨e, -⟩ | ⟨x, l1, l2, q', hq, -, -, hp, hh', e⟩
      · rw [e] at hs; obtain ⟨rfl, rfl⟩ := hs; simpa using h
      · rw [e] at hs; obtain ⟨rfl, rfl⟩ := hs
        have := h.drop (q' := q') (x := x) (by rw [hq]; exact List.perm_middle.trans (hp.symm.cons x)) hh'
        exact ⟨this.heap, this.nodup, by simpa [sendsOf] using this.item, by simpa [sendsOf] using this.most, by simpa [sendsOf] using this.none⟩
    · obtain ⟨rfl, rfl⟩ := hs; simpa using h
  | service now =>
    simp only [stepOn, Option.some.injEq] at hs
    rcases serviceOn_cases M P s now h.heap (fun x hx => (h.item x hx).2.1) with e | ⟨x, l, q', hq, -, hh', e, hp⟩
    · rw [e] at hs; cases hs; simpa using h
    · rw [e] at hs; cases hs
      have hx := h.item x (by rw [hq]; exact List.mem_cons_self)
      have hnd := h.nodup
      rw [hq, List.map_cons, List.nodup_cons] at hnd
      have hne : ∀ y ∈ l, y.id ≠ x.id := fun y hy e => hnd.1 (by rw [← e]; exact List.mem_map_of_mem hy)
      have hlen : ∀ id, (sendsOf id (tr ++ [Out.sent now x.id x.addr])).length = (sendsOf id tr).length + if x.id = id then 1 else 0 := by
        intro id
        by_cases hid : x.id = id <;> simp [sendsOf, hid]
      have hl : ∀ y ∈ l, y.id < s.next ∧ y.counter ≤ 2 ∧ (sendsOf y.id (tr ++ [Out.sent now x.id x.addr])).length = y.counter := by
        intro y hy
        have := h.item y (by rw [hq]; exact List.mem_cons_of_mem _ hy)
        rw [hlen, if_neg (fun e => hne y hy e.symm)]
        exact this
      have hmost : ∀ id, (sendsOf id (tr ++ [Out.sent now x.id x.addr])).length ≤ 3 := by
        intro id
        rw [hlen]
        by_cases hid : x.id = id
        · subst hid; simp only [if_true]; omega
        · simp only [hid, if_false]; exact h.most id
      have hnone : ∀ id, s.next ≤ id → (sendsOf id (tr ++ [Out.sent now x.id x.addr])).length = 0 := by
        intro id hid
        rw [hlen, h.none id hid, if_neg (by omega)]
      rcases hp with ⟨c1, d, hp⟩ | ⟨c2, hp⟩
      · refine ⟨hh', (hp.map _).nodup_iff.2 (by simpa using hnd), fun y hy => ?_, hmost, hnone⟩
        rcases List.mem_cons.1 (hp.mem_iff.1 hy) with rfl | hy
        · refine ⟨hx.1, by simp only; omega, ?_⟩
          simp only
          rw [hlen]; simp only [if_true]; omega
        · exact hl y hy
      · exact ⟨hh', (hp.map _).nodup_iff.2 hnd.2, fun y hy => hl y (hp.mem_iff.1 hy), hmost, hnone⟩

/-- C73 (what holds).  Whatever the clock shows and however often it wraps, no message is retransmitted more than three times. -/
theorem clock_bounded (M : Nat) (P : PQ A) (same : A → A → Bool) (es : List (Ev A)) (s : St A) (tr : List (Out A))
    (h : runOn M P same Retry.init es = some (s, tr)) (id : Nat) : (sendsOf id tr).length ≤ 3 := by
  have : ∀ (es : List (Ev A)) (s s' : St A) (tr tr' : List (Out A)), ClockInv P s tr → runOn M P same s es = some (s', tr') →
      ClockInv P s' (tr ++ tr') := by
    intro es
    induction es with
    | nil =>
      intro s s' tr tr' hi hs
      simp only [runOn, Option.some.injEq, Prod.mk.injEq] at hs
      obtain ⟨rfl, rfl⟩ := hs
      simpa using hi
    | cons e es ih =>
      intro s s' tr tr' hi hs
      simp only [runOn] at hs
      split at hs
      · exact absurd hs (by simp)
      · rename_i s1 o1 h1
        cases hr : runOn M P same s1 es with
        | none => rw [hr] at hs; exact absurd hs (by simp)
        | some r =>
          rw [hr] at hs
          simp only [Option.map_some, Option.some.injEq, Prod.mk.injEq] at hs
          obtain ⟨rfl, rfl⟩ := hs
          simpa using ih s1 r.1 (tr ++ o1) r.2 (clockStep_inv hi h1) hr
  have := this es Retry.init s [] tr ⟨P.heap_nil, by simp [Retry.init], by simp [Retry.init], by simp [sendsOf], by simp [sendsOf]⟩ h
  simpa using this.most id

/-! ## Examples -/

example : runOn 65536 sortedPQ (fun a b => a == b) Retry.init
    [.sent 65000 2500 9 conHdr [1], .service 65001, .service 65002, .service 65003] =
      some (⟨[], 1⟩, [.queued 65000 0 2500 9, .sent 65001 0 9, .sent 65002 0 9, .sent 65003 0 9]) :=
  (clock_wrap_burst 65536 sortedPQ (fun a b => a == b) 65000 2500 9 conHdr [1] (by decide) (by decide) (by decide) _ _ _ (by decide) (by decide)
    (by decide) (by decide)).1

example : ∀ e ∈ [Ev.service 65536, .service (2 * 65536), .service (65536 * 3 + 5)], ShowsLess (A := Nat) 65536 ((100 + 2500 % 4096) % 65536) e := by
  simp [ShowsLess]

example : ∀ e ∈ retryHistory, BeforeWrap 4294967296 e := by
  simp [retryHistory, BeforeWrap]

end Verif.Props
