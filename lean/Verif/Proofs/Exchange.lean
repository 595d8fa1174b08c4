import Verif.Model.Exchange
import Verif.Props.Retry
import Verif.Props.PullDecoder

/-! # Where tracked messages come from, and histories of messages as bytes -/
namespace Verif.Proofs.Retry
open Verif.Model Verif.Model.Retry Verif.Spec Verif.Spec.Retry Verif.Props

variable {A : Type}

/-- `x` is `y` at a later time. -/
def Later (x y : Item A) : Prop := x.id = y.id ∧ x.addr = y.addr ∧ x.mid = y.mid ∧ x.token = y.token

/-- Where an item of the queue comes from. -/
def From0 (s : St A) (es : List (Ev A)) (x : Item A) : Prop :=
  (∃ y ∈ s.q, Later x y) ∨
  s.next ≤ x.id ∧ ∃ now rnd hd, Ev.sent now rnd x.addr hd x.token ∈ es ∧ hd.type = Header.confirmable ∧ hd.messageId = x.mid

theorem step_origin {P : PQ A} {same} {s s' : St A} {tr o} (h : Inv P s tr) {e : Ev A}
    (hs : Retry.step P same s e = some (s', o)) : s.next ≤ s'.next ∧ ∀ x ∈ s'.q, From0 s [e] x := by
  have keep : ∀ x ∈ s.q, From0 s [e] x := fun x hx => Or.inl ⟨x, hx, rfl, rfl, rfl, rfl⟩
  cases e with
  | sent now rnd addr hd token =>
    simp only [Retry.step, onSent, Retry.enqueue] at hs
    split at hs
    · rename_i hc
      split at hs
      · simp only [Option.some.injEq, Prod.mk.injEq] at hs
        obtain ⟨rfl, rfl⟩ := hs
        refine ⟨Nat.le_succ _, fun x hx => ?_⟩
        rw [(P.push_perm _ _ h.heap).mem_iff, List.mem_cons] at hx
        rcases hx with rfl | hx
        · exact Or.inr ⟨Nat.le_refl _, now, rnd, hd, List.mem_singleton.2 rfl, by simpa using hc, rfl⟩
        · exact keep x hx
      · exact absurd hs (by simp)
    · simp only [Option.some.injEq, Prod.mk.injEq] at hs
      obtain ⟨rfl, rfl⟩ := hs; exact ⟨Nat.le_refl _, keep⟩
  | recv addr hd token =>
    simp only [Retry.step, serviceAck, Option.some.injEq, Prod.mk.injEq] at hs
    split at hs
    · rcases ack_cases P same s addr hd.messageId token with ⟨e, -⟩ | ⟨x, l1, l2, q', hq, -, -, hp, hh, e⟩
      · rw [e] at hs; obtain ⟨rfl, rfl⟩ := hs; exact ⟨Nat.le_refl _, keep⟩
      · rw [e] at hs; obtain ⟨rfl, rfl⟩ := hs
        refine ⟨Nat.le_refl _, fun y hy => keep y ?_⟩
        rw [hp.mem_iff, List.mem_append] at hy
        rw [hq, List.mem_append, List.mem_cons]
        rcases hy with hy | hy
        · exact Or.inl hy
        · exact Or.inr (Or.inr hy)
    · obtain ⟨rfl, rfl⟩ := hs; exact ⟨Nat.le_refl _, keep⟩
  | service now =>
    simp only [Retry.step, Option.some.injEq] at hs
    rcases service_cases P s now h.heap (fun x hx => (h.item x hx).2.1) with ⟨e, -⟩ | ⟨x, l, q', hq, hd, -, hh, e, hp⟩
    · rw [e] at hs; cases hs; exact ⟨Nat.le_refl _, keep⟩
    · rw [e] at hs; cases hs
      refine ⟨Nat.le_refl _, fun y hy => ?_⟩
      rcases hp with ⟨-, hp⟩ | ⟨-, hp⟩
      · rw [hp.mem_iff, List.mem_cons] at hy
        rcases hy with rfl | hy
        · exact Or.inl ⟨x, by rw [hq]; exact List.mem_cons_self, rfl, rfl, rfl, rfl⟩
        · exact keep y (by rw [hq]; exact List.mem_cons_of_mem _ hy)
      · rw [hp.mem_iff] at hy
        exact keep y (by rw [hq]; exact List.mem_cons_of_mem _ hy)

theorem run_origin {P : PQ A} {same} {es : List (Ev A)} {s s' : St A} {tr o} (h : Inv P s tr)
    (hs : Retry.run P same s es = some (s', o)) : s.next ≤ s'.next ∧ ∀ x ∈ s'.q, From0 s es x := by
  induction es generalizing s tr s' o with
  | nil =>
    simp only [Retry.run, Option.some.injEq, Prod.mk.injEq] at hs
    obtain ⟨rfl, rfl⟩ := hs
    exact ⟨Nat.le_refl _, fun x hx => Or.inl ⟨x, hx, rfl, rfl, rfl, rfl⟩⟩
  | cons e es ih =>
    simp only [Retry.run] at hs
    split at hs
    · exact absurd hs (by simp)
    · rename_i s1 o1 h1
      cases hr : Retry.run P same s1 es with
      | none => rw [hr] at hs; exact absurd hs (by simp)
      | some r =>
        rw [hr] at hs
        simp only [Option.map_some, Option.some.injEq, Prod.mk.injEq] at hs
        obtain ⟨rfl, rfl⟩ := hs
        obtain ⟨n1, k1⟩ := step_origin h h1
        obtain ⟨n2, k2⟩ := ih (h.step h1) hr
        refine ⟨Nat.le_trans n1 n2, fun x hx => ?_⟩
        rcases k2 x hx with ⟨y, hy, e1, e2, e3, e4⟩ | ⟨hn, now, rnd, hd, hm, hc, he⟩
        · rcases k1 y hy with ⟨z, hz, f1, f2, f3, f4⟩ | ⟨hn, now, rnd, hd, hm, hc, he⟩
          · exact Or.inl ⟨z, hz, e1.trans f1, e2.trans f2, e3.trans f3, e4.trans f4⟩
          · refine Or.inr ⟨by omega, now, rnd, hd, ?_, hc, he.trans e3.symm⟩
            rw [e2, e4]
            exact List.mem_cons.2 (Or.inl (List.mem_singleton.1 hm))
        · exact Or.inr ⟨by omega, now, rnd, hd, List.mem_cons_of_mem _ hm, hc, he⟩

/-- Only messages in the queue, now or later, are retransmitted. -/
theorem run_sent {P : PQ A} {same} {es : List (Ev A)} {s s' : St A} {tr o} (h : Inv P s tr)
    (hs : Retry.run P same s es = some (s', o)) {t id : Nat} {a : A} (hm : Out.sent t id a ∈ o) :
    (∃ y ∈ s.q, y.id = id) ∨ s.next ≤ id := by
  induction es generalizing s tr s' o with
  | nil =>
    simp only [Retry.run, Option.some.injEq, Prod.mk.injEq] at hs
    obtain ⟨rfl, rfl⟩ := hs
    simp at hm
  | cons e es ih =>
    simp only [Retry.run] at hs
    split at hs
    · exact absurd hs (by simp)
    · rename_i s1 o1 h1
      cases hr : Retry.run P same s1 es with
      | none => rw [hr] at hs; exact absurd hs (by simp)
      | some r =>
        rw [hr] at hs
        simp only [Option.map_some, Option.some.injEq, Prod.mk.injEq] at hs
        obtain ⟨rfl, rfl⟩ := hs
        obtain ⟨n1, k1⟩ := step_origin h h1
        rcases List.mem_append.1 hm with hm | hm
        · have he := (step_outs h1).1 _ _ _ hm
          subst he
          simp only [Retry.step, Option.some.injEq] at h1
          rcases service_cases P s t h.heap (fun x hx => (h.item x hx).2.1) with ⟨e, -⟩ | ⟨x, l, q', hq, hd, -, hh, e, hp⟩
          · rw [e] at h1; cases h1; simp at hm
          · rw [e] at h1; cases h1
            simp only [List.mem_singleton, Out.sent.injEq] at hm
            exact Or.inl ⟨x, by rw [hq]; exact List.mem_cons_self, hm.2.1.symm⟩
        · rcases ih (h.step h1) hr hm with ⟨y, hy, e⟩ | hn
          · rcases k1 y hy with ⟨z, hz, f1, -⟩ | ⟨hn, -⟩
            · exact Or.inl ⟨z, hz, f1.symm.trans e⟩
            · exact Or.inr (by omega)
          · exact Or.inr (by omega)

/-- Only an acknowledgement with the message id, the token and the address of a message drops it. -/
theorem run_acked {P : PQ A} {same : A → A → Bool} {es : List (Ev A)} {s s' : St A} {tr o} (h : Inv P s tr)
    (hs : Retry.run P same s es = some (s', o)) {id : Nat} (hm : Out.acked id ∈ o) :
    ∃ a hd tok, Ev.recv a hd tok ∈ es ∧ hd.type = Header.acknowledgement ∧
      ((∃ y ∈ s.q, y.id = id ∧ y.token = tok ∧ y.mid = hd.messageId ∧ same a y.addr = true) ∨ s.next ≤ id) := by
  induction es generalizing s tr s' o with
  | nil =>
    simp only [Retry.run, Option.some.injEq, Prod.mk.injEq] at hs
    obtain ⟨rfl, rfl⟩ := hs
    simp at hm
  | cons e es ih =>
    simp only [Retry.run] at hs
    split at hs
    · exact absurd hs (by simp)
    · rename_i s1 o1 h1
      cases hr : Retry.run P same s1 es with
      | none => rw [hr] at hs; exact absurd hs (by simp)
      | some r =>
        rw [hr] at hs
        simp only [Option.map_some, Option.some.injEq, Prod.mk.injEq] at hs
        obtain ⟨rfl, rfl⟩ := hs
        obtain ⟨n1, k1⟩ := step_origin h h1
        rcases List.mem_append.1 hm with hm | hm
        · cases e with
          | sent now rnd addr hd token =>
            simp only [Retry.step, onSent, Retry.enqueue] at h1
            split at h1
            · split at h1
              · simp only [Option.some.injEq, Prod.mk.injEq] at h1
                obtain ⟨rfl, rfl⟩ := h1; simp at hm
              · exact absurd h1 (by simp)
            · simp only [Option.some.injEq, Prod.mk.injEq] at h1
              obtain ⟨rfl, rfl⟩ := h1; simp at hm
          | recv addr hd token =>
            simp only [Retry.step, serviceAck, Option.some.injEq, Prod.mk.injEq] at h1
            split at h1
            · rename_i hc
              rcases ack_cases P same s addr hd.messageId token with ⟨e, -⟩ | ⟨x, l1, l2, q', hq, hx, -, hp, hh, e⟩
              · rw [e] at h1; obtain ⟨rfl, rfl⟩ := h1; simp at hm
              · rw [e] at h1; obtain ⟨rfl, rfl⟩ := h1
                simp only [List.mem_singleton, Out.acked.injEq] at hm
                simp only [hits, Bool.and_eq_true, beq_iff_eq] at hx
                exact ⟨addr, hd, token, List.mem_cons_self, by simpa using hc,
                  Or.inl ⟨x, by rw [hq]; simp, hm.symm, hx.1.2, hx.2, hx.1.1⟩⟩
            · obtain ⟨rfl, rfl⟩ := h1; simp at hm
          | service now =>
            simp only [Retry.step, Option.some.injEq] at h1
            rcases service_cases P s now h.heap (fun x hx => (h.item x hx).2.1) with ⟨e, -⟩ | ⟨x, l, q', hq, hd, -, hh, e, hp⟩
            · rw [e] at h1; cases h1; simp at hm
            · rw [e] at h1; cases h1; simp at hm
        · obtain ⟨a, hd, tok, g1, g2, g3⟩ := ih (h.step h1) hr hm
          refine ⟨a, hd, tok, List.mem_cons_of_mem _ g1, g2, ?_⟩
          rcases g3 with ⟨y, hy, e1, e2, e3, e4⟩ | hn
          · rcases k1 y hy with ⟨z, hz, f1, f2, f3, f4⟩ | ⟨hn, -⟩
            · exact Or.inl ⟨z, hz, f1.symm.trans e1, f4.symm.trans e2, f3.symm.trans e3, f2 ▸ e4⟩
            · exact Or.inr (by omega)
          · exact Or.inr (by omega)

theorem run_join {P : PQ A} {same} {e1 e2 : List (Ev A)} {s s1 s2 : St A} {o1 o2}
    (h1 : Retry.run P same s e1 = some (s1, o1)) (h2 : Retry.run P same s1 e2 = some (s2, o2)) :
    Retry.run P same s (e1 ++ e2) = some (s2, o1 ++ o2) := by
  induction e1 generalizing s o1 with
  | nil =>
    simp only [Retry.run, Option.some.injEq, Prod.mk.injEq] at h1
    obtain ⟨rfl, rfl⟩ := h1
    simpa using h2
  | cons e es ih =>
    simp only [Retry.run] at h1
    split at h1
    · exact absurd h1 (by simp)
    · rename_i s' o' hs
      cases hr : Retry.run P same s' es with
      | none => rw [hr] at h1; exact absurd h1 (by simp)
      | some r =>
        rw [hr] at h1
        simp only [Option.map_some, Option.some.injEq, Prod.mk.injEq] at h1
        obtain ⟨rfl, rfl⟩ := h1
        simp only [List.cons_append, Retry.run, hs, ih hr, Option.map_some, List.append_assoc]

/-- The event with header and token read. -/
def toEv (junk : Dec) : WEv A → Option (Ev A)
  | .sent now rnd addr bytes => (readHead junk bytes).map fun r => .sent now rnd addr r.1 r.2
  | .recv addr bytes => (readHead junk bytes).map fun r => .recv addr r.1 r.2
  | .service now => some (.service now)

theorem wstep_eq (P : PQ A) (same : A → A → Bool) (junk : Dec) (s : St A) (e : WEv A) :
    wstep P same junk s e = (toEv junk e).bind (Retry.step P same s) := by
  cases e with
  | service => rfl
  | sent now rnd addr bytes => simp only [wstep, toEv]; cases readHead junk bytes <;> rfl
  | recv addr bytes => simp only [wstep, toEv]; cases readHead junk bytes <;> rfl

theorem wrun_run {P : PQ A} {same : A → A → Bool} {junk : Dec} {es : List (WEv A)} {s : St A} {r}
    (h : wrun P same junk s es = some r) :
    ∃ es', Retry.run P same s es' = some r ∧ (∀ e' ∈ es', ∃ e ∈ es, toEv junk e = some e') ∧
      services es' = es.countP (fun e => match e with | .service _ => true | _ => false) := by
  induction es generalizing s r with
  | nil => exact ⟨[], h, by simp, rfl⟩
  | cons e es ih =>
    simp only [wrun, wstep_eq] at h
    cases he : toEv junk e with
    | none => rw [he] at h; simp at h
    | some e' =>
      rw [he] at h
      simp only [Option.bind_some] at h
      cases hs : Retry.step P same s e' with
      | none => rw [hs] at h; simp at h
      | some v =>
        obtain ⟨s1, o⟩ := v
        rw [hs] at h
        simp only at h
        cases hr : wrun P same junk s1 es with
        | none => rw [hr] at h; simp at h
        | some w =>
          rw [hr] at h
          obtain ⟨es', h1, h2, h3⟩ := ih hr
          refine ⟨e' :: es', by simp only [Retry.run, hs, h1]; exact h, fun x hx => ?_, ?_⟩
          · rcases List.mem_cons.1 hx with rfl | hx
            · exact ⟨e, List.mem_cons_self, he⟩
            · obtain ⟨y, hy, e⟩ := h2 x hx
              exact ⟨y, List.mem_cons_of_mem _ hy, e⟩
          · cases e with
            | service => simp only [toEv, Option.some.injEq] at he; subst he; simp [services, h3]
            | sent =>
              simp only [toEv, Option.map_eq_some_iff] at he
              obtain ⟨_, _, rfl⟩ := he; simp [services, h3]
            | recv =>
              simp only [toEv, Option.map_eq_some_iff] at he
              obtain ⟨_, _, rfl⟩ := he; simp [services, h3]

/-- The header of a message. -/
def headOf (m : Msg) : Header := ⟨UInt8.ofNat (64 * m.version + 16 * m.type + m.token.length), UInt8.ofNat m.code,
  UInt8.ofNat (m.mid / 256), UInt8.ofNat (m.mid % 256)⟩

theorem readHead_wire {m : Msg} (hm : m.Ok) (ob : List UInt8) (junk : Dec) (hj : junk.tbuf.length = 8) :
    readHead junk (wire m ob) = some (headOf m, m.token) := by
  obtain ⟨h1, h2, h3, h4, h5, -, -⟩ := hm
  have hw : wire m ob = UInt8.ofNat (64 * m.version + 16 * m.type + m.token.length) :: UInt8.ofNat m.code ::
      UInt8.ofNat (m.mid / 256) :: UInt8.ofNat (m.mid % 256) :: (m.token ++ (ob ++ encPayload m.payload)) := by
    simp [wire, encHeader]
  have ht : (⟨UInt8.ofNat (64 * m.version + 16 * m.type + m.token.length), UInt8.ofNat m.code,
      UInt8.ofNat (m.mid / 256), UInt8.ofNat (m.mid % 256)⟩ : Header).tokenLength.toNat = m.token.length := by
    rw [Header.tokenLength, show (15 : UInt8) = 0x0F from rfl, tkl_toNat]; simp; omega
  unfold headOf
  rw [hw]
  generalize UInt8.ofNat (64 * m.version + 16 * m.type + m.token.length) = b0 at ht ⊢
  generalize UInt8.ofNat m.code = b1 at ht ⊢
  generalize UInt8.ofNat (m.mid / 256) = b2 at ht ⊢
  generalize UInt8.ofNat (m.mid % 256) = b3 at ht ⊢
  obtain ⟨q1, e1, g1, g2, g3, g4, g5⟩ := header_all junk b0 b1 b2 b3 (m.token ++ (ob ++ encPayload m.payload))
  obtain ⟨q2, e2, -, -, -⟩ := token_all (p := q1) (t := m.token) (r := ob ++ encPayload m.payload)
    (by rw [g1]
        by_cases hz : m.token = []
        · rw [if_neg, if_pos hz]
          rw [gt_iff_lt, UInt8.lt_iff_toNat_lt, ht, hz]; simp
        · rw [if_pos, if_neg hz]
          have : 0 < m.token.length := List.length_pos_iff.2 hz
          rw [gt_iff_lt, UInt8.lt_iff_toNat_lt, ht]; simpa using this)
    (by rw [g2]; exact ht) h5 (by rw [g4]; exact hj) g5
  simp only [readHead, e1, e2]

theorem headOf_type {m : Msg} (hm : m.Ok) : (headOf m).type.toNat = m.type := by
  obtain ⟨h1, h2, h3, h4, h5, -, -⟩ := hm
  rw [Header.type, type_toNat, headOf]; simp; omega

theorem headOf_mid {m : Msg} (hm : m.Ok) : (headOf m).messageId.toNat = m.mid := by
  obtain ⟨h1, h2, h3, h4, h5, -, -⟩ := hm
  rw [Header.messageId, ntoh_toNat, headOf]; simp; omega

theorem headOf_con {m : Msg} (hm : m.Ok) : (headOf m).type = Header.confirmable ↔ m.type = 0 := by
  rw [← UInt8.toNat_inj, headOf_type hm]; rfl

theorem headOf_ack {m : Msg} (hm : m.Ok) : (headOf m).type = Header.acknowledgement ↔ m.type = 2 := by
  rw [← UInt8.toNat_inj, headOf_type hm]; rfl

theorem headOf_mid_iff {m r : Msg} (hm : m.Ok) (hr : r.Ok) : (headOf m).messageId = (headOf r).messageId ↔ m.mid = r.mid := by
  rw [← UInt16.toNat_inj, headOf_mid hm, headOf_mid hr]

end Verif.Proofs.Retry
