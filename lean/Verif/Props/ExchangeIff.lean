import Verif.Props.Exchange

/-! # C52: exactly which answers end the retransmission of a message -/
namespace Verif.Props
open Verif.Model Verif.Model.Retry Verif.Spec Verif.Spec.Retry Verif.Proofs Verif.Proofs.Retry

variable {A : Type}

/-- Type, message id and token of a message can be read from its bytes. -/
theorem wire_head_inj {r q : Msg} (hr : r.Ok) (hq : q.Ok) {or oq : List UInt8} (h : wire r or = wire q oq) :
    r.type = q.type ∧ r.code = q.code ∧ r.mid = q.mid ∧ r.token = q.token := by
  obtain ⟨r1, r2, r3, r4, r5, -, -⟩ := hr
  obtain ⟨q1, q2, q3, q4, q5, -, -⟩ := hq
  simp only [wire, encHeader, List.cons_append, List.nil_append, List.append_assoc, List.cons.injEq] at h
  obtain ⟨h0, h1, h2, h3, h4⟩ := h
  have b0 := congrArg UInt8.toNat h0
  have b1 := congrArg UInt8.toNat h1
  have b2 := congrArg UInt8.toNat h2
  have b3 := congrArg UInt8.toNat h3
  simp only [UInt8.toNat_ofNat'] at b0 b1 b2 b3
  have hl : r.token.length = q.token.length := by omega
  refine ⟨by omega, by omega, by omega, (List.append_inj h4 hl).1⟩

/-- C52, exactly which messages end the retransmission: after any history in which no answer to a confirmable message has arrived and it is
not yet sent for the last time, a well-formed message from anywhere ends its retransmission if and only if it is an acknowledgement with the
message's id and token from its address.  Neither an empty acknowledgement of a message with a token nor a reset is among these.  (`hother`:
no other message with this id and token goes to that address.) -/
theorem answer_ends_iff (P : PQ A) (same : A → A → Bool) (junk : Dec) (hj : junk.tbuf.length = 8)
    (m : Msg) (hm : m.Ok) (ht : m.type = 0) (ob : List UInt8) (now rnd : Nat) (addr addr' : A)
    (es1 es3 : List (WEv A)) (s1 s2 s3 s4 : St A) (tr1 o2 tr3 o4 : List (Out A))
    (h1 : wrun P same junk Retry.init es1 = some (s1, tr1))
    (h2 : wstep P same junk s1 (.sent now rnd addr (wire m ob)) = some (s2, o2))
    (h3 : wrun P same junk s2 es3 = some (s3, tr3))
    (hother : ∀ t r a b, WEv.sent t r a b ∈ es1 ++ es3 → ∃ m' ob', m'.Ok ∧ b = wire m' ob' ∧
      (m'.type = 0 → m'.mid = m.mid → m'.token = m.token → same addr' a = false))
    (hnone : ∀ a b, WEv.recv a b ∈ es3 → ∃ r obr, r.Ok ∧ b = wire r obr ∧
      ¬(r.type = 2 ∧ r.mid = m.mid ∧ r.token = m.token ∧ same a addr = true))
    (id : Nat) (hid : o2 = [.queued now id (rnd % 4096) addr]) (hlive : (sendsOf id tr3).length < 3)
    (r : Msg) (hr : r.Ok) (obr : List UInt8) (h4 : wstep P same junk s3 (.recv addr' (wire r obr)) = some (s4, o4)) :
    (Out.acked id ∈ o4 ↔ r.type = 2 ∧ r.mid = m.mid ∧ r.token = m.token ∧ same addr' addr = true) ∧
    (Out.acked id ∈ o4 → o4 = [.acked id] ∧
      ∀ es4 s5 tr4, wrun P same junk s4 es4 = some (s5, tr4) → ∀ t a, Out.sent t id a ∉ tr4) := by
  have hno : Out.acked id ∉ tr3 := by
    intro hack
    obtain ⟨a, q, oq, hq, hqok, hq2, hqm, hqt, hqs⟩ := only_matching_ack_stops P same junk hj m hm ht ob now rnd addr es1 es3 s1 s2 s3
      tr1 o2 tr3 h1 h2 h3 (fun a b hb => by obtain ⟨r, obr, hr, hb, -⟩ := hnone a b hb; exact ⟨r, obr, hr, hb⟩) id hid hack
    obtain ⟨q', oq', hq', he, hn⟩ := hnone _ _ hq
    obtain ⟨e1, -, e3, e4⟩ := wire_head_inj hqok hq' he
    exact hn ⟨e1 ▸ hq2, e3 ▸ hqm, e4 ▸ hqt, hqs⟩
  have hfwd : Out.acked id ∈ o4 → r.type = 2 ∧ r.mid = m.mid ∧ r.token = m.token ∧ same addr' addr = true := by
    intro hack
    have h5 : wrun P same junk s2 (es3 ++ [.recv addr' (wire r obr)]) = some (s4, tr3 ++ (o4 ++ [])) :=
      wrun_join h3 (by simp [wrun, h4])
    obtain ⟨a, q, oq, hq, hqok, hq2, hqm, hqt, hqs⟩ := only_matching_ack_stops P same junk hj m hm ht ob now rnd addr es1 _ s1 s2 s4
      tr1 o2 _ h1 h2 h5 (fun a b hb => by
        rcases List.mem_append.1 hb with hb | hb
        · obtain ⟨r, obr, hr, hb, -⟩ := hnone a b hb; exact ⟨r, obr, hr, hb⟩
        · simp only [List.mem_singleton, WEv.recv.injEq] at hb
          exact ⟨r, obr, hr, hb.2⟩) id hid (by simp [hack])
    rcases List.mem_append.1 hq with hq | hq
    · obtain ⟨q', oq', hq', he, hn⟩ := hnone _ _ hq
      obtain ⟨e1, -, e3, e4⟩ := wire_head_inj hqok hq' he
      exact absurd ⟨e1 ▸ hq2, e3 ▸ hqm, e4 ▸ hqt, hqs⟩ hn
    · simp only [List.mem_singleton, WEv.recv.injEq] at hq
      obtain ⟨e1, -, e3, e4⟩ := wire_head_inj hqok hr hq.2
      exact ⟨e1 ▸ hq2, e3 ▸ hqm, e4 ▸ hqt, hq.1 ▸ hqs⟩
  have hbwd : r.type = 2 ∧ r.mid = m.mid ∧ r.token = m.token ∧ same addr' addr = true → o4 = [.acked id] ∧
      ∀ es4 s5 tr4, wrun P same junk s4 es4 = some (s5, tr4) → ∀ t a, Out.sent t id a ∉ tr4 := by
    rintro ⟨e1, e2, e3, e4⟩
    obtain ⟨id', s4', o4', hid', h4', hor, hnever⟩ := response_stops_retransmission P same junk hj m hm ht ob now rnd addr addr' es1 es3
      s1 s2 s3 tr1 o2 tr3 h1 h2 h3 hother r hr e1 e2 e3 obr e4
    have hii : id' = id := by rw [hid] at hid'; simp at hid'; exact hid'.symm
    subst hii
    rw [h4] at h4'
    simp only [Option.some.injEq, Prod.mk.injEq] at h4'
    obtain ⟨rfl, rfl⟩ := h4'
    refine ⟨?_, hnever⟩
    rcases hor with h | ⟨-, h | h⟩
    · exact h
    · exact absurd h hno
    · omega
  exact ⟨⟨hfwd, fun h => by rw [(hbwd h).1]; simp⟩, fun h => hbwd (hfwd h)⟩

end Verif.Props
