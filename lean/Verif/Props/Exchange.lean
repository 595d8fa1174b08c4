import Verif.Proofs.Exchange
import Verif.Props.Server

/-! # C52: a confirmable message, its acknowledgement, and retransmission -/
namespace Verif.Props
open Verif.Model Verif.Model.Retry Verif.Spec Verif.Spec.Retry Verif.Proofs Verif.Proofs.Retry

variable {A : Type}

/-- What taking over a confirmable message does. -/
theorem wsent_con {P : PQ A} {same : A → A → Bool} {junk : Dec} (hj : junk.tbuf.length = 8) {m : Msg} (hm : m.Ok)
    (ht : m.type = 0) {ob : List UInt8} {now rnd : Nat} {addr : A} {s1 s2 : St A} {o2 : List (Out A)}
    (h : wstep P same junk s1 (.sent now rnd addr (wire m ob)) = some (s2, o2)) :
    Retry.step P same s1 (.sent now rnd addr (headOf m) m.token) = some (s2, o2) ∧
    o2 = [.queued now s1.next (rnd % 4096) addr] ∧ s2.next = s1.next + 1 := by
  have e : Retry.step P same s1 (.sent now rnd addr (headOf m) m.token) = some (s2, o2) := by
    rw [wstep_eq, toEv, readHead_wire hm ob junk hj] at h
    simpa using h
  refine ⟨e, ?_⟩
  simp only [Retry.step, onSent, (headOf_con hm).2 ht, beq_self_eq_true, if_true, Retry.enqueue] at e
  split at e
  · simp only [Option.some.injEq, Prod.mk.injEq] at e
    obtain ⟨rfl, rfl⟩ := e
    exact ⟨rfl, rfl⟩
  · exact absurd e (by simp)

/-- The item of a message, at any later time, is where it was sent to, with its message id and token. -/
theorem item_later {P : PQ A} {same : A → A → Bool} {junk : Dec} (hj : junk.tbuf.length = 8) {m : Msg} (hm : m.Ok)
    (ht : m.type = 0) {ob : List UInt8} {now rnd : Nat} {addr : A} {s1 s2 s3 : St A} {tr1 o2 tr3 : List (Out A)}
    (hi : Inv P s1 tr1) (h2 : wstep P same junk s1 (.sent now rnd addr (wire m ob)) = some (s2, o2))
    {es : List (Ev A)} (h3 : Retry.run P same s2 es = some (s3, tr3)) (x : Item A) (hx : x ∈ s3.q) :
    (x.id = s1.next → x.addr = addr ∧ x.mid = (headOf m).messageId ∧ x.token = m.token) ∧
    (x.id ≠ s1.next → (∃ y ∈ s1.q, Later x y) ∨ ∃ now rnd hd, Ev.sent now rnd x.addr hd x.token ∈ es ∧
      hd.type = Header.confirmable ∧ hd.messageId = x.mid) := by
  obtain ⟨e, ho, hn⟩ := wsent_con hj hm ht h2
  obtain ⟨-, k1⟩ := step_origin hi e
  have hi2 := hi.step e
  obtain ⟨-, k2⟩ := run_origin hi2 h3
  rcases k2 x hx with ⟨y, hy, f1, f2, f3, f4⟩ | ⟨hx, now, rnd, hd, g⟩
  · rcases k1 y hy with ⟨z, hz, g1, g2, g3, g4⟩ | ⟨hx, now', rnd', hd, g1, g2, g3⟩
    · have := (hi.item z hz).1
      exact ⟨fun hc => by omega, fun _ => Or.inl ⟨z, hz, f1.trans g1, f2.trans g2, f3.trans g3, f4.trans g4⟩⟩
    · have := (hi2.item y hy).1
      simp only [List.mem_singleton, Ev.sent.injEq] at g1
      obtain ⟨-, -, g4, rfl, g5⟩ := g1
      exact ⟨fun _ => ⟨f2.trans g4, f3.trans g3.symm, f4.trans g5⟩, fun hc => by omega⟩
  · exact ⟨fun hc => by omega, fun _ => Or.inr ⟨now, rnd, hd, g⟩⟩

/-- C52: once the acknowledgement that carries the response to a confirmable message arrives — any well-formed
message of type acknowledgement with the same message id and token, from the address it was sent to, with any code,
options and payload — that message is never sent again, and no other message is given up in its place, provided
no other confirmable message to that address has the same message id and token.  (`es1` is any history before, `es3`
any history in between, `es4` any history after it.) -/
theorem response_stops_retransmission (P : PQ A) (same : A → A → Bool) (junk : Dec) (hj : junk.tbuf.length = 8)
    (m : Msg) (hm : m.Ok) (ht : m.type = 0) (ob : List UInt8) (now rnd : Nat) (addr addr' : A)
    (es1 es3 : List (WEv A)) (s1 s2 s3 : St A) (tr1 o2 tr3 : List (Out A))
    (h1 : wrun P same junk Retry.init es1 = some (s1, tr1))
    (h2 : wstep P same junk s1 (.sent now rnd addr (wire m ob)) = some (s2, o2))
    (h3 : wrun P same junk s2 es3 = some (s3, tr3))
    (hother : ∀ t r a b, WEv.sent t r a b ∈ es1 ++ es3 → ∃ m' ob', m'.Ok ∧ b = wire m' ob' ∧
      (m'.type = 0 → m'.mid = m.mid → m'.token = m.token → same addr' a = false))
    (r : Msg) (hr : r.Ok) (hrt : r.type = 2) (hrm : r.mid = m.mid) (hrk : r.token = m.token) (obr : List UInt8)
    (hsame : same addr' addr = true) :
    ∃ id s4 o4, o2 = [.queued now id (rnd % 4096) addr] ∧
      wstep P same junk s3 (.recv addr' (wire r obr)) = some (s4, o4) ∧
      (o4 = [.acked id] ∨ o4 = [] ∧ (Out.acked id ∈ tr3 ∨ (sendsOf id tr3).length = 3)) ∧
      ∀ es4 s5 tr4, wrun P same junk s4 es4 = some (s5, tr4) → ∀ t a, Out.sent t id a ∉ tr4 := by
  obtain ⟨es1', r1, hev1, -⟩ := wrun_run h1
  obtain ⟨es3', r3, hev3, -⟩ := wrun_run h3
  have i1 := (Inv.init P).run r1
  simp only [List.nil_append] at i1
  obtain ⟨e2, ho2, hn2⟩ := wsent_con hj hm ht h2
  have i2 := i1.step e2
  have i3 := i2.run r3
  have hstep : wstep P same junk s3 (.recv addr' (wire r obr)) =
      Retry.step P same s3 (.recv addr' (headOf r) r.token) := by
    rw [wstep_eq, toEv, readHead_wire hr obr junk hj]; rfl
  have hmid : (headOf r).messageId = (headOf m).messageId := (headOf_mid_iff hr hm).2 hrm
  -- nobody but the item itself is hit
  have hnot : ∀ es' : List (Ev A), (∀ e' ∈ es', ∃ e ∈ es1 ++ es3, toEv junk e = some e') → ∀ now rnd a hd tok,
      Ev.sent now rnd a hd tok ∈ es' → hd.type = Header.confirmable → hd.messageId = (headOf m).messageId →
      tok = m.token → same addr' a = false := by
    intro es' hall now rnd a hd tok hmem hc hid htk
    obtain ⟨e, he, hte⟩ := hall _ hmem
    cases e with
    | service => simp [toEv] at hte
    | recv a b =>
      simp only [toEv, Option.map_eq_some_iff] at hte
      obtain ⟨_, _, hte⟩ := hte; simp at hte
    | sent t r a' b =>
      obtain ⟨m', ob', k1, rfl, k2⟩ := hother _ _ _ _ he
      simp only [toEv, readHead_wire k1 ob' junk hj, Option.map_some, Option.some.injEq, Ev.sent.injEq] at hte
      obtain ⟨-, -, rfl, rfl, rfl⟩ := hte
      exact k2 ((headOf_con k1).1 hc) ((headOf_mid_iff k1 hm).1 hid) htk
  have hrival : ∀ x ∈ s3.q, same addr' x.addr = true → x.token = m.token → x.mid = (headOf m).messageId → x.id = s1.next := by
    intro x hx hs hk hd
    refine Classical.byContradiction fun hne => ?_
    have hfalse : same addr' x.addr = false := by
      rcases (item_later hj hm ht i1 h2 r3 x hx).2 hne with ⟨y, hy, -, f2, f3, f4⟩ | ⟨now, rnd, hd', g1, g2, g3⟩
      · rcases (run_origin (Inv.init P) r1).2 y hy with ⟨z, hz, -⟩ | ⟨-, now, rnd, hd', g1, g2, g3⟩
        · simp [Retry.init] at hz
        · rw [f2]
          exact hnot es1' (fun e' he' => by
            obtain ⟨e, he, h⟩ := hev1 e' he'; exact ⟨e, List.mem_append_left _ he, h⟩) _ _ _ _ _ g1 g2
            (g3.trans (f3.symm.trans hd)) (f4.symm.trans hk)
      · exact hnot es3' (fun e' he' => by
          obtain ⟨e, he, h⟩ := hev3 e' he'; exact ⟨e, List.mem_append_right _ he, h⟩) _ _ _ _ _ g1 g2 (g3.trans hd) hk
    rw [hs] at hfalse; simp at hfalse
  have hgone : ∀ {s4 : St A} {tr4 : List (Out A)}, Inv P s4 tr4 → s1.next < s4.next → (∀ x ∈ s4.q, x.id ≠ s1.next) →
      ∀ es4 s5 tr5, wrun P same junk s4 es4 = some (s5, tr5) → ∀ t a, Out.sent t s1.next a ∉ tr5 := by
    intro s4 tr4 i4 hlt hno es4 s5 tr5 h t a hmem
    obtain ⟨es', h', -, -⟩ := wrun_run h
    rcases run_sent i4 h' hmem with ⟨y, hy, e⟩ | hle
    · exact hno y hy e
    · omega
  have hnx : s1.next < s3.next := by
    have := (run_origin i2 r3).1
    omega
  refine ⟨s1.next, ?_⟩
  by_cases hx : ∃ x ∈ s3.q, x.id = s1.next
  · obtain ⟨x, hx, hid⟩ := hx
    obtain ⟨ha, hmd, htk⟩ := (item_later hj hm ht i1 h2 r3 x hx).1 hid
    obtain ⟨y, hy, ⟨g1, g2, g3⟩, ge, gp, gn⟩ := ack_drops_one P same s3 addr' (headOf r) r.token
      ((headOf_ack hr).2 hrt) x hx ⟨by rw [ha]; exact hsame, htk.trans hrk.symm, hmd.trans hmid.symm⟩
    have hyid := hrival y hy g1 (g2.trans hrk) (g3.trans hmid)
    have hst : Retry.step P same s3 (.recv addr' (headOf r) r.token) =
        some ((serviceAck P same s3 addr' (headOf r) r.token).1, [.acked s1.next]) := by
      simp only [Retry.step, ge, hyid]
    refine ⟨_, _, ho2, hstep.trans hst, Or.inl rfl, hgone (i3.step hst) (by rw [gn]; exact hnx) ?_⟩
    intro z hz hzid
    have hnd : ((y :: (serviceAck P same s3 addr' (headOf r) r.token).1.q).map (·.id)).Nodup :=
      ((gp.map _).nodup_iff).2 i3.nodup
    simp only [List.map_cons, List.nodup_cons] at hnd
    exact hnd.1 (List.mem_map.2 ⟨z, hz, hzid.trans hyid.symm⟩)
  · have hno : ∀ x ∈ s3.q, x.id ≠ s1.next := fun x h he => hx ⟨x, h, he⟩
    have hig := other_arrivals_ignored P same s3 addr' (headOf r) r.token (Or.inr fun x hx hc =>
      hno x hx (hrival x hx hc.1 (hc.2.1.trans hrk) (hc.2.2.trans hmid)))
    have hst : Retry.step P same s3 (.recv addr' (headOf r) r.token) = some (s3, []) := by
      simp only [Retry.step, hig]
    refine ⟨s3, [], ho2, hstep.trans hst, Or.inr ⟨rfl, ?_⟩, hgone i3 hnx hno⟩
    have hk := (i3.known now s1.next (rnd % 4096) addr (by simp [ho2])).2.2.2
    have hs1 : sendsOf s1.next tr1 = [] := sendsOf_nil_of i1.fresh
    simp only [sendsOf_append, hs1, ho2, sendsOf, List.nil_append, List.mem_append, List.mem_singleton, reduceCtorEq, or_false] at hk
    rcases hk with ⟨x, hx, e⟩ | hk | hk
    · exact absurd e (hno x hx)
    · rcases hk with hk | hk
      · obtain ⟨t0, T, a, hq⟩ := i1.acked _ hk
        exact absurd (i1.known _ _ _ _ hq).1 (Nat.lt_irrefl _)
      · exact Or.inl hk
    · exact Or.inr hk

/-- C52, both ends of the library: a server that does not know the path of a confirmable message answers it with one message,
and that answer stops the client's retransmission. -/
theorem own_reply_stops_retransmission (P : PQ A) (same : A → A → Bool) (junk : Dec) (hj : junk.tbuf.length = 8)
    (m : Msg) (hm : m.Ok) (ht : m.type = 0) (now rnd : Nat) (addr : A)
    (es1 es3 : List (WEv A)) (s1 s2 s3 : St A) (tr1 o2 tr3 : List (Out A))
    (h1 : wrun P same junk Retry.init es1 = some (s1, tr1))
    (h2 : wstep P same junk s1 (.sent now rnd addr (encMsg m)) = some (s2, o2))
    (h3 : wrun P same junk s2 es3 = some (s3, tr3))
    (hother : ∀ t r a b, WEv.sent t r a b ∈ es1 ++ es3 → ∃ m' ob', m'.Ok ∧ b = wire m' ob' ∧
      (m'.type = 0 → m'.mid = m.mid → m'.token = m.token → same addr a = false))
    (hsame : same addr addr = true) (cap : Nat) (hcap : 4 + m.token.length ≤ cap) (paths : List Uri.Entry)
    (hpf : ParentsFirst paths) (hd : ∀ q, q ≠ -1 → ¬Denotes paths (-1) (uriPath m) q)
    (sjunk : Dec) (hb : sjunk.tbuf.length = 8) (jt : List UInt8) (hjt : jt.length = 8) (fuel : Nat)
    (hf : 11 * (encMsg m).length + 6 ≤ fuel) :
    ∃ id reply s4 o4, o2 = [.queued now id (rnd % 4096) addr] ∧ serve cap paths sjunk jt fuel (encMsg m) = .ok [reply] ∧
      wstep P same junk s3 (.recv addr reply) = some (s4, o4) ∧
      ∀ es4 s5 tr4, wrun P same junk s4 es4 = some (s5, tr4) → ∀ t a, Out.sent t id a ∉ tr4 := by
  obtain ⟨id, s4, o4, g1, g2, -, g3⟩ := response_stops_retransmission P same junk hj m hm ht (encOpts 0 m.opts) now rnd addr addr
    es1 es3 s1 s2 s3 tr1 o2 tr3 h1 h2 h3 hother (replyTo m 0x84) (replyTo_ok hm (by omega)) rfl rfl rfl
    (encOpts 0 (replyTo m 0x84).opts) hsame
  exact ⟨id, _, s4, o4, g1, unknown_path_404 hm hcap hpf hd sjunk hb jt hjt fuel hf, g2, g3⟩

/-- The converse: in a history in which only well-formed messages arrive, a message is taken for acknowledged only if an
acknowledgement with its message id and token arrived from its address. -/
theorem only_matching_ack_stops (P : PQ A) (same : A → A → Bool) (junk : Dec) (hj : junk.tbuf.length = 8)
    (m : Msg) (hm : m.Ok) (ht : m.type = 0) (ob : List UInt8) (now rnd : Nat) (addr : A)
    (es1 es3 : List (WEv A)) (s1 s2 s3 : St A) (tr1 o2 tr3 : List (Out A))
    (h1 : wrun P same junk Retry.init es1 = some (s1, tr1))
    (h2 : wstep P same junk s1 (.sent now rnd addr (wire m ob)) = some (s2, o2))
    (h3 : wrun P same junk s2 es3 = some (s3, tr3))
    (hwf : ∀ a b, WEv.recv a b ∈ es3 → ∃ r obr, r.Ok ∧ b = wire r obr)
    (id : Nat) (hid : o2 = [.queued now id (rnd % 4096) addr]) (hack : Out.acked id ∈ tr3) :
    ∃ a r obr, WEv.recv a (wire r obr) ∈ es3 ∧ r.Ok ∧ r.type = 2 ∧ r.mid = m.mid ∧ r.token = m.token ∧ same a addr = true := by
  obtain ⟨es1', r1, -, -⟩ := wrun_run h1
  obtain ⟨es3', r3, hev3, -⟩ := wrun_run h3
  have i1 := (Inv.init P).run r1
  simp only [List.nil_append] at i1
  obtain ⟨e2, ho2, hn2⟩ := wsent_con hj hm ht h2
  rw [ho2] at hid
  simp only [List.cons.injEq, Out.queued.injEq, true_and, and_true] at hid
  subst hid
  obtain ⟨a, hd, tok, g1, g2, g3⟩ := run_acked (i1.step e2) r3 hack
  obtain ⟨e, he, hte⟩ := hev3 _ g1
  cases e with
  | service => simp [toEv] at hte
  | sent =>
    simp only [toEv, Option.map_eq_some_iff] at hte
    obtain ⟨_, _, hte⟩ := hte; simp at hte
  | recv a' b =>
    obtain ⟨r, obr, hr, rfl⟩ := hwf _ _ he
    simp only [toEv, readHead_wire hr obr junk hj, Option.map_some, Option.some.injEq, Ev.recv.injEq] at hte
    obtain ⟨rfl, rfl, rfl⟩ := hte
    rcases g3 with ⟨y, hy, f1, f2, f3, f4⟩ | hle
    · obtain ⟨k1, k2, k3⟩ := (item_later hj hm ht i1 h2 (es := []) (s3 := s2) (tr3 := []) rfl y hy).1 f1
      exact ⟨a', r, obr, he, hr, (headOf_ack hr).1 g2, (headOf_mid_iff hr hm).1 (f3.symm.trans k2), f2.symm.trans k3, k1 ▸ f4⟩
    · omega

/-- Nothing happens before time `d`; timeouts are not zero. -/
def WFrom (d : Nat) : WEv A → Prop
  | .sent now rnd _ _ => d ≤ now ∧ 0 < rnd % 4096
  | .recv _ _ => True
  | .service now => d ≤ now

/-- The service is not called after time `m`. -/
def WUntil (m : Nat) : WEv A → Prop
  | .service now => now ≤ m
  | _ => True

/-- Number of service calls. -/
def wservices (es : List (WEv A)) : Nat := es.countP fun e => match e with | .service _ => true | _ => false

theorem toEv_from {junk : Dec} {d M : Nat} {es : List (WEv A)} (h : ∀ e ∈ es, WFrom d e ∧ WUntil M e) {es' : List (Ev A)}
    (h' : ∀ e' ∈ es', ∃ e ∈ es, toEv junk e = some e') : ∀ e ∈ es', From d e ∧ Until M e := by
  intro e' he'
  obtain ⟨e, he, ht⟩ := h' e' he'
  have := h e he
  cases e with
  | service now => simp only [toEv, Option.some.injEq] at ht; subst ht; exact this
  | sent =>
    simp only [toEv, Option.map_eq_some_iff] at ht
    obtain ⟨_, _, rfl⟩ := ht; exact this
  | recv =>
    simp only [toEv, Option.map_eq_some_iff] at ht
    obtain ⟨_, _, rfl⟩ := ht; exact ⟨trivial, trivial⟩

theorem wrun_join {P : PQ A} {same} {junk : Dec} {e1 e2 : List (WEv A)} {s s1 s2 : St A} {o1 o2}
    (h1 : wrun P same junk s e1 = some (s1, o1)) (h2 : wrun P same junk s1 e2 = some (s2, o2)) :
    wrun P same junk s (e1 ++ e2) = some (s2, o1 ++ o2) := by
  induction e1 generalizing s o1 with
  | nil =>
    simp only [wrun, Option.some.injEq, Prod.mk.injEq] at h1
    obtain ⟨rfl, rfl⟩ := h1
    simpa using h2
  | cons e es ih =>
    simp only [wrun] at h1
    split at h1
    · exact absurd h1 (by simp)
    · rename_i s' o' hs
      cases hr : wrun P same junk s' es with
      | none => rw [hr] at h1; exact absurd h1 (by simp)
      | some r =>
        rw [hr] at h1
        simp only [Option.map_some, Option.some.injEq, Prod.mk.injEq] at h1
        obtain ⟨rfl, rfl⟩ := h1
        simp only [List.cons_append, wrun, hs, ih hr, Option.map_some, List.append_assoc]

/-- A confirmable message that is not taken for acknowledged is sent three times more, as soon as the service gets to be called
often enough. -/
theorem unacknowledged_three_times (P : PQ A) (same : A → A → Bool) (junk : Dec) (hj : junk.tbuf.length = 8)
    (m : Msg) (hm : m.Ok) (ht : m.type = 0) (ob : List UInt8) (now rnd : Nat) (addr : A)
    (hrnd : 0 < rnd % 4096) (es1 b1 b2 b3 : List (WEv A)) (s1 s2 s3 s4 s5 : St A) (tr1 o2 tr3 tr4 tr5 : List (Out A))
    (h1 : wrun P same junk Retry.init es1 = some (s1, tr1)) (hpos : ∀ e ∈ es1, WFrom 0 e)
    (h2 : wstep P same junk s1 (.sent now rnd addr (wire m ob)) = some (s2, o2)) (M1 M2 M3 : Nat)
    (h3 : wrun P same junk s2 b1 = some (s3, tr3)) (f1 : ∀ e ∈ b1, WFrom (now + rnd % 4096) e ∧ WUntil M1 e) (n1 : 10 ≤ wservices b1)
    (h4 : wrun P same junk s3 b2 = some (s4, tr4)) (f2 : ∀ e ∈ b2, WFrom (M1 + rnd % 4096 * 4) e ∧ WUntil M2 e) (n2 : 10 ≤ wservices b2)
    (h5 : wrun P same junk s4 b3 = some (s5, tr5)) (f3 : ∀ e ∈ b3, WFrom (M2 + rnd % 4096 * 4) e ∧ WUntil M3 e) (n3 : 10 ≤ wservices b3)
    (hno : Out.acked s1.next ∉ tr3 ++ tr4 ++ tr5) :
    o2 = [.queued now s1.next (rnd % 4096) addr] ∧ (sendsOf s1.next (tr3 ++ tr4 ++ tr5)).length = 3 := by
  obtain ⟨es1', r1, hev1, -⟩ := wrun_run h1
  obtain ⟨b1', r3, hev3, c1⟩ := wrun_run h3
  obtain ⟨b2', r4, hev4, c2⟩ := wrun_run h4
  obtain ⟨b3', r5, hev5, c3⟩ := wrun_run h5
  have i1 := (Inv.init P).run r1
  simp only [List.nil_append] at i1
  obtain ⟨e2, ho2, hn2⟩ := wsent_con hj hm ht h2
  have i2 := i1.step e2
  have hs1 : sendsOf s1.next tr1 = [] := sendsOf_nil_of i1.fresh
  have r2 : Retry.run P same s1 [.sent now rnd addr (headOf m) m.token] = some (s2, o2) := by
    simp [Retry.run, e2]
  have hq : Out.queued now s1.next (rnd % 4096) addr ∈ tr1 ++ o2 := by simp [ho2]
  have key := unacked_sent_three_times P same _ b1' b2' b3' s2 s3 s4 s5 (tr1 ++ o2) tr3 tr4 tr5 (run_join r1 r2)
    (by
      intro t id a hz
      obtain ⟨rnd', hd, tok, hmem, hT⟩ := (run_outs (run_join r1 r2)).2 _ _ _ _ hz
      rcases List.mem_append.1 hmem with hmem | hmem
      · obtain ⟨e, he, hte⟩ := hev1 _ hmem
        have := hpos e he
        cases e with
        | service => simp [toEv] at hte
        | recv =>
          simp only [toEv, Option.map_eq_some_iff] at hte
          obtain ⟨_, _, hte⟩ := hte; simp at hte
        | sent =>
          simp only [toEv, Option.map_eq_some_iff, Ev.sent.injEq] at hte
          obtain ⟨_, _, -, rfl, -⟩ := hte
          have := this.2
          omega
      · simp only [List.mem_singleton, Ev.sent.injEq] at hmem
        obtain ⟨-, rfl, -⟩ := hmem
        omega)
    now s1.next (rnd % 4096) addr hq (now + rnd % 4096) M1 M2 M3
    (by
      intro x hx hxid
      obtain ⟨-, -, k1, -, t0, k2, k3⟩ := i2.item x hx
      rw [hxid] at k1 k2 k3
      obtain ⟨rfl, hT, -⟩ := i2.uniq _ _ _ _ _ _ _ hq k2
      rw [sendsOf_append, hs1, ho2] at k1 k3
      simp only [sendsOf, List.nil_append, List.length_nil, List.getLastD_nil] at k1 k3
      rw [k3, ← k1, ← hT]; simp)
    r3 (toEv_from f1 hev3) (by rw [c1]; exact n1) r4 (toEv_from f2 hev4) (by rw [c2]; exact n2)
    r5 (toEv_from f3 hev5) (by rw [c3]; exact n3)
    (by
      simp only [List.mem_append, not_or] at hno ⊢
      refine ⟨⟨⟨⟨?_, by simp [ho2]⟩, hno.1.1⟩, hno.1.2⟩, hno.2⟩
      intro hk
      obtain ⟨t0, T, a, hq⟩ := i1.acked _ hk
      exact absurd (i1.known _ _ _ _ hq).1 (Nat.lt_irrefl _))
  refine ⟨ho2, ?_⟩
  rw [show tr1 ++ o2 ++ tr3 ++ tr4 ++ tr5 = tr1 ++ (o2 ++ (tr3 ++ tr4 ++ tr5)) by simp, sendsOf_append, sendsOf_append, hs1, ho2] at key
  simpa [sendsOf] using key

/-- C52 fails for the other two answers of RFC 7252 section 4.2 (partial: this is what the code does instead).  A peer
that will respond later acknowledges with an empty message, which has no token; a peer that cannot make sense of the
message answers with a reset.  Whatever number of such messages arrives for a confirmable message with a token, from
whatever addresses, and whatever else is sent meanwhile, the message is retransmitted the full three times, as soon as the
service gets to be called often enough. -/
theorem empty_ack_ignored_partial (P : PQ A) (same : A → A → Bool) (junk : Dec) (hj : junk.tbuf.length = 8)
    (m : Msg) (hm : m.Ok) (ht : m.type = 0) (htok : m.token ≠ []) (ob : List UInt8) (now rnd : Nat) (addr : A)
    (hrnd : 0 < rnd % 4096) (es1 b1 b2 b3 : List (WEv A)) (s1 s2 s3 s4 s5 : St A) (tr1 o2 tr3 tr4 tr5 : List (Out A))
    (h1 : wrun P same junk Retry.init es1 = some (s1, tr1)) (hpos : ∀ e ∈ es1, WFrom 0 e)
    (h2 : wstep P same junk s1 (.sent now rnd addr (wire m ob)) = some (s2, o2)) (M1 M2 M3 : Nat)
    (h3 : wrun P same junk s2 b1 = some (s3, tr3)) (f1 : ∀ e ∈ b1, WFrom (now + rnd % 4096) e ∧ WUntil M1 e) (n1 : 10 ≤ wservices b1)
    (h4 : wrun P same junk s3 b2 = some (s4, tr4)) (f2 : ∀ e ∈ b2, WFrom (M1 + rnd % 4096 * 4) e ∧ WUntil M2 e) (n2 : 10 ≤ wservices b2)
    (h5 : wrun P same junk s4 b3 = some (s5, tr5)) (f3 : ∀ e ∈ b3, WFrom (M2 + rnd % 4096 * 4) e ∧ WUntil M3 e) (n3 : 10 ≤ wservices b3)
    (hans : ∀ a b, WEv.recv a b ∈ b1 ++ b2 ++ b3 → ∃ v mid, v < 4 ∧ mid < 65536 ∧
      (b = encMsg ⟨v, 2, 0, mid, [], [], none⟩ ∨ b = encMsg ⟨v, 3, 0, mid, [], [], none⟩)) :
    ∃ id, o2 = [.queued now id (rnd % 4096) addr] ∧ Out.acked id ∉ tr3 ++ tr4 ++ tr5 ∧
      (sendsOf id (tr3 ++ tr4 ++ tr5)).length = 3 := by
  obtain ⟨es1', r1, hev1, -⟩ := wrun_run h1
  obtain ⟨b1', r3, hev3, c1⟩ := wrun_run h3
  obtain ⟨b2', r4, hev4, c2⟩ := wrun_run h4
  obtain ⟨b3', r5, hev5, c3⟩ := wrun_run h5
  have i1 := (Inv.init P).run r1
  simp only [List.nil_append] at i1
  obtain ⟨e2, ho2, hn2⟩ := wsent_con hj hm ht h2
  have i2 := i1.step e2
  have hwf : ∀ a b, WEv.recv a b ∈ b1 ++ b2 ++ b3 → ∃ r obr, r.Ok ∧ b = wire r obr ∧ r.token = [] := by
    intro a b hb
    obtain ⟨v, mid, hv, hmid, rfl | rfl⟩ := hans a b hb
    · exact ⟨⟨v, 2, 0, mid, [], [], none⟩, _, ⟨hv, by simp, by simp, hmid, by simp, trivial, by simp⟩, (wire_encMsg _).symm, rfl⟩
    · exact ⟨⟨v, 3, 0, mid, [], [], none⟩, _, ⟨hv, by simp, by simp, hmid, by simp, trivial, by simp⟩, (wire_encMsg _).symm, rfl⟩
  have hno : Out.acked s1.next ∉ tr3 ++ tr4 ++ tr5 := by
    intro hack
    obtain ⟨a, hd, tok, g1, g2, g3⟩ := run_acked i2 (run_join (run_join r3 r4) r5) hack
    have hev : ∃ e ∈ b1 ++ b2 ++ b3, toEv junk e = some (Ev.recv a hd tok) := by
      simp only [List.mem_append] at g1 ⊢
      rcases g1 with (g1 | g1) | g1
      · obtain ⟨e, he, h⟩ := hev3 _ g1; exact ⟨e, Or.inl (Or.inl he), h⟩
      · obtain ⟨e, he, h⟩ := hev4 _ g1; exact ⟨e, Or.inl (Or.inr he), h⟩
      · obtain ⟨e, he, h⟩ := hev5 _ g1; exact ⟨e, Or.inr he, h⟩
    obtain ⟨e, he, hte⟩ := hev
    cases e with
    | service => simp [toEv] at hte
    | sent =>
      simp only [toEv, Option.map_eq_some_iff] at hte
      obtain ⟨_, _, hte⟩ := hte; simp at hte
    | recv a' b =>
      obtain ⟨r, obr, hr, rfl, hrk⟩ := hwf _ _ he
      simp only [toEv, readHead_wire hr obr junk hj, Option.map_some, Option.some.injEq, Ev.recv.injEq] at hte
      obtain ⟨rfl, rfl, rfl⟩ := hte
      rcases g3 with ⟨y, hy, k1, k2, k3, k4⟩ | hle
      · obtain ⟨-, -, j3⟩ := (item_later hj hm ht i1 h2 (es := []) (s3 := s2) (tr3 := []) rfl y hy).1 k1
        exact htok (j3.symm.trans (k2.trans hrk))
      · omega
  obtain ⟨-, key⟩ := unacknowledged_three_times P same junk hj m hm ht ob now rnd addr hrnd es1 b1 b2 b3 s1 s2 s3 s4 s5 tr1 o2 tr3 tr4 tr5
    h1 hpos h2 M1 M2 M3 h3 f1 n1 h4 f2 n2 h5 f3 n3 hno
  exact ⟨s1.next, ho2, hno, key⟩

/-- GET /x, confirmable, message id 7, token 05. -/
def askX : Msg := ⟨1, 0, 1, 7, [5], [⟨11, [120]⟩], none⟩

/-- 2.05 with a payload, in the acknowledgement. -/
def tellX : Msg := ⟨1, 2, 69, 7, [5], [⟨12, [0]⟩], some [104, 105]⟩

/-- A case of `response_stops_retransmission`: a first message to the same address with another message id, one
retransmission before the response. -/
example :
    let P : PQ Nat := sortedPQ
    let same := fun a b : Nat => a == b
    let other : Msg := ⟨1, 0, 1, 6, [5], [], none⟩
    askX.Ok ∧ tellX.Ok ∧ other.Ok ∧ other.mid ≠ askX.mid ∧
    wrun P same Dec.zero Retry.init [.sent 50 4000 1 (encMsg other)] = some (⟨[⟨0, 1, 6, [5], 4000, 0, 4050⟩], 1⟩, [.queued 50 0 4000 1]) ∧
    wstep P same Dec.zero ⟨[⟨0, 1, 6, [5], 4000, 0, 4050⟩], 1⟩ (.sent 100 2500 1 (wire askX (encOpts 0 askX.opts))) =
      some (⟨[⟨1, 1, 7, [5], 2500, 0, 2600⟩, ⟨0, 1, 6, [5], 4000, 0, 4050⟩], 2⟩, [.queued 100 1 2500 1]) ∧
    wrun P same Dec.zero ⟨[⟨1, 1, 7, [5], 2500, 0, 2600⟩, ⟨0, 1, 6, [5], 4000, 0, 4050⟩], 2⟩ [.service 3000] =
      some (⟨[⟨0, 1, 6, [5], 4000, 0, 4050⟩, ⟨1, 1, 7, [5], 2500, 1, 8000⟩], 2⟩, [.sent 3000 1 1]) ∧
    wstep P same Dec.zero ⟨[⟨0, 1, 6, [5], 4000, 0, 4050⟩, ⟨1, 1, 7, [5], 2500, 1, 8000⟩], 2⟩
      (.recv 1 (wire tellX (encOpts 0 tellX.opts))) = some (⟨[⟨0, 1, 6, [5], 4000, 0, 4050⟩], 2⟩, [.acked 1]) := by
  decide +kernel

/-- A case of `own_reply_stops_retransmission`: the server knows no path; what it sends. -/
example :
    ParentsFirst [] ∧ (∀ q, q ≠ -1 → ¬Denotes [] (-1) (uriPath askX) q) ∧
    serve 64 [] Dec.zero (List.replicate 8 0) 200 (encMsg askX) = .ok [[0x61, 0x84, 0, 7, 5]] ∧
    wstep sortedPQ (fun a b : Nat => a == b) Dec.zero ⟨[⟨0, 1, 7, [5], 2500, 0, 2600⟩], 1⟩ (.recv 1 [0x61, 0x84, 0, 7, 5]) =
      some (⟨[], 1⟩, [.acked 0]) := by
  refine ⟨?_, ?_, ?_⟩
  · intro pre e post h; simp at h
  · intro q _ h
    cases h with
    | step hf _ => obtain ⟨pre, post, h, -⟩ := hf; simp at h
  · decide +kernel

/-- A case of `empty_ack_ignored_partial`: the empty acknowledgement and a reset arrive in every round. -/
example :
    let P : PQ Nat := sortedPQ
    let same := fun a b : Nat => a == b
    let q1 : St Nat := ⟨[⟨0, 1, 7, [5], 2500, 0, 2600⟩], 1⟩
    let q2 : St Nat := ⟨[⟨0, 1, 7, [5], 2500, 1, 8000⟩], 1⟩
    let q3 : St Nat := ⟨[⟨0, 1, 7, [5], 2500, 2, 30000⟩], 1⟩
    let answers : List (WEv Nat) := [.recv 1 (encMsg ⟨1, 2, 0, 7, [], [], none⟩), .recv 1 (encMsg ⟨1, 3, 0, 7, [], [], none⟩)]
    wstep P same Dec.zero Retry.init (.sent 100 2500 1 (wire askX (encOpts 0 askX.opts))) = some (q1, [.queued 100 0 2500 1]) ∧
    wrun P same Dec.zero q1 (answers ++ List.replicate 10 (.service 3000)) = some (q2, [.sent 3000 0 1]) ∧
    wrun P same Dec.zero q2 (answers ++ List.replicate 10 (.service 20000)) = some (q3, [.sent 20000 0 1]) ∧
    wrun P same Dec.zero q3 (answers ++ List.replicate 10 (.service 40000)) = some (⟨[], 1⟩, [.sent 40000 0 1]) := by
  decide +kernel

end Verif.Props
