import Verif.Spec.NetworkMany
import Verif.Props.Network

/-! # C88 for any number of clients -/
namespace Verif.Props
open Verif.Model Verif.Spec Verif.Spec.Retry Verif.Proofs Verif.Proofs.Retry Verif.Model.Retry

variable {A B : Type} [DecidableEq B]

theorem ofClient_append {X : Type} (b : B) (l l' : List (B × X)) : ofClient b (l ++ l') = ofClient b l ++ ofClient b l' := by
  simp [ofClient]

theorem ofClient_own {X : Type} (b : B) (l : List X) : ofClient b (l.map (b, ·)) = l := by
  induction l with
  | nil => rfl
  | cons x l ih => simpa [ofClient] using ih

theorem ofClient_other {X : Type} {b b' : B} (h : b' ≠ b) (l : List X) : ofClient b (l.map (b', ·)) = [] := by
  induction l with
  | nil => rfl
  | cons x l ih => simpa [ofClient, h] using ih

theorem ofClient_at {X : Type} {b : B} {l : List (B × X)} {i : Nat} {x : X} (h : l[i]? = some (b, x)) :
    (ofClient b l)[(ofClient b (l.take i)).length]? = some x := by
  obtain ⟨hi, hx⟩ := List.getElem?_eq_some_iff.1 h
  have e : l = l.take i ++ (b, x) :: l.drop (i + 1) := by
    rw [← hx, ← List.drop_eq_getElem_cons hi, List.take_append_drop]
  have e2 : ofClient b l = ofClient b (l.take i) ++ x :: ofClient b (l.drop (i + 1)) := by
    conv => lhs; rw [e]
    rw [ofClient_append]
    simp [ofClient]
  rw [e2]
  simp

theorem netRun_one {C : NetCfg A} (s : NetSt A) (e : NetEv) : netRun C s [e] = netStep C s e := by
  rw [netRun]
  cases netStep C s e with
  | none => rfl
  | some r => simp [netRun]

theorem netRun_append {C : NetCfg A} (es es' : List NetEv) (s : NetSt A) :
    netRun C s (es ++ es') = (netRun C s es).bind fun r => (netRun C r.1 es').map fun q => (q.1, r.2 ++ q.2) := by
  induction es generalizing s with
  | nil => simp [netRun]
  | cons e es ih =>
    rw [List.cons_append, netRun, netRun]
    cases netStep C s e with
    | none => rfl
    | some r =>
      simp only [ih]
      cases netRun C r.1 es with
      | none => rfl
      | some q =>
        simp only [Option.bind_some, Option.map_some]
        cases netRun C q.1 es' <;> simp

/-- One event among many clients is, for each of them, the event it has to do with, or nothing. -/
theorem many_step_share {C : NetCfg A} {s s' : ManySt A B} {e : ManyEv B} {o : List (B × Out A)} (h : manyStep C s e = some (s', o))
    (b : B) : netRun C (partOf b s) (shareOf b s e) = some (partOf b s', ofClient b o) := by
  cases e with
  | request b' now rnd bytes =>
    simp only [manyStep, Option.map_eq_some_iff] at h
    obtain ⟨r, hr, h⟩ := h
    cases h
    by_cases hb : b' = b
    · subst hb
      simp only [shareOf, if_true, netRun_one, netStep, partOf, hr, Option.map_some, Client.set, ofClient_append, ofClient_own]
      simp [ofClient]
    · have hb' : ¬ b = b' := fun h => hb h.symm
      simp [shareOf, hb, netRun, partOf, Client.set, hb', ofClient_append, ofClient_other hb]
      simp [ofClient, hb]
  | service b' now =>
    simp only [manyStep, Option.map_eq_some_iff] at h
    obtain ⟨r, hr, h⟩ := h
    cases h
    by_cases hb : b' = b
    · subst hb
      simp only [shareOf, if_true, netRun_one, netStep, partOf, hr, Option.map_some, Client.set, ofClient_append, ofClient_own]
    · have hb' : ¬ b = b' := fun h => hb h.symm
      simp only [shareOf, if_neg hb, netRun, partOf, Client.set, if_neg hb', ofClient_append, ofClient_other hb, List.append_nil]
  | serverGets i junk jt jv =>
    simp only [manyStep] at h
    cases hu : s.up[i]? with
    | none =>
      rw [hu] at h
      cases h
      simp [shareOf, hu, netRun, ofClient]
    | some p =>
      obtain ⟨b', bytes⟩ := p
      rw [hu] at h
      simp only at h
      cases hv : serveVersion C.cap C.paths C.node C.text junk jt jv (decodeSteps bytes) bytes with
      | error e => rw [hv] at h; cases h
      | ok rs =>
        rw [hv] at h
        cases h
        by_cases hb : b' = b
        · subst hb
          simp only [shareOf, hu, Option.map_some, if_true, netRun_one, netStep, partOf, ofClient_at hu, hv, ofClient_append, ofClient_own]
          rfl
        · simp only [shareOf, hu, Option.map_some, Option.some.injEq, if_neg hb, netRun, partOf, ofClient_append, ofClient_other hb,
            List.append_nil]
          rfl
  | clientGets i junk =>
    simp only [manyStep] at h
    cases hu : s.down[i]? with
    | none =>
      rw [hu] at h
      cases h
      simp [shareOf, hu, netRun, ofClient]
    | some p =>
      obtain ⟨b', bytes⟩ := p
      rw [hu] at h
      simp only at h
      cases hv : Dec.processToDone (decodeSteps bytes) (Dec.fresh junk) ⟨bytes, 0, true⟩ with
      | error e => rw [hv] at h; cases h
      | ok q =>
        obtain ⟨d, c, evs⟩ := q
        rw [hv] at h
        simp only [Option.map_eq_some_iff] at h
        obtain ⟨r, hr, h⟩ := h
        cases h
        by_cases hb : b' = b
        · subst hb
          simp only [shareOf, hu, Option.map_some, if_true, netRun_one, netStep, partOf, ofClient_at hu, hv, hr, Client.set, ofClient_own]
        · have hb' : ¬ b = b' := fun h => hb h.symm
          simp only [shareOf, hu, Option.map_some, Option.some.injEq, if_neg hb, netRun, partOf, Client.set, if_neg hb', ofClient_other hb]

/-- C88 for any number of clients: whatever the others do and wherever their datagrams go, each client is exactly in the situation of a
client that has the server for itself.  So everything that is proved about one client and one server holds for each of many. -/
theorem many_clients {C : NetCfg A} (b : B) : ∀ (es : List (ManyEv B)) (s s' : ManySt A B) (o : List (B × Out A)),
    manyRun C s es = some (s', o) → netRun C (partOf b s) (share C b s es) = some (partOf b s', ofClient b o)
  | [], s, s', o, h => by
    simp only [manyRun, Option.some.injEq, Prod.mk.injEq] at h
    obtain ⟨rfl, rfl⟩ := h
    rfl
  | e :: es, s, s', o, h => by
    simp only [manyRun] at h
    cases h1 : manyStep C s e with
    | none => rw [h1] at h; cases h
    | some r =>
      obtain ⟨s1, o1⟩ := r
      rw [h1] at h
      simp only [Option.map_eq_some_iff] at h
      obtain ⟨⟨s2, o2⟩, h2, h⟩ := h
      cases h
      have k := many_clients b es s1 _ o2 h2
      simp only [share, h1, netRun_append, many_step_share h1 b, Option.bind_some, k, Option.map_some, ofClient_append]

theorem partOf_init (b : B) : partOf b (manyInit : ManySt A B) = netInit := rfl

theorem shareOf_ok {C : NetCfg A} {b : B} {s : ManySt A B} {e : ManyEv B} (h : ManyEvOk C e) : ∀ x ∈ shareOf b s e, NetEvOk C x := by
  intro x hx
  cases e with
  | request b' now rnd bytes =>
    rw [shareOf] at hx
    split at hx
    · rw [List.mem_singleton] at hx; subst hx; exact h
    · cases hx
  | service b' now =>
    rw [shareOf] at hx
    split at hx
    · rw [List.mem_singleton] at hx; subst hx; trivial
    · cases hx
  | serverGets i junk jt jv =>
    rw [shareOf] at hx
    split at hx
    · rw [List.mem_singleton] at hx; subst hx; exact h
    · cases hx
  | clientGets i junk =>
    rw [shareOf] at hx
    split at hx
    · rw [List.mem_singleton] at hx; subst hx; exact h
    · cases hx

theorem share_ok {C : NetCfg A} {b : B} : ∀ {es : List (ManyEv B)} {s : ManySt A B}, (∀ e ∈ es, ManyEvOk C e) →
    ∀ x ∈ share C b s es, NetEvOk C x
  | [], _, _ => by intro x hx; cases hx
  | e :: es, s, h => by
    intro x hx
    rw [share] at hx
    rcases List.mem_append.1 hx with hx | hx
    · exact shareOf_ok (h e (by simp)) x hx
    · cases h1 : manyStep C s e with
      | none => rw [h1] at hx; cases hx
      | some r => rw [h1] at hx; exact share_ok (fun e he => h e (by simp [he])) x hx

/-- The requests in the history of a client are its own. -/
theorem share_requests {C : NetCfg A} {b : B} {now rnd : Nat} {bytes : List UInt8} : ∀ {es : List (ManyEv B)} {s : ManySt A B},
    NetEv.request now rnd bytes ∈ share C b s es → ManyEv.request b now rnd bytes ∈ es
  | [], _, h => by cases h
  | e :: es, s, h => by
    rw [share] at h
    rcases List.mem_append.1 h with h | h
    · cases e with
      | request b' now' rnd' bytes' =>
        rw [shareOf] at h
        split at h
        · rename_i hb
          rw [List.mem_singleton] at h
          cases h
          rw [hb]; exact List.mem_cons_self
        · cases h
      | service b' now' => rw [shareOf] at h; split at h <;> simp at h
      | serverGets i junk jt jv => rw [shareOf] at h; split at h <;> simp at h
      | clientGets i junk => rw [shareOf] at h; split at h <;> simp at h
    · cases h1 : manyStep C s e with
      | none => rw [h1] at h; cases h
      | some r => rw [h1] at h; exact List.mem_cons_of_mem _ (share_requests h)

/-- C88 for any number of clients: everything a client is told is the answer to a request that this client has sent, complete and
unchanged; never the answer to another client. -/
theorem many_told_own {C : NetCfg A} (hC : NetCfgOk C) (es : List (ManyEv B)) (hok : ∀ e ∈ es, ManyEvOk C e) (s : ManySt A B)
    (o : List (B × Out A)) (h : manyRun C manyInit es = some (s, o)) (b : B) (evs : List Event) (he : evs ∈ (s.clients b).told) :
    ∃ now rnd bytes m r, ManyEv.request b now rnd bytes ∈ es ∧ Encodes m bytes ∧ AnswerTo C.paths C.node C.text m r ∧ ToldOf r evs := by
  have k := many_clients b es _ _ _ h
  rw [partOf_init] at k
  obtain ⟨m, r, bytes, ⟨now, rnd, h1⟩, h2, h3, h4⟩ := told_are_answers_partial hC _ (share_ok hok) _ _ k evs he
  exact ⟨now, rnd, bytes, m, r, share_requests h1, h2, h3, h4⟩

/-- C88 for any number of clients: a request of any client that arrives at the server and whose answer arrives at this client is
answered; nothing else is told to anyone. -/
theorem many_answer_reaches {C : NetCfg A} (hC : NetCfgOk C) (s : ManySt A B) (i : Nat) (b : B) (m r : Msg) (bytes : List UInt8)
    (hm : Encodes m bytes) (hi : s.up[i]? = some (b, bytes)) (hr : AnswerTo C.paths C.node C.text m r) (sj cj : Dec)
    (hsj : sj.tbuf.length = 8) (hcj : cj.tbuf.length = 8) (jt jv : List UInt8) (hjt : jt.length = 8)
    (hcap : 6 + m.token.length + C.text.length ≤ C.cap) :
    ∃ s' o evs, manyRun C s [.serverGets i sj jt jv, .clientGets s.down.length cj] = some (s', o) ∧
      (s'.clients b).told = (s.clients b).told ++ [evs] ∧ ToldOf r evs ∧ ∀ b', b' ≠ b → s'.clients b' = s.clients b' := by
  obtain ⟨rs, k1, k2, -⟩ := served_wire hC hm hcap sj hsj jt hjt jv
  obtain ⟨w, evs, hw, hevs, -⟩ := client_step hC (s := ⟨(s.clients b).retry, [], [], [encMsg r], []⟩) (i := 0)
    (answer_ok hC hm.1 hr).1 rfl cj hcj
  obtain ⟨d, c, evs', hd, hevs'⟩ := told_wire (answer_ok hC hm.1 hr).1 cj hcj
  have hat : (s.down ++ [(b, encMsg r)])[s.down.length]? = some (b, encMsg r) := by simp
  simp only [manyRun, manyStep, hi, k1, k2 r hr, List.map_cons, List.map_nil, hat, hd, hw, Option.map_some]
  refine ⟨_, _, evs', rfl, by simp [Client.set], hevs', fun b' hb' => by simp [Client.set, hb']⟩

/-- What fails among many clients fails for one of them. -/
theorem many_step_none {C : NetCfg A} {s : ManySt A B} {e : ManyEv B} (h : manyStep C s e = none) :
    ∃ b x, shareOf b s e = [x] ∧ netStep C (partOf b s) x = none := by
  cases e with
  | request b now rnd bytes =>
    simp only [manyStep, Option.map_eq_none_iff] at h
    exact ⟨b, .request now rnd bytes, by simp only [shareOf, if_true], by simp only [netStep, partOf, h, Option.map_none]⟩
  | service b now =>
    simp only [manyStep, Option.map_eq_none_iff] at h
    exact ⟨b, .service now, by simp only [shareOf, if_true], by simp only [netStep, partOf, h, Option.map_none]⟩
  | serverGets i junk jt jv =>
    simp only [manyStep] at h
    cases hu : s.up[i]? with
    | none => rw [hu] at h; cases h
    | some p =>
      obtain ⟨b, bytes⟩ := p
      rw [hu] at h
      simp only at h
      refine ⟨b, .serverGets (ofClient b (s.up.take i)).length junk jt jv, by simp only [shareOf, hu, Option.map_some, if_true], ?_⟩
      simp only [netStep, partOf, ofClient_at hu]
      cases hv : serveVersion C.cap C.paths C.node C.text junk jt jv (decodeSteps bytes) bytes with
      | error e => rfl
      | ok rs => rw [hv] at h; cases h
  | clientGets i junk =>
    simp only [manyStep] at h
    cases hu : s.down[i]? with
    | none => rw [hu] at h; cases h
    | some p =>
      obtain ⟨b, bytes⟩ := p
      rw [hu] at h
      simp only at h
      refine ⟨b, .clientGets (ofClient b (s.down.take i)).length junk, by simp only [shareOf, hu, Option.map_some, if_true], ?_⟩
      simp only [netStep, partOf, ofClient_at hu]
      cases hv : Dec.processToDone (decodeSteps bytes) (Dec.fresh junk) ⟨bytes, 0, true⟩ with
      | error e => rfl
      | ok q =>
        rw [hv] at h
        simp only [Option.map_eq_none_iff] at h
        simp only [h, Option.map_none]

/-- C88 for any number of clients: after any history, an event can fail only when a client sends a request whose own `Retry` tracks ten
messages already. -/
theorem many_fails_only_full {C : NetCfg A} (hC : NetCfgOk C) (es : List (ManyEv B)) (hok : ∀ e ∈ es, ManyEvOk C e) (s : ManySt A B)
    (o : List (B × Out A)) (h : manyRun C manyInit es = some (s, o)) (e : ManyEv B) (he : ManyEvOk C e) (hn : manyStep C s e = none) :
    ∃ b now rnd bytes m, e = .request b now rnd bytes ∧ Encodes m bytes ∧ m.type = 0 ∧ 10 ≤ (s.clients b).retry.q.length := by
  obtain ⟨b, x, hx, hn'⟩ := many_step_none hn
  have k := many_clients b es _ _ _ h
  rw [partOf_init] at k
  obtain ⟨now, rnd, bytes, m, rfl, h2, h3, h4⟩ := net_fails_only_full hC _ (share_ok hok) _ _ k x (shareOf_ok he x (by rw [hx]; simp)) hn'
  refine ⟨b, now, rnd, bytes, m, ?_, h2, h3, h4⟩
  cases e with
  | request b' now' rnd' bytes' =>
    rw [shareOf] at hx
    split at hx
    · rename_i hb
      cases hx
      rw [hb]
    · cases hx
  | service b' now' => rw [shareOf] at hx; split at hx <;> simp at hx
  | serverGets i junk jt jv => rw [shareOf] at hx; split at hx <;> simp at hx
  | clientGets i junk => rw [shareOf] at hx; split at hx <;> simp at hx

theorem mem_ofClient {X : Type} {b : B} {x : X} {l : List (B × X)} : x ∈ ofClient b l ↔ (b, x) ∈ l := by
  simp only [ofClient, List.mem_filterMap]
  constructor
  · rintro ⟨⟨b', y⟩, h1, h2⟩
    split at h2
    · rename_i hb
      cases h2
      rw [← hb]; exact h1
    · cases h2
  · intro h
    exact ⟨_, h, by simp⟩

/-- C88 for any number of clients: once the answer to a confirmable request has arrived at its client, this client does not send the
request again, whatever the network delivers later, provided this client has no other confirmable request with the same message id and token.
Requests of other clients with the same message id and token make no difference. -/
theorem many_answered_not_repeated {C : NetCfg A} (hC : NetCfgOk C) (hsame : C.same C.server C.server = true) (b : B)
    (es1 es2 es3 : List (ManyEv B)) (s1 s2 s3 s4 s5 : ManySt A B) (tr1 o2 tr3 o4 tr5 : List (B × Out A)) (now rnd : Nat)
    (bytes : List UInt8) (m r : Msg) (i : Nat) (junk : Dec) (hok : ∀ e ∈ es1 ++ es2, ManyEvOk C e) (hm : Encodes m bytes) (ht : m.type = 0)
    (hother : ∀ t n x m', ManyEv.request b t n x ∈ es1 ++ es2 → Encodes m' x → m'.type = 0 → m'.mid = m.mid → m'.token ≠ m.token)
    (h1 : manyRun C manyInit es1 = some (s1, tr1)) (h2 : manyStep C s1 (.request b now rnd bytes) = some (s2, o2))
    (h3 : manyRun C s2 es2 = some (s3, tr3)) (hr : AnswerTo C.paths C.node C.text m r) (hi : s3.down[i]? = some (b, encMsg r))
    (h4 : manyStep C s3 (.clientGets i junk) = some (s4, o4)) (h5 : manyRun C s4 es3 = some (s5, tr5)) :
    ∃ id, ofClient b o2 = [.queued now id (rnd % 4096) C.server] ∧ ∀ t a, (b, Out.sent t id a) ∉ tr5 := by
  have k1 := many_clients b es1 _ _ _ h1
  have k2 := many_step_share h2 b
  have k3 := many_clients b es2 _ _ _ h3
  have k4 := many_step_share h4 b
  have k5 := many_clients b es3 _ _ _ h5
  rw [shareOf, if_pos rfl, netRun_one] at k2
  rw [shareOf, if_pos (by rw [hi]; rfl), netRun_one] at k4
  rw [partOf_init] at k1
  obtain ⟨id, g1, g2⟩ := answered_not_repeated hC hsame _ _ _ _ _ _ _ _ _ _ _ _ _ now rnd bytes m r _ junk
    (fun e he => by
      rcases List.mem_append.1 he with he | he
      · exact share_ok (fun e he => hok e (List.mem_append_left _ he)) e he
      · exact share_ok (fun e he => hok e (List.mem_append_right _ he)) e he) hm ht
    (fun t n x m' he => by
      refine hother t n x m' ?_
      rcases List.mem_append.1 he with he | he
      · exact List.mem_append_left _ (share_requests he)
      · exact List.mem_append_right _ (share_requests he)) k1 k2 k3 hr (ofClient_at hi) k4 k5
  exact ⟨id, g1, fun t a h => g2 t a (mem_ofClient.2 h)⟩

def manyStory : List (ManyEv Nat) := [.request 7 100 2500 (encMsg askX), .request 8 200 2000 (encMsg askX),
  .serverGets 1 Dec.zero (List.replicate 8 0) [], .clientGets 0 Dec.zero, .service 7 3000, .service 8 3000]

-- two clients send the same request, with the same message id and token; only the one of the second client arrives, and only this client is
-- told the answer and sends no more
example :
    (manyRun netExample manyInit manyStory).map (fun r => r.1.up.map (·.1)) = some [7, 8, 7] ∧
    (manyRun netExample manyInit manyStory).map (fun r => r.1.down) = some [(8, encMsg (textReply askX [118]))] ∧
    (manyRun netExample manyInit manyStory).map (fun r => ((r.1.clients 7).told, (r.1.clients 8).told)) =
      some ([], [delivery (textReply askX [118])]) ∧
    (manyRun netExample manyInit manyStory).map (fun r => r.2) =
      some [(7, .queued 100 0 2500 1), (8, .queued 200 0 2000 1), (8, .acked 0), (7, .sent 3000 0 1)] := by
  decide +kernel

end Verif.Props
