import Verif.Spec.Network
import Verif.Props.ServerAny
import Verif.Props.Exchange
import Verif.Props.Retry
import Verif.Props.ReadBack

/-! # C88: a client and a server over a network that loses, repeats, delays and reorders -/
namespace Verif.Props
open Verif.Model Verif.Spec Verif.Spec.Retry Verif.Proofs Verif.Proofs.Retry Verif.Model.Retry

variable {A : Type}

theorem wire_tokenClaim {m : Msg} (hm : m.Ok) (ob : List UInt8) : tokenClaim (wire m ob) = m.token.length ∧ tokenOf (wire m ob) = m.token := by
  have h : tokenClaim (wire m ob) = m.token.length := by
    obtain ⟨h1, h2, h3, h4, h5, -⟩ := hm
    simp [tokenClaim, wire, encHeader]; omega
  refine ⟨h, ?_⟩
  rw [tokenOf, h]
  simp [wire, encHeader]

theorem wire_ackHead {m : Msg} (hm : m.Ok) (ob : List UInt8) (code : Nat) (hc : code < 256) (os : List Opt) (p : Option (List UInt8)) :
    ackHead (wire m ob) (UInt8.ofNat code) = encHeader { m with type := 2, code := code, opts := os, payload := p } := by
  obtain ⟨h1, h2, h3, h4, h5, -⟩ := hm
  have : (64 * m.version + 16 * m.type + m.token.length) % 256 / 64 = m.version ∧
      (64 * m.version + 16 * m.type + m.token.length) % 256 % 16 = m.token.length := by omega
  simp [ackHead, wire, encHeader, this.1, this.2]

/-- What the server sends for an encoded message. -/
theorem served_wire {C : NetCfg A} (hC : NetCfgOk C) {m : Msg} {bytes : List UInt8} (he : Encodes m bytes)
    (hcap : 6 + m.token.length + C.text.length ≤ C.cap) (junk : Dec) (hj : junk.tbuf.length = 8) (jt : List UInt8) (hjt : jt.length = 8)
    (jv : List UInt8) :
    ∃ rs, serveVersion C.cap C.paths C.node C.text junk jt jv (decodeSteps bytes) bytes = .ok rs ∧
      (∀ r, AnswerTo C.paths C.node C.text m r → rs = [encMsg r]) ∧
      ((∀ r, ¬ AnswerTo C.paths C.node C.text m r) → rs = []) := by
  obtain ⟨hm, ob, hob, hb⟩ := he
  obtain ⟨hpf, hid, ht, -⟩ := hC
  have hb' : bytes = wire m ob := hb
  clear hb
  subst hb'
  obtain ⟨hk, hp⟩ := path_of_message m hm ob hob
  obtain ⟨hk1, hk2⟩ := wire_tokenClaim hm ob
  obtain ⟨k1, k2, k3⟩ := any_datagram_version_partial (wire m ob) hk (by rw [hk1]; exact hcap) hpf hid junk hj jt hjt jv
    (decodeSteps (wire m ob)) (Nat.le_refl _) (text := C.text)
  rw [hp] at k1 k2 k3
  rw [hk2] at k1 k3
  have e1 : ackHead (wire m ob) 0x45 ++ m.token ++ 0xC0 :: 0xFF :: C.text = encMsg (textReply m C.text) := by
    have := wire_ackHead hm ob 0x45 (by omega) [⟨12, []⟩] (some C.text)
    rw [show (0x45 : UInt8) = UInt8.ofNat 0x45 from rfl, this]
    simp [encMsg, textReply, encOpts, encPayload, optHeader, nibble, extBytes]
  have e2 : ackHead (wire m ob) 0x84 ++ m.token = encMsg (replyTo m 0x84) := by
    have := wire_ackHead hm ob 0x84 (by omega) [] none
    rw [show (0x84 : UInt8) = UInt8.ofNat 0x84 from rfl, this]
    simp [encMsg, replyTo, encOpts, encPayload]
  rw [e1] at k1
  rw [e2] at k3
  by_cases hd : ∃ q, q ≠ -1 ∧ Denotes C.paths (-1) (uriPath m) q
  · obtain ⟨q, hq, hd⟩ := hd
    by_cases hqi : q = C.node
    · subst hqi
      refine ⟨_, k1 hd, ?_, fun h => absurd (Or.inl ⟨hd, rfl⟩) (h _)⟩
      rintro r (⟨-, rfl⟩ | ⟨hn, -⟩)
      · rfl
      · exact absurd hd (hn _ hq)
    · refine ⟨_, k2 ⟨q, hq, hqi, hd⟩, ?_, fun _ => rfl⟩
      rintro r (⟨hd', rfl⟩ | ⟨hn, -⟩)
      · have h1 := uri_path_found hpf hd
        have h2 := uri_path_found hpf hd'
        exact absurd (h1.symm.trans h2) hqi
      · exact absurd hd (hn _ hq)
  · have hn : ∀ q, q ≠ -1 → ¬ Denotes C.paths (-1) (uriPath m) q := fun q hq hd' => hd ⟨q, hq, hd'⟩
    refine ⟨_, k3 hn, ?_, fun h => absurd (Or.inr ⟨hn, rfl⟩) (h _)⟩
    rintro r (⟨hd', rfl⟩ | ⟨-, rfl⟩)
    · exact absurd hd' (hn _ hid)
    · rfl

theorem answer_ok {C : NetCfg A} (hC : NetCfgOk C) {m r : Msg} (hm : m.Ok) (h : AnswerTo C.paths C.node C.text m r) :
    r.Ok ∧ r.type = 2 ∧ r.mid = m.mid ∧ r.token = m.token := by
  rcases h with ⟨-, rfl⟩ | ⟨-, rfl⟩
  · exact ⟨textReply_ok hm hC.2.2.1, rfl, rfl, rfl⟩
  · exact ⟨replyTo_ok hm (by omega), rfl, rfl, rfl⟩

/-- The report tells of the message `r`: `r` can be read back from it, and unless `r` is a header only, it consists of exactly the
calls for `r`. -/
def ToldOf (r : Msg) (evs : List Event) : Prop :=
  readBack evs = some r ∧ (r.token ≠ [] ∨ r.opts ≠ [] ∨ r.payload ≠ none → evs = delivery r)

/-- What the client is told of an encoded message. -/
theorem told_wire {r : Msg} (hr : r.Ok) (junk : Dec) (hj : junk.tbuf.length = 8) :
    ∃ d c evs, Dec.processToDone (decodeSteps (encMsg r)) (Dec.fresh junk) ⟨encMsg r, 0, true⟩ = .ok (d, c, evs) ∧ ToldOf r evs := by
  have hob := isOpts_encOpts 0 r.opts hr.2.2.2.2.2.1
  obtain ⟨N, hN, h⟩ := message_read_back r hr _ hob (Dec.fresh junk) hj (.inl rfl)
  rw [wire_encMsg] at hN h
  obtain ⟨d, c, evs, h1, h2⟩ := h (decodeSteps (encMsg r)) (by rw [decodeSteps]; omega)
  refine ⟨d, c, evs, h1, h2, fun hne => ?_⟩
  obtain ⟨N', d', hN', -, h'⟩ := message_delivered_partial r hr junk hj (.inr hne)
  rw [h' _ (by rw [decodeSteps]; omega)] at h1
  simp only [Except.ok.injEq, Prod.mk.injEq] at h1
  exact h1.2.2.symm

/-- What holds after any history. -/
structure NetInv (C : NetCfg A) (s : NetSt A) (es : List NetEv) : Prop where
  up : ∀ b ∈ s.up, Requested es b
  kept : ∀ p ∈ s.kept, Requested es p.2
  down : ∀ b ∈ s.down, ∃ m r bytes, Requested es bytes ∧ Encodes m bytes ∧ AnswerTo C.paths C.node C.text m r ∧ b = encMsg r
  told : ∀ evs ∈ s.told, ∃ m r bytes, Requested es bytes ∧ Encodes m bytes ∧ AnswerTo C.paths C.node C.text m r ∧ ToldOf r evs

theorem requested_mono {es es' : List NetEv} {b : List UInt8} (h : Requested es b) : Requested (es ++ es') b := by
  obtain ⟨n, r, h⟩ := h; exact ⟨n, r, List.mem_append_left _ h⟩

theorem NetInv.more {C : NetCfg A} {s : NetSt A} {es : List NetEv} (h : NetInv C s es) (es' : List NetEv) : NetInv C s (es ++ es') where
  up b hb := requested_mono (h.up b hb)
  kept p hp := requested_mono (h.kept p hp)
  down b hb := by obtain ⟨m, r, bytes, h1, h2⟩ := h.down b hb; exact ⟨m, r, bytes, requested_mono h1, h2⟩
  told e he := by obtain ⟨m, r, bytes, h1, h2⟩ := h.told e he; exact ⟨m, r, bytes, requested_mono h1, h2⟩

theorem keptOf_mem {kept : List (Nat × List UInt8)} {id : Nat} {b : List UInt8} (h : keptOf kept id = some b) : (id, b) ∈ kept := by
  unfold keptOf at h
  cases hf : kept.find? fun p => p.1 == id with
  | none => rw [hf] at h; cases h
  | some p =>
    rw [hf] at h
    cases h
    have h1 := List.mem_of_find?_eq_some hf
    have h2 := List.find?_some hf
    simp at h2
    rw [← h2]; exact h1

theorem NetInv.step {C : NetCfg A} (hC : NetCfgOk C) {s s' : NetSt A} {es : List NetEv} {e : NetEv} {o : List (Out A)} (h : NetInv C s es)
    (hp : ∀ b, Requested es b → Proper C b) (he : NetEvOk C e) (hs : netStep C s e = some (s', o)) : NetInv C s' (es ++ [e]) := by
  have hm := h.more [e]
  cases e with
  | request now rnd bytes =>
    simp only [netStep, Option.map_eq_some_iff] at hs
    obtain ⟨r, -, hs⟩ := hs
    cases hs
    have hreq : Requested (es ++ [.request now rnd bytes]) bytes := ⟨now, rnd, by simp⟩
    refine ⟨fun b hb => ?_, fun p hp' => ?_, hm.down, hm.told⟩
    · rcases List.mem_append.1 hb with hb | hb
      · exact hm.up b hb
      · rw [List.mem_singleton] at hb; subst hb; exact hreq
    · rcases List.mem_append.1 hp' with hb | hb
      · exact hm.kept p hb
      · obtain ⟨x, -, hx⟩ := List.mem_filterMap.1 hb
        cases x <;> simp [takenOver] at hx
        subst hx; exact hreq
  | service now =>
    simp only [netStep, Option.map_eq_some_iff] at hs
    obtain ⟨r, -, hs⟩ := hs
    cases hs
    refine ⟨fun b hb => ?_, hm.kept, hm.down, hm.told⟩
    rcases List.mem_append.1 hb with hb | hb
    · exact hm.up b hb
    · obtain ⟨x, -, hx⟩ := List.mem_filterMap.1 hb
      cases x <;> simp [sentAgain] at hx
      exact hm.kept _ (keptOf_mem hx)
  | serverGets i junk jt jv =>
    simp only [netStep] at hs
    cases hu : s.up[i]? with
    | none => rw [hu] at hs; cases hs; exact hm
    | some bytes =>
      rw [hu] at hs
      have hreq := h.up bytes (List.mem_of_getElem? hu)
      obtain ⟨m, hm1, hm2⟩ := hp _ hreq
      obtain ⟨rs, k1, k2, k3⟩ := served_wire hC hm1 hm2 junk he.1 jt he.2 jv
      simp only [k1] at hs
      cases hs
      refine ⟨hm.up, hm.kept, fun b hb => ?_, hm.told⟩
      rcases List.mem_append.1 hb with hb | hb
      · exact hm.down b hb
      · by_cases hr : ∃ r, AnswerTo C.paths C.node C.text m r
        · obtain ⟨r, hr⟩ := hr
          rw [k2 r hr, List.mem_singleton] at hb
          exact ⟨m, r, bytes, requested_mono hreq, hm1, hr, hb⟩
        · rw [k3 fun r hr' => hr ⟨r, hr'⟩] at hb; cases hb
  | clientGets i junk =>
    simp only [netStep] at hs
    cases hu : s.down[i]? with
    | none => rw [hu] at hs; cases hs; exact hm
    | some b =>
      rw [hu] at hs
      obtain ⟨m, r, bytes, k1, k2, k3, rfl⟩ := h.down b (List.mem_of_getElem? hu)
      obtain ⟨d, c, evs, hd, hevs⟩ := told_wire (answer_ok hC k2.1 k3).1 junk he
      simp only [hd, Option.map_eq_some_iff] at hs
      obtain ⟨w, -, hs⟩ := hs
      cases hs
      refine ⟨hm.up, hm.kept, hm.down, fun evs hev => ?_⟩
      rcases List.mem_append.1 hev with hev | hev
      · exact hm.told evs hev
      · rw [List.mem_singleton] at hev; subst hev
        exact ⟨m, r, bytes, requested_mono k1, k2, k3, hevs⟩

theorem requested_nil {b : List UInt8} (h : Requested [] b) : False := by
  obtain ⟨_, _, h⟩ := h; cases h

theorem requested_proper {C : NetCfg A} {es : List NetEv} (h : ∀ e ∈ es, NetEvOk C e) : ∀ b, Requested es b → Proper C b := by
  rintro b ⟨n, r, hm⟩
  exact h _ hm

theorem NetInv.run {C : NetCfg A} (hC : NetCfgOk C) : ∀ (es es0 : List NetEv) (s s' : NetSt A) (tr : List (Out A)), NetInv C s es0 →
    (∀ e ∈ es0 ++ es, NetEvOk C e) → netRun C s es = some (s', tr) → NetInv C s' (es0 ++ es)
  | [], es0, s, s', tr, h, _, hs => by
    simp only [netRun, Option.some.injEq, Prod.mk.injEq] at hs
    obtain ⟨rfl, -⟩ := hs
    simpa using h
  | e :: es, es0, s, s', tr, h, hok, hs => by
    simp only [netRun] at hs
    cases h1 : netStep C s e with
    | none => rw [h1] at hs; cases hs
    | some r =>
      obtain ⟨s1, o⟩ := r
      rw [h1] at hs
      simp only [Option.map_eq_some_iff] at hs
      obtain ⟨⟨s2, o2⟩, h2, hs⟩ := hs
      cases hs
      have k := h.step hC (requested_proper fun e he => hok e (by simp [he])) (hok e (by simp)) h1
      have := NetInv.run hC es (es0 ++ [e]) s1 _ o2 k (by simpa using hok) h2
      simpa using this

theorem NetInv.init (C : NetCfg A) : NetInv C netInit [] := by
  constructor <;> intro x hx <;> cases hx

/-- C88: whatever the network does, everything the client is told is the answer to one of its requests, complete and
unchanged. -/
theorem told_are_answers_partial {C : NetCfg A} (hC : NetCfgOk C) (es : List NetEv) (hok : ∀ e ∈ es, NetEvOk C e) (s : NetSt A)
    (tr : List (Out A)) (h : netRun C netInit es = some (s, tr)) (evs : List Event) (he : evs ∈ s.told) :
    ∃ m r bytes, Requested es bytes ∧ Encodes m bytes ∧ AnswerTo C.paths C.node C.text m r ∧ ToldOf r evs := by
  have := NetInv.run hC es [] netInit s tr (NetInv.init C) (by simpa using hok) h
  simpa using this.told evs he

theorem net_inv {C : NetCfg A} (hC : NetCfgOk C) {es : List NetEv} (hok : ∀ e ∈ es, NetEvOk C e) {s : NetSt A}
    {tr : List (Out A)} (h : netRun C netInit es = some (s, tr)) : NetInv C s es := by
  have := NetInv.run hC es [] netInit s tr (NetInv.init C) (by simpa using hok) h
  simpa using this

theorem encMsg_encodes {r : Msg} (hr : r.Ok) : Encodes r (encMsg r) := ⟨hr, _, isOpts_encOpts 0 r.opts hr.2.2.2.2.2.1, rfl⟩

/-- One datagram at the client. -/
theorem client_step {C : NetCfg A} (hC : NetCfgOk C) {s : NetSt A} {i : Nat} {r : Msg} (hr : r.Ok) (hi : s.down[i]? = some (encMsg r))
    (junk : Dec) (hj : junk.tbuf.length = 8) :
    ∃ w evs, wstep C.P C.same C.retryJunk s.retry (.recv C.server (encMsg r)) = some w ∧ ToldOf r evs ∧
      ∀ t, netStep C { s with told := t } (.clientGets i junk) = some ({ s with retry := w.1, told := t ++ [evs] }, w.2) := by
  obtain ⟨d, c, evs, hd, hevs⟩ := told_wire hr junk hj
  have hw : ∃ w, wstep C.P C.same C.retryJunk s.retry (.recv C.server (encMsg r)) = some w := by
    have := readHead_wire hr (encOpts 0 r.opts) C.retryJunk hC.2.2.2
    have e : wire r (encOpts 0 r.opts) = encMsg r := rfl
    rw [e] at this
    simp only [wstep, this]
    exact ⟨_, rfl⟩
  obtain ⟨w, hw⟩ := hw
  refine ⟨w, evs, hw, hevs, fun t => ?_⟩
  simp only [netStep, hi, hd, hw, Option.map_some]

/-- One datagram at the server. -/
theorem server_step {C : NetCfg A} (hC : NetCfgOk C) {s : NetSt A} {i : Nat} {m r : Msg} {bytes : List UInt8} (hm : Encodes m bytes)
    (hcap : 6 + m.token.length + C.text.length ≤ C.cap) (hr : AnswerTo C.paths C.node C.text m r) (hi : s.up[i]? = some bytes)
    (junk : Dec) (hj : junk.tbuf.length = 8) (jt jv : List UInt8) (hjt : jt.length = 8) :
    netStep C s (.serverGets i junk jt jv) = some ({ s with down := s.down ++ [encMsg r] }, []) := by
  obtain ⟨rs, k1, k2, -⟩ := served_wire hC hm hcap junk hj jt hjt jv
  simp only [netStep, hi, k1, k2 r hr]

/-- C88: in any state, if a request that has an answer arrives at the server and the datagram sent in reply arrives at the
client, the client is told the answer. -/
theorem answer_reaches_partial {C : NetCfg A} (hC : NetCfgOk C) (s : NetSt A) (i : Nat) (m r : Msg) (bytes : List UInt8) (hm : Encodes m bytes)
    (hi : s.up[i]? = some bytes) (hr : AnswerTo C.paths C.node C.text m r) (sj cj : Dec) (jt jv : List UInt8)
    (hs : NetEvOk C (.serverGets i sj jt jv)) (hc : NetEvOk C (.clientGets s.down.length cj))
    (hcap : 6 + m.token.length + C.text.length ≤ C.cap) :
    ∃ s' o evs, netRun C s [.serverGets i sj jt jv, .clientGets s.down.length cj] = some (s', o) ∧ s'.told = s.told ++ [evs] ∧ ToldOf r evs := by
  have h1 := server_step hC hm hcap hr hi sj hs.1 jt jv hs.2
  obtain ⟨w, evs, -, hevs, h2⟩ := client_step hC (s := { s with down := s.down ++ [encMsg r] }) (i := s.down.length)
    (answer_ok hC hm.1 hr).1 (by simp) cj hc
  have h2 := h2 s.told
  simp only [netRun, h1, h2]
  exact ⟨_, _, evs, rfl, rfl, hevs⟩

/-- C88: after any history, an event can fail only when a request is sent and `Retry` tracks ten messages already. -/
theorem net_fails_only_full {C : NetCfg A} (hC : NetCfgOk C) (es : List NetEv) (hok : ∀ e ∈ es, NetEvOk C e) (s : NetSt A)
    (tr : List (Out A)) (h : netRun C netInit es = some (s, tr)) (e : NetEv) (he : NetEvOk C e) (hn : netStep C s e = none) :
    ∃ now rnd bytes m, e = .request now rnd bytes ∧ Encodes m bytes ∧ m.type = 0 ∧ 10 ≤ s.retry.q.length := by
  have hi := net_inv hC hok h
  cases e with
  | request now rnd bytes =>
    obtain ⟨m, hm, -⟩ := he
    obtain ⟨hmo, ob, hob, hb⟩ := hm
    have hb' : bytes = wire m ob := hb
    refine ⟨now, rnd, bytes, m, rfl, ⟨hmo, ob, hob, hb⟩, ?_⟩
    simp only [netStep, Option.map_eq_none_iff, wstep, hb', readHead_wire hmo ob C.retryJunk hC.2.2.2, Retry.step, onSent] at hn
    by_cases ht : (headOf m).type == Header.confirmable
    · simp only [ht, if_true, Retry.enqueue] at hn
      refine ⟨(headOf_con hmo).1 (by simpa using ht), ?_⟩
      by_cases hl : s.retry.q.length < 10
      · rw [if_pos hl] at hn; cases hn
      · omega
    · simp only [ht] at hn; cases hn
  | service now => simp [netStep, wstep, Retry.step] at hn
  | serverGets i junk jt jv =>
    exfalso
    cases hu : s.up[i]? with
    | none => simp [netStep, hu] at hn
    | some bytes =>
      obtain ⟨m, hm1, hm2⟩ := requested_proper hok _ (hi.up bytes (List.mem_of_getElem? hu))
      obtain ⟨rs, k1, -⟩ := served_wire hC hm1 hm2 junk he.1 jt he.2 jv
      simp [netStep, hu, k1] at hn
  | clientGets i junk =>
    exfalso
    cases hu : s.down[i]? with
    | none => simp [netStep, hu] at hn
    | some b =>
      obtain ⟨m, r, bytes, k1, k2, k3, rfl⟩ := hi.down b (List.mem_of_getElem? hu)
      obtain ⟨w, evs, -, -, h2⟩ := client_step hC (answer_ok hC k2.1 k3).1 hu junk he
      have h2 := h2 s.told
      rw [h2] at hn; cases hn

/-- C88 fails: nobody notices repetitions.  However often the same request arrives, the server answers it each time. -/
theorem copies_answered_again {C : NetCfg A} (hC : NetCfgOk C) (s : NetSt A) (i : Nat) (m r : Msg) (bytes : List UInt8)
    (hm : Encodes m bytes) (hi : s.up[i]? = some bytes) (hr : AnswerTo C.paths C.node C.text m r)
    (hcap : 6 + m.token.length + C.text.length ≤ C.cap) (sj : Dec) (jt jv : List UInt8) (hs : NetEvOk C (.serverGets i sj jt jv)) (n : Nat) :
    netRun C s (List.replicate n (.serverGets i sj jt jv)) = some ({ s with down := s.down ++ List.replicate n (encMsg r) }, []) := by
  induction n generalizing s with
  | zero => simp [netRun]
  | succ n ih =>
    rw [List.replicate_succ, netRun, server_step hC hm hcap hr hi sj hs.1 jt jv hs.2]
    simp only
    rw [ih { s with down := s.down ++ [encMsg r] } hi]
    simp [List.replicate_succ]

/-- C88 fails: and however often the same answer arrives, the client is told it each time. -/
theorem copies_told_again {C : NetCfg A} (hC : NetCfgOk C) (s : NetSt A) (i : Nat) (r : Msg) (hr : r.Ok) (hi : s.down[i]? = some (encMsg r))
    (cj : Dec) (hc : NetEvOk C (.clientGets i cj)) (n : Nat) :
    ∃ s' o evs, netRun C s (List.replicate n (.clientGets i cj)) = some (s', o) ∧ s'.told = s.told ++ List.replicate n evs ∧
      ToldOf r evs := by
  obtain ⟨d, c, evs, hd, hevs⟩ := told_wire hr cj hc
  suffices h : ∃ s' o, netRun C s (List.replicate n (.clientGets i cj)) = some (s', o) ∧ s'.told = s.told ++ List.replicate n evs by
    obtain ⟨s', o, h1, h2⟩ := h
    exact ⟨s', o, evs, h1, h2, hevs⟩
  induction n generalizing s with
  | zero => exact ⟨s, [], rfl, by simp⟩
  | succ n ih =>
    obtain ⟨w, hw⟩ := (client_step hC hr hi cj hc)
    obtain ⟨evs', hw, -, -⟩ := hw
    have h2 : netStep C s (.clientGets i cj) = some ({ s with retry := w.1, told := s.told ++ [evs] }, w.2) := by
      simp only [netStep, hi, hd, hw, Option.map_some]
    rw [List.replicate_succ, netRun, h2]
    simp only
    obtain ⟨s', o, h3, h4⟩ := ih { s with retry := w.1, told := s.told ++ [evs] } hi
    rw [h3]
    refine ⟨s', _, rfl, ?_⟩
    rw [h4]
    simp [List.replicate_succ]

/-! ## Repetition by the client -/

/-- What `Retry` sees of an event. -/
def seenBy (C : NetCfg A) (s : NetSt A) : NetEv → List (WEv A)
  | .request now rnd bytes => [.sent now rnd C.server bytes]
  | .service now => [.service now]
  | .serverGets .. => []
  | .clientGets i _ =>
    match s.down[i]? with
    | none => []
    | some b => [.recv C.server b]

theorem step_seen {C : NetCfg A} {s s' : NetSt A} {e : NetEv} {o : List (Out A)} (h : netStep C s e = some (s', o)) :
    wrun C.P C.same C.retryJunk s.retry (seenBy C s e) = some (s'.retry, o) := by
  cases e with
  | request now rnd bytes =>
    simp only [netStep, Option.map_eq_some_iff] at h
    obtain ⟨r, h, hs⟩ := h
    cases hs
    simp [seenBy, wrun, h]
  | service now =>
    simp only [netStep, Option.map_eq_some_iff] at h
    obtain ⟨r, h, hs⟩ := h
    cases hs
    simp [seenBy, wrun, h]
  | serverGets i junk jt jv =>
    simp only [netStep] at h
    cases hu : s.up[i]? with
    | none => rw [hu] at h; cases h; rfl
    | some b =>
      rw [hu] at h
      simp only at h
      cases hv : serveVersion C.cap C.paths C.node C.text junk jt jv (decodeSteps b) b with
      | error f => rw [hv] at h; cases h
      | ok rs => rw [hv] at h; cases h; rfl
  | clientGets i junk =>
    simp only [netStep] at h
    cases hu : s.down[i]? with
    | none => rw [hu] at h; cases h; simp [seenBy, hu, wrun]
    | some b =>
      rw [hu] at h
      simp only at h
      cases hv : Dec.processToDone (decodeSteps b) (Dec.fresh junk) ⟨b, 0, true⟩ with
      | error f => rw [hv] at h; cases h
      | ok v =>
        obtain ⟨d, c, evs⟩ := v
        rw [hv] at h
        simp only [Option.map_eq_some_iff] at h
        obtain ⟨r, h, hs⟩ := h
        cases hs
        simp [seenBy, hu, wrun, h]

/-- Number of service calls. -/
def netServices (es : List NetEv) : Nat := es.countP fun e => match e with | .service _ => true | _ => false

theorem run_seen {C : NetCfg A} : ∀ (es : List NetEv) (s s' : NetSt A) (tr : List (Out A)), netRun C s es = some (s', tr) →
    ∃ wes, wrun C.P C.same C.retryJunk s.retry wes = some (s'.retry, tr) ∧
      (∀ t r a b, WEv.sent t r a b ∈ wes → a = C.server ∧ NetEv.request t r b ∈ es) ∧
      (∀ t, WEv.service t ∈ wes → NetEv.service t ∈ es) ∧
      wservices wes = netServices es ∧
      ((∀ i j, NetEv.clientGets i j ∉ es) → ∀ a b, WEv.recv a b ∉ wes)
  | [], s, s', tr, h => by
    simp only [netRun, Option.some.injEq, Prod.mk.injEq] at h
    obtain ⟨rfl, rfl⟩ := h
    exact ⟨[], rfl, by simp, by simp, rfl, by simp⟩
  | e :: es, s, s', tr, h => by
    simp only [netRun] at h
    cases h1 : netStep C s e with
    | none => rw [h1] at h; cases h
    | some r =>
      obtain ⟨s1, o⟩ := r
      rw [h1] at h
      simp only [Option.map_eq_some_iff] at h
      obtain ⟨⟨s2, o2⟩, h2, hs⟩ := h
      cases hs
      obtain ⟨wes, k1, k2, k3, k4, k5⟩ := run_seen es s1 _ o2 h2
      refine ⟨seenBy C s e ++ wes, wrun_join (step_seen h1) k1, fun t r a b hm => ?_, fun t hm => ?_, ?_, fun hno a b hm => ?_⟩
      · rcases List.mem_append.1 hm with hm | hm
        · cases e with
          | request => simp [seenBy] at hm; obtain ⟨rfl, rfl, rfl, rfl⟩ := hm; simp
          | service => simp [seenBy] at hm
          | serverGets => simp [seenBy] at hm
          | clientGets i j => simp only [seenBy] at hm; cases hd : s.down[i]? <;> simp [hd] at hm
        · exact ⟨(k2 t r a b hm).1, List.mem_cons_of_mem _ (k2 t r a b hm).2⟩
      · rcases List.mem_append.1 hm with hm | hm
        · cases e with
          | request => simp [seenBy] at hm
          | service => simp [seenBy] at hm; subst hm; simp
          | serverGets => simp [seenBy] at hm
          | clientGets i j => simp only [seenBy] at hm; cases hd : s.down[i]? <;> simp [hd] at hm
        · exact List.mem_cons_of_mem _ (k3 t hm)
      · have : wservices (seenBy C s e) = netServices [e] := by
          cases e with
          | request => rfl
          | service => rfl
          | serverGets => rfl
          | clientGets i j => simp only [seenBy]; cases s.down[i]? <;> rfl
        rw [wservices, List.countP_append]
        have h' : netServices (e :: es) = netServices [e] + netServices es := by
          rw [netServices, ← List.singleton_append, List.countP_append]; rfl
        rw [h', ← this, ← k4]; rfl
      · rcases List.mem_append.1 hm with hm | hm
        · cases e with
          | request => simp [seenBy] at hm
          | service => simp [seenBy] at hm
          | serverGets => simp [seenBy] at hm
          | clientGets i j => exact hno i j (by simp)
        · exact k5 (fun i j h => hno i j (List.mem_cons_of_mem _ h)) a b hm

/-- C88: once the answer to a confirmable request has arrived, the request is not sent again, whatever the network delivers later,
provided no other confirmable request has the same message id and token.  (`es1`, `es2`, `es3` are any histories before the request,
before the answer and after it.) -/
theorem answered_not_repeated {C : NetCfg A} (hC : NetCfgOk C) (hsame : C.same C.server C.server = true) (es1 es2 es3 : List NetEv)
    (s1 s2 s3 s4 s5 : NetSt A) (tr1 o2 tr3 o4 tr5 : List (Out A)) (now rnd : Nat) (bytes : List UInt8) (m r : Msg) (i : Nat) (junk : Dec)
    (hok : ∀ e ∈ es1 ++ es2, NetEvOk C e) (hm : Encodes m bytes) (ht : m.type = 0)
    (hother : ∀ t n b m', NetEv.request t n b ∈ es1 ++ es2 → Encodes m' b → m'.type = 0 → m'.mid = m.mid → m'.token ≠ m.token)
    (h1 : netRun C netInit es1 = some (s1, tr1)) (h2 : netStep C s1 (.request now rnd bytes) = some (s2, o2))
    (h3 : netRun C s2 es2 = some (s3, tr3)) (hr : AnswerTo C.paths C.node C.text m r) (hi : s3.down[i]? = some (encMsg r))
    (h4 : netStep C s3 (.clientGets i junk) = some (s4, o4)) (h5 : netRun C s4 es3 = some (s5, tr5)) :
    ∃ id, o2 = [.queued now id (rnd % 4096) C.server] ∧ ∀ t a, Out.sent t id a ∉ tr5 := by
  obtain ⟨w1, k1, l1, -⟩ := run_seen es1 _ _ _ h1
  obtain ⟨w3, k3, l3, -⟩ := run_seen es2 _ _ _ h3
  obtain ⟨w5, k5, -⟩ := run_seen es3 _ _ _ h5
  obtain ⟨hmo, ob, hob, hb⟩ := hm
  have hb' : bytes = wire m ob := hb
  have k2 := step_seen h2
  simp only [seenBy, wrun] at k2
  have k2' : wstep C.P C.same C.retryJunk s1.retry (.sent now rnd C.server (wire m ob)) = some (s2.retry, o2) := by
    rw [hb'] at k2
    cases hw : wstep C.P C.same C.retryJunk s1.retry (.sent now rnd C.server (wire m ob)) with
    | none => rw [hw] at k2; cases k2
    | some v =>
      rw [hw] at k2
      simp at k2
      rw [← k2.1, ← k2.2]
  have k4 := step_seen h4
  simp only [seenBy, hi, wrun] at k4
  obtain ⟨r1, r2, r3, r4⟩ := answer_ok hC hmo hr
  obtain ⟨id, s4', o4', g1, g2, -, g3⟩ := response_stops_retransmission C.P C.same C.retryJunk hC.2.2.2 m hmo ht ob now rnd C.server
    C.server w1 w3 s1.retry s2.retry s3.retry tr1 o2 tr3 k1 k2' k3 (fun t n a b hmem => by
      have hreq : a = C.server ∧ NetEv.request t n b ∈ es1 ++ es2 := by
        rcases List.mem_append.1 hmem with hmem | hmem
        · exact ⟨(l1 _ _ _ _ hmem).1, List.mem_append_left _ (l1 _ _ _ _ hmem).2⟩
        · exact ⟨(l3 _ _ _ _ hmem).1, List.mem_append_right _ (l3 _ _ _ _ hmem).2⟩
      obtain ⟨m', hm', -⟩ := hok _ hreq.2
      have hm2 := hm'
      obtain ⟨g1, ob', g2, g3⟩ := hm'
      exact ⟨m', ob', g1, g3, fun e1 e2 e3 => absurd e3 (hother _ _ _ _ hreq.2 hm2 e1 e2)⟩)
    r r1 r2 r3 r4 (encOpts 0 r.opts) hsame
  refine ⟨id, g1, g3 w5 s5.retry tr5 ?_⟩
  have : s4' = s4.retry := by
    have e : wire r (encOpts 0 r.opts) = encMsg r := rfl
    rw [e] at g2
    rw [g2] at k4
    simp at k4
    exact k4.1
  rw [this]; exact k5

theorem keptOf_append {kept more : List (Nat × List UInt8)} {id : Nat} {b : List UInt8} (h : keptOf kept id = some b) :
    keptOf (kept ++ more) id = some b := by
  unfold keptOf at h ⊢
  rw [List.find?_append]
  cases hf : kept.find? fun p => p.1 == id with
  | none => rw [hf] at h; cases h
  | some p => rw [hf] at h; exact h

theorem sentAgain_count {kept : List (Nat × List UInt8)} {id : Nat} {b : List UInt8} (h : keptOf kept id = some b) :
    ∀ o : List (Out A), (sendsOf id o).length ≤ (o.filterMap (sentAgain kept)).count b
  | [] => Nat.le_refl _
  | .queued .. :: o => by
    simp only [sendsOf, List.filterMap_cons, sentAgain]
    exact sentAgain_count h o
  | .acked _ :: o => by
    simp only [sendsOf, List.filterMap_cons, sentAgain]
    exact sentAgain_count h o
  | .sent t i a :: o => by
    have := sentAgain_count h o
    simp only [sendsOf, List.filterMap_cons, sentAgain]
    by_cases hi : i = id
    · subst hi
      simp only [if_true, h, List.length_cons, List.count_cons_self]; omega
    · simp only [hi, if_false]
      cases keptOf kept i with
      | none => exact this
      | some c => exact Nat.le_trans this (by rw [List.count_cons]; omega)

/-- Every retransmission puts the datagram on the network again. -/
theorem repeats_up {C : NetCfg A} {id : Nat} {b : List UInt8} : ∀ (es : List NetEv) (s s' : NetSt A) (tr : List (Out A)),
    keptOf s.kept id = some b → netRun C s es = some (s', tr) →
    keptOf s'.kept id = some b ∧ s.up.count b + (sendsOf id tr).length ≤ s'.up.count b
  | [], s, s', tr, hk, h => by
    simp only [netRun, Option.some.injEq, Prod.mk.injEq] at h
    obtain ⟨rfl, rfl⟩ := h
    exact ⟨hk, by simp [sendsOf]⟩
  | e :: es, s, s', tr, hk, h => by
    simp only [netRun] at h
    cases h1 : netStep C s e with
    | none => rw [h1] at h; cases h
    | some r =>
      obtain ⟨s1, o⟩ := r
      rw [h1] at h
      simp only [Option.map_eq_some_iff] at h
      obtain ⟨⟨s2, o2⟩, h2, hs⟩ := h
      cases hs
      have key : keptOf s1.kept id = some b ∧ s.up.count b + (sendsOf id o).length ≤ s1.up.count b := by
        cases e with
        | request now rnd bytes =>
          simp only [netStep, Option.map_eq_some_iff] at h1
          obtain ⟨r, hw, hs⟩ := h1
          have : sendsOf id r.2 = [] := by
            simp only [wstep] at hw
            cases hh : readHead C.retryJunk bytes with
            | none => rw [hh] at hw; cases hw
            | some v =>
              rw [hh] at hw
              simp only [Retry.step, onSent, Retry.enqueue] at hw
              by_cases hc : (v.1.type == Header.confirmable) = true
              · rw [if_pos hc] at hw
                by_cases hl : s.retry.q.length < 10
                · rw [if_pos hl] at hw; cases hw; rfl
                · rw [if_neg hl] at hw; cases hw
              · rw [if_neg hc] at hw; cases hw; rfl
          cases hs
          refine ⟨keptOf_append hk, ?_⟩
          rw [this, List.count_append]
          exact Nat.le_add_right _ _
        | service now =>
          simp only [netStep, Option.map_eq_some_iff] at h1
          obtain ⟨r, hw, hs⟩ := h1
          cases hs
          refine ⟨hk, ?_⟩
          rw [List.count_append]
          exact Nat.add_le_add_left (sentAgain_count hk r.2) _
        | serverGets i junk jt jv =>
          have := step_seen h1
          simp only [seenBy, wrun, Option.some.injEq, Prod.mk.injEq] at this
          obtain ⟨-, rfl⟩ := this
          simp only [netStep] at h1
          cases hu : s.up[i]? with
          | none => rw [hu] at h1; cases h1; exact ⟨hk, Nat.le_refl _⟩
          | some bytes =>
            rw [hu] at h1
            simp only at h1
            cases hv : serveVersion C.cap C.paths C.node C.text junk jt jv (decodeSteps bytes) bytes with
            | error f => rw [hv] at h1; cases h1
            | ok rs => rw [hv] at h1; cases h1; exact ⟨hk, Nat.le_refl _⟩
        | clientGets i junk =>
          simp only [netStep] at h1
          cases hu : s.down[i]? with
          | none => rw [hu] at h1; cases h1; exact ⟨hk, Nat.le_refl _⟩
          | some bytes =>
            rw [hu] at h1
            simp only at h1
            cases hv : Dec.processToDone (decodeSteps bytes) (Dec.fresh junk) ⟨bytes, 0, true⟩ with
            | error f => rw [hv] at h1; cases h1
            | ok v =>
              obtain ⟨d, c, evs⟩ := v
              rw [hv] at h1
              simp only [Option.map_eq_some_iff] at h1
              obtain ⟨r, hw, hs⟩ := h1
              have : sendsOf id r.2 = [] := by
                simp only [wstep] at hw
                cases hh : readHead C.retryJunk bytes with
                | none => rw [hh] at hw; cases hw
                | some v =>
                  rw [hh] at hw
                  simp only [Retry.step, serviceAck, ackReceived] at hw
                  cases hw
                  by_cases hc : (v.1.type == Header.acknowledgement) = true
                  · simp only [hc, if_true]
                    cases s.retry.q.find? (hits C.same C.server v.1.messageId v.2) <;> rfl
                  · simp only [hc]; rfl
              cases hs
              rw [this]
              exact ⟨hk, Nat.le_refl _⟩
      have := repeats_up es s1 _ o2 key.1 h2
      refine ⟨this.1, ?_⟩
      have k1 := this.2
      have k2 := key.2
      simp only [sendsOf_append, List.length_append] at k1 k2 ⊢
      omega

/-- The service is called not before `d`, nothing is sent before `d`, and timeouts are not zero. -/
def NFrom (d : Nat) : NetEv → Prop
  | .request now rnd _ => d ≤ now ∧ 0 < rnd % 4096
  | .service now => d ≤ now
  | _ => True

/-- The service is not called after time `m`. -/
def NUntil (m : Nat) : NetEv → Prop
  | .service now => now ≤ m
  | _ => True

theorem serviceRetry_next (P : PQ A) (s : St A) (now : Nat) : (serviceRetry P s now).1.next = s.next := by
  unfold serviceRetry
  cases s.q with
  | nil => rfl
  | cons f l =>
    simp only
    by_cases h1 : now ≥ f.due
    · by_cases h2 : f.counter < 4 - 2
      · simp only [h1, h2, if_true]
      · by_cases h3 : f.counter = 4 - 2
        · simp only [h1, h3, if_true]; rfl
        · simp only [h1, h2, h3, if_true, if_false]
    · simp only [h1, if_false]

theorem serviceAck_next (P : PQ A) (same : A → A → Bool) (s : St A) (a : A) (h : Header) (t : List UInt8) :
    (serviceAck P same s a h t).1.next = s.next := by
  unfold serviceAck ackReceived
  by_cases hc : (h.type == Header.acknowledgement) = true
  · simp only [hc, if_true]
    cases s.q.find? (hits same a h.messageId t) <;> rfl
  · simp only [hc]; rfl

/-- The numbers of the kept buffers have been given away. -/
theorem kept_step {C : NetCfg A} {s s' : NetSt A} {e : NetEv} {o : List (Out A)} (hk : ∀ p ∈ s.kept, p.1 < s.retry.next)
    (h : netStep C s e = some (s', o)) : ∀ p ∈ s'.kept, p.1 < s'.retry.next := by
  cases e with
  | request now rnd bytes =>
    simp only [netStep, Option.map_eq_some_iff] at h
    obtain ⟨r, hw, hs⟩ := h
    simp only [wstep] at hw
    cases hh : readHead C.retryJunk bytes with
    | none => rw [hh] at hw; cases hw
    | some v =>
      rw [hh] at hw
      simp only [Retry.step, onSent, Retry.enqueue] at hw
      by_cases hc : (v.1.type == Header.confirmable) = true
      · rw [if_pos hc] at hw
        by_cases hl : s.retry.q.length < 10
        · rw [if_pos hl] at hw
          cases hw
          cases hs
          intro p hp
          simp only [List.filterMap_cons, takenOver, List.filterMap_nil, List.mem_append, List.mem_singleton] at hp
          rcases hp with hp | hp
          · have := hk p hp; simp only; omega
          · rw [hp]; simp only; omega
        · rw [if_neg hl] at hw; cases hw
      · rw [if_neg hc] at hw
        cases hw
        cases hs
        simpa using hk
  | service now =>
    simp only [netStep, Option.map_eq_some_iff] at h
    obtain ⟨r, hw, hs⟩ := h
    simp only [wstep, Retry.step, Option.some.injEq] at hw
    cases hs
    rw [← hw, serviceRetry_next]
    exact hk
  | serverGets i junk jt jv =>
    have hq := step_seen h
    simp only [seenBy, wrun, Option.some.injEq, Prod.mk.injEq] at hq
    simp only [netStep] at h
    cases hu : s.up[i]? with
    | none => rw [hu] at h; cases h; exact hk
    | some bytes =>
      rw [hu] at h
      simp only at h
      cases hv : serveVersion C.cap C.paths C.node C.text junk jt jv (decodeSteps bytes) bytes with
      | error f => rw [hv] at h; cases h
      | ok rs => rw [hv] at h; cases h; exact hk
  | clientGets i junk =>
    simp only [netStep] at h
    cases hu : s.down[i]? with
    | none => rw [hu] at h; cases h; exact hk
    | some bytes =>
      rw [hu] at h
      simp only at h
      cases hv : Dec.processToDone (decodeSteps bytes) (Dec.fresh junk) ⟨bytes, 0, true⟩ with
      | error f => rw [hv] at h; cases h
      | ok v =>
        obtain ⟨d, c, evs⟩ := v
        rw [hv] at h
        simp only [Option.map_eq_some_iff] at h
        obtain ⟨r, hw, hs⟩ := h
        simp only [wstep] at hw
        cases hh : readHead C.retryJunk bytes with
        | none => rw [hh] at hw; cases hw
        | some v =>
          rw [hh] at hw
          simp only [Retry.step, Option.some.injEq] at hw
          cases hs
          rw [← hw]
          simp only [serviceAck_next]
          exact hk

theorem kept_run {C : NetCfg A} : ∀ (es : List NetEv) (s s' : NetSt A) (tr : List (Out A)), (∀ p ∈ s.kept, p.1 < s.retry.next) →
    netRun C s es = some (s', tr) → ∀ p ∈ s'.kept, p.1 < s'.retry.next
  | [], s, s', tr, hk, h => by
    simp only [netRun, Option.some.injEq, Prod.mk.injEq] at h
    obtain ⟨rfl, -⟩ := h
    exact hk
  | e :: es, s, s', tr, hk, h => by
    simp only [netRun] at h
    cases h1 : netStep C s e with
    | none => rw [h1] at h; cases h
    | some r =>
      obtain ⟨s1, o⟩ := r
      rw [h1] at h
      simp only [Option.map_eq_some_iff] at h
      obtain ⟨⟨s2, o2⟩, h2, hs⟩ := h
      cases hs
      exact kept_run es s1 _ o2 (kept_step hk h1) h2

theorem seen_from {C : NetCfg A} {d M : Nat} {es : List NetEv} (hf : ∀ e ∈ es, NFrom d e ∧ NUntil M e) {wes : List (WEv A)}
    (h1 : ∀ t r a b, WEv.sent t r a b ∈ wes → a = C.server ∧ NetEv.request t r b ∈ es)
    (h2 : ∀ t, WEv.service t ∈ wes → NetEv.service t ∈ es) : ∀ e ∈ wes, WFrom d e ∧ WUntil M e := by
  intro e he
  cases e with
  | sent t r a b => exact ⟨(hf _ (h1 t r a b he).2).1, trivial⟩
  | recv a b => exact ⟨trivial, trivial⟩
  | service t => exact hf _ (h2 t he)

/-- C88: a confirmable request of which no answer arrives is put on the network three times more, as soon as the service gets to
be called often enough: ten times after its timeout and twice ten times after four timeouts each. -/
theorem unanswered_repeated {C : NetCfg A} (hC : NetCfgOk C) (es1 b1 b2 b3 : List NetEv) (s1 s2 s3 s4 s5 : NetSt A)
    (tr1 o2 tr3 tr4 tr5 : List (Out A)) (now rnd : Nat) (bytes : List UInt8) (m : Msg) (hm : Encodes m bytes) (ht : m.type = 0)
    (hrnd : 0 < rnd % 4096) (h1 : netRun C netInit es1 = some (s1, tr1)) (hpos : ∀ e ∈ es1, NFrom 0 e)
    (h2 : netStep C s1 (.request now rnd bytes) = some (s2, o2)) (M1 M2 M3 : Nat)
    (h3 : netRun C s2 b1 = some (s3, tr3)) (f1 : ∀ e ∈ b1, NFrom (now + rnd % 4096) e ∧ NUntil M1 e) (n1 : 10 ≤ netServices b1)
    (h4 : netRun C s3 b2 = some (s4, tr4)) (f2 : ∀ e ∈ b2, NFrom (M1 + rnd % 4096 * 4) e ∧ NUntil M2 e) (n2 : 10 ≤ netServices b2)
    (h5 : netRun C s4 b3 = some (s5, tr5)) (f3 : ∀ e ∈ b3, NFrom (M2 + rnd % 4096 * 4) e ∧ NUntil M3 e) (n3 : 10 ≤ netServices b3)
    (hlost : ∀ i j, NetEv.clientGets i j ∉ b1 ++ b2 ++ b3) :
    s1.up.count bytes + 4 ≤ s5.up.count bytes := by
  obtain ⟨w1, k1, l1, p1, -⟩ := run_seen es1 _ _ _ h1
  obtain ⟨w3, k3, l3, p3, q3, r3⟩ := run_seen b1 _ _ _ h3
  obtain ⟨w4, k4, l4, p4, q4, r4⟩ := run_seen b2 _ _ _ h4
  obtain ⟨w5, k5, l5, p5, q5, r5⟩ := run_seen b3 _ _ _ h5
  have hfresh := kept_run es1 netInit s1 tr1 (by simp [netInit]) h1
  obtain ⟨hmo, ob, hob, hb⟩ := hm
  have hb' : bytes = wire m ob := hb
  have k2 := step_seen h2
  simp only [seenBy, wrun] at k2
  have k2' : wstep C.P C.same C.retryJunk s1.retry (.sent now rnd C.server (wire m ob)) = some (s2.retry, o2) := by
    rw [hb'] at k2
    cases hw : wstep C.P C.same C.retryJunk s1.retry (.sent now rnd C.server (wire m ob)) with
    | none => rw [hw] at k2; cases k2
    | some v =>
      rw [hw] at k2
      simp at k2
      rw [← k2.1, ← k2.2]
  obtain ⟨e2, ho2, hn2⟩ := wsent_con hC.2.2.2 hmo ht k2'
  simp only [List.mem_append, not_or] at hlost
  have hno : Out.acked s1.retry.next ∉ tr3 ++ tr4 ++ tr5 := by
    intro hack
    obtain ⟨es1', x1, -⟩ := wrun_run k1
    have i1 := (Inv.init C.P).run x1
    simp only [List.nil_append] at i1
    have i2 := i1.step e2
    obtain ⟨es3', x3, hev3, -⟩ := wrun_run (wrun_join (wrun_join k3 k4) k5)
    obtain ⟨a, hd, tok, g1, -⟩ := run_acked i2 x3 hack
    obtain ⟨e, he, hte⟩ := hev3 _ g1
    cases e with
    | service => simp [toEv] at hte
    | sent =>
      simp only [toEv, Option.map_eq_some_iff] at hte
      obtain ⟨_, _, hte⟩ := hte; simp at hte
    | recv a' b =>
      rcases List.mem_append.1 he with he | he
      · rcases List.mem_append.1 he with he | he
        · exact r3 (fun i j h => (hlost i j).1.1 h) _ _ he
        · exact r4 (fun i j h => (hlost i j).1.2 h) _ _ he
      · exact r5 (fun i j h => (hlost i j).2 h) _ _ he
  obtain ⟨-, key⟩ := unacknowledged_three_times C.P C.same C.retryJunk hC.2.2.2 m hmo ht ob now rnd C.server hrnd w1 w3 w4 w5 s1.retry
    s2.retry s3.retry s4.retry s5.retry tr1 o2 tr3 tr4 tr5 k1 (fun e he => by
      cases e with
      | sent t r a b => exact hpos _ (l1 t r a b he).2
      | recv a b => trivial
      | service t => exact Nat.zero_le _) k2' M1 M2 M3
    k3 (seen_from f1 l3 p3) (by rw [q3]; exact n1) k4 (seen_from f2 l4 p4) (by rw [q4]; exact n2)
    k5 (seen_from f3 l5 p5) (by rw [q5]; exact n3) hno
  have hkept : keptOf s2.kept s1.retry.next = some bytes ∧ s2.up = s1.up ++ [bytes] := by
    simp only [netStep, Option.map_eq_some_iff] at h2
    obtain ⟨r, hw, hs⟩ := h2
    simp only [Prod.mk.injEq] at hs
    obtain ⟨rfl, rfl⟩ := hs
    rw [ho2]
    refine ⟨?_, rfl⟩
    simp only [keptOf, List.filterMap_cons, takenOver, List.filterMap_nil, List.find?_append]
    have : (s1.kept.find? fun p => p.1 == s1.retry.next) = none := by
      rw [List.find?_eq_none]
      intro p hp
      have := hfresh p hp
      simp; omega
    rw [this]
    simp
  obtain ⟨a1, c1⟩ := repeats_up b1 _ _ _ hkept.1 h3
  obtain ⟨a2, c2⟩ := repeats_up b2 _ _ _ a1 h4
  obtain ⟨-, c3⟩ := repeats_up b3 _ _ _ a2 h5
  rw [hkept.2, List.count_append, List.count_singleton_self] at c1
  simp only [sendsOf_append, List.length_append] at key
  omega

/-- A server with the text "v" at `/x`. -/
def netExample : NetCfg Nat := ⟨sortedPQ, fun a b => a == b, 1, Dec.zero, 64, [⟨['x'], 3, -1⟩], 3, [118]⟩

example : NetCfgOk netExample := by
  refine ⟨?_, by decide, by decide, rfl⟩
  intro pre e post h x hx
  cases pre with
  | nil =>
    simp only [netExample, List.nil_append, List.cons.injEq] at h
    obtain ⟨rfl, -⟩ := h
    simp only [List.nil_append, List.mem_singleton] at hx
    subst hx; decide
  | cons p pre => simp [netExample] at h

def netStory : List NetEv := [.request 100 2500 (encMsg askX), .service 3000, .serverGets 1 Dec.zero (List.replicate 8 0) [],
  .serverGets 1 Dec.zero (List.replicate 8 0) [], .clientGets 1 Dec.zero, .clientGets 0 Dec.zero, .service 100000]

-- the request for `/x` is lost, sent again, served twice; one answer arrives, then the other one; nothing is sent again later
example :
    (netRun netExample netInit netStory).map (fun r => r.1.up) = some [encMsg askX, encMsg askX] ∧
    (netRun netExample netInit netStory).map (fun r => r.1.down) = some [encMsg (textReply askX [118]), encMsg (textReply askX [118])] ∧
    (netRun netExample netInit netStory).map (fun r => r.1.told) =
      some [delivery (textReply askX [118]), delivery (textReply askX [118])] ∧
    (netRun netExample netInit netStory).map (fun r => r.2) = some [.queued 100 0 2500 1, .sent 3000 0 1, .acked 0] := by
  decide +kernel

example : AnswerTo netExample.paths netExample.node netExample.text askX (textReply askX [118]) :=
  Or.inl ⟨.step ⟨[], [], rfl, rfl, rfl, by simp⟩ (.here _), rfl⟩

end Verif.Props
