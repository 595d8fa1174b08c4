import Verif.Props.Examples
import Verif.Props.Responder
import Verif.Props.Codes
import Verif.Props.OtherPumps

/-! # Exactly when the version resource (C60), the ping example (C63), the data pump over lwIP (C77) and the names of codes (C96) are right -/
namespace Verif.Props
open Verif.Model Verif.Spec Verif.Proofs Verif.Model.Header OptEnc SEnc Pull

/-- What C60 asks of the datagrams sent in answer to a message for the version's node: a confirmable GET gets one well-formed 2.05 with the
text; nothing else gets it. -/
def VersionRight (m : Msg) (text : List UInt8) (sent : List (List UInt8)) : Prop :=
  if m.type = 0 ∧ m.code = 1 then (textReply m text).Ok ∧ sent = [encMsg (textReply m text)] else encMsg (textReply m text) ∉ sent

theorem textReply_length (m : Msg) (text : List UInt8) : (encMsg (textReply m text)).length = 6 + m.token.length + text.length := by
  simp [encMsg, textReply, encHeader, encOpts, encPayload, optHeader, nibble, extBytes]; omega

/-- C60, exactly when a message for the version's node is answered as it should be: a confirmable GET if the text is not empty and the reply
fits, anything else only if the reply does not fit and is cut. -/
theorem version_right_iff {m : Msg} (hm : m.Ok) {text : List UInt8} {cap : Nat} {paths : List Uri.Entry} (hpf : ParentsFirst paths)
    {id : Int} (hid : id ≠ -1) (hd : Denotes paths (-1) (uriPath m) id) (junk : Dec) (hb : junk.tbuf.length = 8) (jt : List UInt8)
    (hj : jt.length = 8) (jv : List UInt8) (fuel : Nat) (hf : 11 * (encMsg m).length + 6 ≤ fuel) :
    (∃ sent, serveVersion cap paths id text junk jt jv fuel (encMsg m) = .ok sent ∧ VersionRight m text sent) ↔
      if m.type = 0 ∧ m.code = 1 then text ≠ [] ∧ 6 + m.token.length + text.length ≤ cap else cap < 6 + m.token.length + text.length := by
  have h := version_any_method hm m.code m.type hm.2.2.1 hm.2.1 (text := text) (cap := cap) hpf hid hd junk hb jt hj jv fuel hf
  have hl := textReply_length m text
  have hcut : (encMsg (textReply m text)).take cap = encMsg (textReply m text) ↔ 6 + m.token.length + text.length ≤ cap := by
    rw [← hl]
    refine ⟨fun h => ?_, List.take_of_length_le⟩
    have := congrArg List.length h
    rw [List.length_take] at this
    omega
  have hok : (textReply m text).Ok → text ≠ [] := fun ho ht => ho.2.2.2.2.2.2 (by simp [textReply, ht])
  simp only [h, Except.ok.injEq, VersionRight]
  constructor
  · rintro ⟨sent, rfl, hr⟩
    by_cases hg : m.type = 0 ∧ m.code = 1
    · rw [if_pos hg] at hr ⊢
      exact ⟨hok hr.1, hcut.1 (by simpa using hr.2)⟩
    · rw [if_neg hg] at hr ⊢
      have : ¬ 6 + m.token.length + text.length ≤ cap := fun hle => hr (by rw [hcut.2 hle]; simp)
      omega
  · intro hr
    refine ⟨_, rfl, ?_⟩
    by_cases hg : m.type = 0 ∧ m.code = 1
    · rw [if_pos hg] at hr ⊢
      exact ⟨(version_answered hm hr.1 hr.2 hpf hid hd junk hb jt hj jv fuel hf).1, by rw [hcut.2 hr.2]⟩
    · rw [if_neg hg] at hr ⊢
      intro hmem
      have := hcut.1 (List.mem_singleton.1 hmem).symm
      omega

/-- C63, exactly when the ping example does what it should: when the message is confirmable or non-confirmable. -/
theorem ping_right_iff (m : Msg) (hm : m.Ok) (ob : List UInt8) (junk : Dec) (hj : junk.tbuf.length = 8)
    (junkToken : List UInt8) (hjt : junkToken.length = 8) (junkHeader : Header) (room : Nat) (hroom : 4 + m.token.length ≤ room) :
    (if m.type ≤ 1 then pingReply room junk junkToken junkHeader (fun p => .ok ([], p)) (wire m ob) = .ok (encMsg (response m 0x45 none))
      else ∀ b, pingReply room junk junkToken junkHeader (fun p => .ok ([], p)) (wire m ob) ≠ .ok b) ↔ m.type ≤ 1 := by
  have h := ping_answered_partial m hm ob junk hj junkToken hjt junkHeader room hroom
  by_cases ht : m.type ≤ 1
  · rw [if_pos ht]; exact ⟨fun _ => ht, fun _ => h⟩
  · rw [if_neg ht]; exact ⟨fun hn => absurd h (hn _), fun h => absurd h ht⟩

/-- How often a send fails while something waits to be sent, counted from what the program and the network do. -/
def lwipFailed {A : Type} : Nat → List (LwipEv A) → Nat
  | _, [] => 0
  | n, .loop ok _ :: es => (if n ≠ 0 ∧ ok = false then 1 else 0) + lwipFailed (n - 1) es
  | n, .enqueue _ _ :: es => lwipFailed (n + 1) es
  | n, .take :: es => lwipFailed n es

theorem lwip_failed_count {A : Type} (es : List (LwipEv A)) : ∀ s : Lwip A,
    (s.run es).tried.length + s.sent.length = (s.run es).sent.length + s.tried.length + lwipFailed s.outq.length es := by
  induction es with
  | nil => intro s; simp [Lwip.run, lwipFailed]; omega
  | cons e es ih =>
    intro s
    have h := ih (s.step e)
    rw [Lwip.run]
    cases e with
    | loop ok i =>
      cases ok <;> cases i <;> cases ho : s.outq <;>
        simp_all [Lwip.step, Lwip.loop, Lwip.transmit, Lwip.receive, lwipFailed] <;> omega
    | enqueue b a => simpa [Lwip.step, Lwip.enqueue, lwipFailed] using h
    | take => cases hi : s.inq <;> simpa [Lwip.step, Lwip.take, lwipFailed, hi] using h

/-- C77, exactly when nothing is lost on its way out: every message queued has been taken by the network or still waits if and only if no
send failed while something waited.  Each failure loses one message. -/
theorem lwip_nothing_lost_iff {A : Type} (es : List (LwipEv A)) (hs : LwipShort es) :
    ((Lwip.run {} es).sent.length + (Lwip.run {} es).outq.length + lwipFailed 0 es = (lwipAsked es).length) ∧
    ((∃ rest, (Lwip.run {} es).sent ++ rest = lwipAsked es ∧ rest.length = (Lwip.run {} es).outq.length) ↔ lwipFailed 0 es = 0) := by
  obtain ⟨⟨rest, h1, h2⟩, -⟩ := lwip_in_order_partial es hs
  have h3 := (lwip_sent_gen es {}).1 (List.Sublist.refl _)
  have h4 := lwip_failed_count es {}
  have h5 := congrArg List.length h1
  simp only [List.length_append, List.length_nil, Nat.add_zero] at h4 h5
  refine ⟨by omega, ?_, fun h => ?_⟩
  · rintro ⟨r, h6, h7⟩
    have := congrArg List.length h6
    rw [List.length_append] at this
    omega
  · exact ⟨rest, by rw [h3.eq_of_length (by omega), h1], h2⟩

/-- C96, exactly which registered codes have a name: all but 5.02. -/
theorem code_named_iff (x : Nat × Nat) (hx : x ∈ rfcRegistry) : (∃ n : CodeName, n.value = 32 * x.1 + x.2) ↔ x ≠ (5, 2) :=
  ⟨by rintro ⟨n, hn⟩ rfl; exact bad_gateway_unnamed.2 n hn, registered_code_named_partial x hx⟩

/-- C96, exactly when a header with a registered code is told to be a request rightly (class 0 and a detail, RFC 7252 section 12.1.1): when
the message is not empty. -/
theorem counts_as_request_iff (h : Header) : (h.isRequest = true ↔ h.code.toNat / 32 = 0 ∧ h.code.toNat % 32 ≠ 0) ↔ h.code ≠ 0 := by
  have hc : h.isRequest = true ↔ h.code.toNat / 32 = 0 := by
    simp only [Header.isRequest, beq_iff_eq, ← UInt8.toNat_inj, UInt8.toNat_shiftRight]
    simp [Nat.shiftRight_eq_div_pow]
  have h0 : h.code ≠ 0 ↔ h.code.toNat ≠ 0 := by rw [ne_eq, ← UInt8.toNat_inj]; simp
  rw [hc, h0]
  have := h.code.toNat_lt
  constructor <;> intro hx
  · intro hz; rw [hz] at hx; simp at hx
  · constructor
    · intro hd; exact ⟨hd, by omega⟩
    · exact And.left

/-! ## Cases that meet the hypotheses -/

/-- Three messages queued, the second send fails, a failing loop with nothing waiting does no harm: one is lost. -/
example : lwipFailed (A := Nat) 0 [.loop false .timeout, .enqueue ⟨[1], 1⟩ 7, .enqueue ⟨[2], 1⟩ 7, .enqueue ⟨[3], 1⟩ 7,
      .loop true .timeout, .loop false .timeout, .loop true .timeout, .loop false .timeout] = 1 ∧
    (Lwip.run {} [.loop false .timeout, .enqueue ⟨[1], 1⟩ 7, .enqueue ⟨[2], 1⟩ 7, .enqueue ⟨[3], 1⟩ 7,
      .loop true .timeout, .loop false .timeout, .loop true .timeout, .loop false (.timeout : LwipIn Nat)]).sent = [([1], 7), ([3], 7)] := by decide

example := lwip_nothing_lost_iff (A := Nat) [.enqueue ⟨[1, 2], 2⟩ 7, .loop true .timeout, .loop false .timeout]
  (by intro b a h; simp at h; obtain ⟨rfl, -⟩ := h; decide)

example : (2, 5) ∈ rfcRegistry ∧ (5, 2) ∈ rfcRegistry := by decide

/-- `serverSample` is a non-confirmable GET of node 4 of the sample table: as a confirmable one it is answered rightly with 64 bytes of room. -/
example := version_right_iff (m := { serverSample with type := 0 }) (by decide) (text := [0x31, 0x2E, 0x30]) (cap := 64) uriSample_ordered
  (id := 4) (by decide)
  (.step (e := ⟨"v1".toList, 3, -1⟩) ⟨uriSample.take 3, uriSample.drop 4, rfl, rfl, rfl, by decide⟩ <|
    .step (e := ⟨"temp".toList, 4, 3⟩) ⟨uriSample.take 4, [], rfl, rfl, rfl, by decide⟩ (.here 4))
  Dec.zero (by decide) (List.replicate 8 0) (by decide) [0, 0, 0, 0] 2000 (by decide)

example := ping_right_iff ⟨1, 2, 0x45, 7, [0xAA], [], none⟩ (by decide) [] Dec.zero (by decide) (List.replicate 8 0) (by decide) ⟨0, 0, 0, 0⟩ 16 (by decide)

end Verif.Props
