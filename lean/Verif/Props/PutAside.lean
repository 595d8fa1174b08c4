import Verif.Spec.PutAside
import Verif.Props.Echo
import Verif.Props.Examples
import Verif.Props.Server
import Verif.Props.ServerAny

/-! # C104: empty messages and messages of another version -/
namespace Verif.Props
open Verif.Model Verif.Spec Verif.Proofs Verif.Model.Header Pull Observable

theorem empty_path {m : Msg} (h : EmptyMsg m) : uriPath m = [] := by simp [uriPath, h.2.2.1]

theorem nothing_at_root {paths : List Uri.Entry} {q : Int} (hq : q ≠ -1) : ¬Denotes paths (-1) [] q := by
  intro h
  cases h
  exact hq rfl

/-- C104 (partial: this server, messages of another version to a registered path): they are put aside silently. -/
theorem other_version_silent_partial {m : Msg} (hm : m.Ok) (hv : m.version ≠ 1) {cap : Nat} (hcap : 4 + m.token.length ≤ cap)
    {paths : List Uri.Entry} (hpf : ParentsFirst paths) {q : Int} (hq : q ≠ -1) (hd : Denotes paths (-1) (uriPath m) q)
    (junk : Dec) (hb : junk.tbuf.length = 8) (jt : List UInt8) (hj : jt.length = 8) (fuel : Nat) (hf : 11 * (encMsg m).length + 6 ≤ fuel) :
    serve cap paths junk jt fuel (encMsg m) = .ok ((asideReplies m).map encMsg) := by
  rw [known_path_no_reply hm hcap hpf hq hd junk hb jt hj fuel hf, asideReplies, if_pos hv]
  rfl

/-- C104: for every message to be put aside, exactly when the server that answers 4.04 does what RFC 7252 asks for: when
the message is of another version and its path happens to be registered.  No empty message is treated as it should be. -/
theorem put_aside_right_iff {m : Msg} (hm : m.Ok) (ha : PutAside m) {cap : Nat} (hcap : 4 + m.token.length ≤ cap)
    {paths : List Uri.Entry} (hpf : ParentsFirst paths) (junk : Dec) (hb : junk.tbuf.length = 8) (jt : List UInt8) (hj : jt.length = 8)
    (fuel : Nat) (hf : 11 * (encMsg m).length + 6 ≤ fuel) :
    serve cap paths junk jt fuel (encMsg m) = .ok ((asideReplies m).map encMsg) ↔
      m.version ≠ 1 ∧ ∃ q, q ≠ -1 ∧ Denotes paths (-1) (uriPath m) q := by
  by_cases hd : ∃ q, q ≠ -1 ∧ Denotes paths (-1) (uriPath m) q
  · obtain ⟨q, hq, hd⟩ := hd
    have hv : m.version ≠ 1 := by
      rcases ha with h | h
      · exact h
      · rw [empty_path h] at hd
        exact absurd hd (nothing_at_root hq)
    exact ⟨fun _ => ⟨hv, q, hq, hd⟩, fun _ => other_version_silent_partial hm hv hcap hpf hq hd junk hb jt hj fuel hf⟩
  · refine ⟨fun h => ?_, fun h => absurd h.2 hd⟩
    rw [unknown_path_404 hm hcap hpf (fun q hq h => hd ⟨q, hq, h⟩) junk hb jt hj fuel hf] at h
    have h : [encMsg (replyTo m 0x84)] = (asideReplies m).map encMsg := by simpa using h
    simp only [asideReplies] at h
    split at h
    · simp at h
    · split at h
      · have h2 := congrArg (fun l : List (List UInt8) => (l.map fun b => b[1]?)) h
        simp [encMsg, encHeader, replyTo, resetFor] at h2
      · simp at h

/-- C104 fails for empty messages: whatever its type, an empty message gets an acknowledgement with 4.04 — the ping of
RFC 7252 section 4.3 no reset, and a reset or an empty acknowledgement an answer. -/
theorem empty_message_404 {m : Msg} (hm : m.Ok) (he : EmptyMsg m) {cap : Nat} (hcap : 4 ≤ cap) {paths : List Uri.Entry} (hpf : ParentsFirst paths)
    (junk : Dec) (hb : junk.tbuf.length = 8) (jt : List UInt8) (hj : jt.length = 8) (fuel : Nat) (hf : 11 * (encMsg m).length + 6 ≤ fuel) :
    serve cap paths junk jt fuel (encMsg m) = .ok [encMsg ⟨m.version, 2, 0x84, m.mid, [], [], none⟩] := by
  rw [unknown_path_404 hm (by simp [he.2.1]; exact hcap) hpf (fun q hq => by rw [empty_path he]; exact nothing_at_root hq) junk hb jt hj fuel hf]
  simp [replyTo, he.2.1]

/-- C104 fails for the server of a node: it answers every message to be put aside, with an acknowledgement of the version of
the message. -/
theorem put_aside_answered (k : SbKind) (m : Msg) (hk : EndOk k m) (hm : m.Ok) (_ha : PutAside m) (junk : Dec) (hj : junk.tbuf.length = 8)
    (hst : junk.opt.st ≠ .payload ∨ m.token ≠ [] ∨ m.opts ≠ [] ∨ m.payload ≠ none)
    (hc : k.charSigned = true → ∀ b ∈ encHeader m ++ m.token, b ≠ 0xFF) (text : List UInt8) (cap : Nat)
    (hcap : 6 + m.token.length + text.length ≤ cap) {paths : List Uri.Entry} (hpf : ParentsFirst paths) {id : Int} (hid : id ≠ -1)
    (jt : List UInt8) (hjt : jt.length = 8) (jv : List UInt8) :
    ∃ N r, (r = textReply m text ∨ r = replyTo m 0x84) ∧ r.version = m.version ∧ r.type = 2 ∧ ∀ fuel, N ≤ fuel →
      serveWith (SCtx.boilerEvent cap id text jv) k paths junk jt fuel ⟨encMsg m, []⟩ = .ok [encMsg r] ∧
      serveWith (SCtx.boilerEvent cap id text jv) k paths junk jt fuel ⟨encMsg m, []⟩ ≠ .ok ((asideReplies m).map encMsg) := by
  obtain ⟨N, hN⟩ := boilerplate_partial k m hk hm junk hj hst hc text cap hcap hpf hid jt hjt jv
  have hne : ∀ r : Msg, r.code = 0x45 ∨ r.code = 0x84 → [encMsg r] ≠ (asideReplies m).map encMsg := by
    intro r hr h
    simp only [asideReplies] at h
    split at h
    · simp at h
    · split at h
      · have h2 := congrArg (fun l : List (List UInt8) => (l.map fun b => b[1]?)) h
        rcases hr with hr | hr <;> simp [encMsg, encHeader, hr, resetFor] at h2
      · simp at h
  by_cases hd : Denotes paths (-1) (uriPath m) id
  · refine ⟨N, _, .inl rfl, rfl, rfl, fun fuel hf => ?_⟩
    rw [(hN fuel hf).1 hd]
    exact ⟨rfl, fun h => hne (textReply m text) (.inl rfl) (by simpa using h)⟩
  · refine ⟨N, _, .inr rfl, rfl, rfl, fun fuel hf => ?_⟩
    rw [(hN fuel hf).2 hd]
    exact ⟨rfl, fun h => hne (replyTo m 0x84) (.inr rfl) (by simpa using h)⟩

/-- C104 fails for the ping example: it answers the ping of RFC 7252 with 2.05, and messages of any version in their own
version. -/
theorem ping_example_put_aside (m : Msg) (hm : m.Ok) (_ha : PutAside m) (junk : Dec) (hj : junk.tbuf.length = 8)
    (junkToken : List UInt8) (hjt : junkToken.length = 8) (junkHeader : Header) (room : Nat) (hroom : 4 + m.token.length ≤ room) :
    pingReply room junk junkToken junkHeader (fun p => .ok ([], p)) (encMsg m) = .ok (encMsg (response m 0x45 none)) ∧
    (response m 0x45 none).version = m.version ∧
    pingReply room junk junkToken junkHeader (fun p => .ok ([], p)) (encMsg m) ≠ .ok (encMsg (resetFor m.mid)) := by
  have h := ping_answered_partial m hm (encOpts 0 m.opts) junk hj junkToken hjt junkHeader room hroom
  rw [wire_encMsg] at h
  refine ⟨h, rfl, fun he => ?_⟩
  rw [h] at he
  have he : encMsg (response m 0x45 none) = encMsg (resetFor m.mid) := by simpa using he
  have h2 := congrArg (fun l : List UInt8 => l[1]?) he
  simp [encMsg, encHeader, response, resetFor] at h2

/-- C104: what RFC 7252 calls a message of another version need not be formed like one of version 1.  For every datagram with a
complete header and token whose version bits are not 1, the server is silent exactly if the path read from it is registered. -/
theorem other_version_datagram_iff (b0 : UInt8) (rest : List UInt8) (_hv : b0.toNat / 64 ≠ 1) (h : HasToken (b0 :: rest)) {cap : Nat}
    (hcap : 4 + tokenClaim (b0 :: rest) ≤ cap) {paths : List Uri.Entry} (hpf : ParentsFirst paths) (junk : Dec) (hb : junk.tbuf.length = 8)
    (jt : List UInt8) (hjt : jt.length = 8) (fuel : Nat) (hf : 11 * (b0 :: rest).length + 65561 ≤ fuel) :
    serve cap paths junk jt fuel (b0 :: rest) = .ok [] ↔ ∃ q, q ≠ -1 ∧ Denotes paths (-1) (pathIn (b0 :: rest)) q := by
  obtain ⟨h1, h2⟩ := any_datagram_served_partial (b0 :: rest) h hcap hpf junk hb jt hjt fuel hf
  refine ⟨fun hs => Classical.byContradiction fun hn => ?_, h1⟩
  rw [h2 fun q hq hd => hn ⟨q, hq, hd⟩] at hs
  simp at hs

/-- C104 fails for the echo server: it answers every message to be put aside with an acknowledgement 2.03 in the version of the
message. -/
theorem echo_put_aside (k : SbKind) (m : Msg) (hm : m.Ok) (_ha : PutAside m) (hc : k.charSigned = true → ∀ b ∈ encHeader m ++ m.token, b ≠ 0xFF)
    (hk : k.endNeg = false ∨ m.token ≠ [] ∨ m.payload ≠ none ∨ ∀ o, m.opts = [o] → o.value ≠ []) (cap : Nat) (hcap : 4 + m.token.length ≤ cap)
    (junk : Dec) (hj : junk.tbuf.length = 8) (cur : List UInt8) (more : List (List UInt8)) (hs : cur ++ more.flatten = encMsg m) :
    echoReply k cap junk ⟨cur, more⟩ = .ok (encMsg (replyTo m 0x43)) ∧
    echoReply k cap junk ⟨cur, more⟩ ≠ .ok (encMsg (resetFor m.mid)) := by
  have h := echo_message_partial k m hm (encOpts 0 m.opts) (isOpts_encOpts 0 _ hm.2.2.2.2.2.1) hc hk cap hcap junk hj cur more
    (by rw [wire_encMsg]; exact hs)
  refine ⟨h, fun he => ?_⟩
  rw [h] at he
  have he : encMsg (replyTo m 0x43) = encMsg (resetFor m.mid) := by simpa using he
  have h2 := congrArg (fun l : List UInt8 => l[1]?) he
  simp [encMsg, encHeader, replyTo, resetFor] at h2

end Verif.Props
