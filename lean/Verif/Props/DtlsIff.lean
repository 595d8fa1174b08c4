import Verif.Props.Dtls
import Verif.Props.Server

/-! # C75, C76, C46: exactly when the DTLS server's answer arrives whole, when its `read` tells what happened, and when an automatic reply is in place -/
namespace Verif.Props
open Verif.Model Verif.Spec Verif.Proofs

/-- C75, exactly when the answer arrives whole: in a round that does not stop the server, what the library took is what the client sent if and
only if the library took whole every write it took anything of. -/
theorem dtls_echo_whole_iff (L : TlsLib) (hL : TlsConforms L) (fuel : Nat) (tr tr' : TlsTrace) (ret : Int)
    (h : dtlsLoop L fuel tr = some (tr', true, ret)) :
    ∃ l, tr' = tr ++ l ∧ (taken l = delivered l ↔ ∀ d a, (TlsCall.write d, a) ∈ l → 0 ≤ a.code → (d.length : Int) ≤ a.code) := by
  obtain ⟨l', hl', hoff⟩ := dtls_echo L hL fuel tr tr' true ret h
  obtain ⟨l, rfl, hl⟩ := dtlsLoop_spec h
  obtain rfl := List.append_cancel_left hl'
  refine ⟨l, rfl, ?_⟩
  have hmem : ∀ x, x ∈ taken l ↔ ∃ d a, (TlsCall.write d, a) ∈ l ∧ 0 ≤ a.code ∧ x = d.take a.code.toNat := by
    intro x
    simp only [taken, List.mem_filterMap]
    constructor
    · rintro ⟨⟨c, a⟩, hm, hx⟩
      cases c <;> simp only [reduceCtorEq] at hx
      split at hx
      · rename_i h0
        exact ⟨_, a, hm, h0, by simpa using hx.symm⟩
      · simp at hx
    · rintro ⟨d, a, hm, h0, rfl⟩
      exact ⟨(.write d, a), hm, by simp [h0]⟩
  have hd : ∀ d a, (TlsCall.write d, a) ∈ l → delivered l = [d] := by
    intro d a hm
    refine (hoff d ?_).1
    simp only [offered, List.mem_filterMap]
    exact ⟨(.write d, a), hm, rfl⟩
  constructor
  · intro he d a hm h0
    have h1 := (hmem (d.take a.code.toNat)).2 ⟨d, a, hm, h0, rfl⟩
    rw [he, hd d a hm, List.mem_singleton] at h1
    have := congrArg List.length h1
    rw [List.length_take] at this
    omega
  · intro hall
    rcases dtls_round_data L hL l true ret hl with h1 | ⟨d, h1, h2, h3, h4, -, h5⟩
    · rw [h1.1, h1.2.2]
    · rcases h5 with h5 | ⟨-, t, k, hk, hk0, h5⟩
      · exact absurd h5.1 (by simp)
      · obtain ⟨d', a, hm, h0, hx⟩ := (hmem _).1 (by rw [h5]; exact List.mem_singleton.2 rfl)
        have hdd := hd d' a hm
        have := hall d' a hm h0
        rw [h5, hx, hdd, List.take_of_length_le (by omega)]

/-- C76, exactly when `read` tells what happened: it says true for data if and only if the read brought data or the connection was closed; any
other failure, and an end of the data, is told as data. -/
theorem dtls_read_right_iff (L : TlsLib) (fuel : Nat) (buf : List UInt8) (tr tr' : TlsTrace) (ok : Bool) (buf' : List UInt8)
    (h : dtlsRead L fuel buf tr = some (tr', ok, buf')) :
    ∃ before a, tr' = tr ++ before ++ [(.read buf.length, a)] ∧ ((ok = true ↔ 0 < a.code) ↔ 0 < a.code ∨ a.code = sslPeerClose) := by
  obtain ⟨before, a, h1, h2, -⟩ := dtls_read_false_partial L fuel buf tr tr' ok buf' h
  refine ⟨before, a, h1, ?_⟩
  have hn : sslPeerClose < 0 := by decide
  cases ok with
  | true =>
    have hne : a.code ≠ sslPeerClose := fun he => by simpa using h2.2 he
    constructor
    · intro h; exact .inl (h.1 rfl)
    · rintro (h | h)
      · exact ⟨fun _ => h, fun _ => rfl⟩
      · exact absurd h hne
  | false =>
    have he := h2.1 rfl
    exact ⟨fun _ => .inr he, fun _ => ⟨fun h => by simp at h, fun h => by omega⟩⟩

/-- C46, exactly when the automatic reply is in place: an automatic reply is only sent for a request if the message is one (RFC 7252 section
12.1.1: code 0.01 to 0.31, not in an acknowledgement or a reset) or its path is known. -/
theorem auto_reply_right_iff {m : Msg} (hm : m.Ok) {cap : Nat} (hcap : 4 + m.token.length ≤ cap) {paths : List Uri.Entry}
    (hpf : ParentsFirst paths) (junk : Dec) (hb : junk.tbuf.length = 8) (jt : List UInt8) (hj : jt.length = 8) (fuel : Nat)
    (hf : 11 * (encMsg m).length + 6 ≤ fuel) :
    ∃ rs, serve cap paths junk jt fuel (encMsg m) = .ok rs ∧
      ((rs ≠ [] → m.type ≤ 1 ∧ 1 ≤ m.code ∧ m.code < 32) ↔
        (m.type ≤ 1 ∧ 1 ≤ m.code ∧ m.code < 32) ∨ ∃ q, q ≠ -1 ∧ Denotes paths (-1) (uriPath m) q) := by
  by_cases hk : ∃ q, q ≠ -1 ∧ Denotes paths (-1) (uriPath m) q
  · obtain ⟨q, hq, hd⟩ := hk
    exact ⟨_, known_path_no_reply hm hcap hpf hq hd junk hb jt hj fuel hf, fun _ => .inr ⟨q, hq, hd⟩, fun _ h => absurd rfl h⟩
  · refine ⟨_, unknown_path_404 hm hcap hpf (fun q hq hd => hk ⟨q, hq, hd⟩) junk hb jt hj fuel hf, fun h => .inl (h (by simp)), ?_⟩
    rintro (h | h) _
    · exact h
    · exact absurd h hk

/-! ## Cases that meet the hypotheses -/

/-- A library that takes all, one that takes two bytes. -/
example := fun tr' ret => dtls_echo_whole_iff (demoTls 100) (demoTls_conforms 100) 5 [] tr' ret
example : ((dtlsLoop (demoTls 100) 5 []).map fun r => (r.2, decide (taken r.1 = delivered r.1))) = some ((true, 0), true) ∧
    ((dtlsLoop (demoTls 2) 5 []).map fun r => (r.2, decide (taken r.1 = delivered r.1))) = some ((true, 0), false) := by decide +kernel

/-- Data; a connection that was closed; a failure told as data. -/
example : let lib (n : Int) : TlsLib := fun _ c => match c with
      | .read len => if 0 < n then ⟨min len 2, [104, 105].take len⟩ else ⟨n, []⟩
      | _ => ⟨0, []⟩
    ((dtlsRead (lib 2) 3 [0, 0, 0] []).map fun r => r.2.1) = some true ∧ ((dtlsRead (lib sslPeerClose) 3 [0, 0, 0] []).map fun r => r.2.1) = some false ∧
    ((dtlsRead (lib (-1)) 3 [0, 0, 0] []).map fun r => r.2.1) = some true := by decide +kernel

/-- An acknowledgement with a response is answered, which is wrong; a request with an unknown path is answered rightly. -/
example := auto_reply_right_iff (m := ⟨1, 2, 69, 7, [5], [], some [1]⟩) (by decide) (cap := 12) (by decide) (paths := [])
  (by intro pre e post h; simp at h) Dec.zero rfl (List.replicate 8 0) rfl 300 (by decide)

end Verif.Props
