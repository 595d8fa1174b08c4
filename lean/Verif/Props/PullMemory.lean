import Verif.Proofs.PullMemory
import Verif.Props.ExamplesAny
import Verif.Props.NoLeak

/-! # C106: nothing from memory in what the pull-style examples see and answer -/
namespace Verif.Props
open Verif.Model Verif.Spec Verif.Proofs Verif.Model.Header Pull Observable

/-- C106: two readers over the same bytes show the same options, the same rest and end in the same state, whatever was in memory
before; only that both or neither of the memories looks like a decoder in the payload is asked for. -/
theorem pull_no_leak_partial (bytes : List UInt8) (h : announcedTkl bytes ≤ 8 ∨ bytes.length < 13) (junk junk' : Dec)
    (hj : junk.tbuf.length = 8) (hj' : junk'.tbuf.length = 8) (hp : junk.opt.st = .payload ↔ junk'.opt.st = .payload) (fuel : Nat)
    (hf : 11 * bytes.length + 65600 ≤ fuel) :
    ∃ r r', readWith (iterAll fuel) (make junk bytes) = .ok r ∧ readWith (iterAll fuel) (make junk' bytes) = .ok r' ∧
      r.options = r'.options ∧ r.payload = r'.payload ∧ r.final = r'.final := by
  obtain ⟨r, _, e⟩ := pull_any_ends_partial junk hj bytes h
  obtain ⟨r', _, e'⟩ := pull_any_ends_partial junk' hj' bytes h
  exact ⟨r, r', (e fuel hf).1, (e' fuel hf).1, readings_agree hj hj' hp bytes fuel (e fuel hf).1 (e' fuel hf).1⟩

/-- C106: with a whole header in front the options shown do not depend on memory in any respect. -/
theorem pull_options_no_leak (bytes : List UInt8) (h4 : 4 ≤ bytes.length) (h : announcedTkl bytes ≤ 8 ∨ bytes.length < 13) (junk junk' : Dec)
    (hj : junk.tbuf.length = 8) (hj' : junk'.tbuf.length = 8) (fuel : Nat) (hf : 11 * bytes.length + 65600 ≤ fuel) :
    ∃ r r', readWith (iterAll fuel) (make junk bytes) = .ok r ∧ readWith (iterAll fuel) (make junk' bytes) = .ok r' ∧ r.options = r'.options := by
  obtain ⟨r, _, e⟩ := pull_any_ends_partial junk hj bytes h
  obtain ⟨r', _, e'⟩ := pull_any_ends_partial junk' hj' bytes h
  exact ⟨r, r', (e fuel hf).1, (e' fuel hf).1, options_agree hj hj' h4 fuel (e fuel hf).1 (e' fuel hf).1⟩

/-- C106: what the path, the observe and the discovery example send for a datagram that has its header and its token does not
depend on what was in memory before, nor does whether they come through, nor whom the observe example registers. -/
theorem examples_no_leak_partial (bytes : List UInt8) (h : HasToken bytes) (junk junk' : Dec) (hj : junk.tbuf.length = 8)
    (hj' : junk'.tbuf.length = 8) (jt jt' : List UInt8) (hjt : jt.length = 8)
    (hjt' : jt'.length = 8) (jh jh' : Header) (cap room fuel : Nat) (hroom : 12 ≤ room) (hf : 11 * bytes.length + 65600 ≤ fuel) :
    uriReply cap room fuel junk jt jh bytes = uriReply cap room fuel junk' jt' jh' bytes ∧
    (∀ {A : Type} (regCap : Nat) (reg : Registrar A) (addr : A),
      observeReply cap regCap room fuel junk jt jh reg addr bytes = observeReply cap regCap room fuel junk' jt' jh' reg addr bytes) ∧
    ∀ (paths : List Uri.Entry) (coredata : List Uri.CoREData) (title : Int → Option (List Char)) (idCore : Int),
      discoverReply room fuel paths coredata title idCore junk jt jh bytes =
        discoverReply room fuel paths coredata title idCore junk' jt' jh' bytes := by
  obtain ⟨r, r', e, e', ho⟩ := pull_options_no_leak bytes (by have := h.1; omega) (.inl (by rw [claim_eq]; exact h.2)) junk junk' hj hj' fuel hf
  have ha : ∀ paths, ∃ x x', incoming paths jt r = .ok x ∧ incoming paths jt' r' = .ok x' ∧ x.uri = x'.uri ∧ x.getToken = x'.getToken ∧
      ∀ code, (NEnc.init room).headerAndToken jh x code = (NEnc.init room).headerAndToken jh' x' code := by
    intro paths
    obtain ⟨x, a1, a2, a3, a4⟩ := echo_any h hj hjt e paths
    obtain ⟨x', b1, b2, b3, b4⟩ := echo_any h hj' hjt' e' paths
    exact ⟨x, x', a1, b1, a2.trans b2.symm, a3.trans b3.symm, fun code => (a4 room code jh hroom).trans (b4 room code jh' hroom).symm⟩
  refine ⟨?_, fun regCap reg addr => ?_, fun paths coredata title idCore => ?_⟩
  · obtain ⟨x, x', a, b, -, -, c⟩ := ha []
    simp only [uriReply, answer, e, e', a, b, ho, c]
  · obtain ⟨x, x', a, b, -, t, c⟩ := ha []
    simp only [observeReply, answer, e, e', a, b, ho, t, c]
  · obtain ⟨x, x', a, b, u, -, c⟩ := ha paths
    simp only [discoverReply, e, e', a, b, ho, u, c]

/-- Memory in which a header has been, told apart by its last byte. -/
def usedMemory (b : UInt8) : Dec := { Dec.zero with hdr := ⟨0, 0, 0, b⟩ }

/-- C106 fails for the path, the observe and the discovery example exactly for the datagrams that end inside the header or inside
the token they announce: for those there are two memories with different answers, for the others there are none. -/
theorem examples_leak_iff {A : Type} (bytes : List UInt8) (h8 : tokenClaim bytes ≤ 8) (jh : Header) (cap regCap room fuel : Nat)
    (hroom : 13 ≤ room) (hf : 11 * bytes.length + 65600 ≤ fuel) (reg : Registrar A) (addr : A) (paths : List Uri.Entry)
    (coredata : List Uri.CoREData) (title : Int → Option (List Char)) (idCore : Int) (hid : idCore ≠ Uri.none_) :
    ((∃ junk junk' : Dec, ∃ jt jt' : List UInt8, junk.tbuf.length = 8 ∧ junk'.tbuf.length = 8 ∧ jt.length = 8 ∧ jt'.length = 8 ∧
      uriReply cap room fuel junk jt jh bytes ≠ uriReply cap room fuel junk' jt' jh bytes) ↔ ¬HasToken bytes) ∧
    ((∃ junk junk' : Dec, ∃ jt jt' : List UInt8, junk.tbuf.length = 8 ∧ junk'.tbuf.length = 8 ∧ jt.length = 8 ∧ jt'.length = 8 ∧
      observeReply cap regCap room fuel junk jt jh reg addr bytes ≠ observeReply cap regCap room fuel junk' jt' jh reg addr bytes) ↔
      ¬HasToken bytes) ∧
    ((∃ junk junk' : Dec, ∃ jt jt' : List UInt8, junk.tbuf.length = 8 ∧ junk'.tbuf.length = 8 ∧ jt.length = 8 ∧ jt'.length = 8 ∧
      discoverReply room fuel paths coredata title idCore junk jt jh bytes ≠ discoverReply room fuel paths coredata title idCore junk' jt' jh bytes) ↔
      ¬HasToken bytes) := by
  obtain ⟨f, rfl⟩ : ∃ f, fuel = f + 1 := ⟨fuel - 1, by omega⟩
  have leak : ¬HasToken bytes → ∃ junk junk' : Dec, ∃ jt jt' : List UInt8, ∃ o o' : List UInt8,
      junk.tbuf.length = 8 ∧ junk'.tbuf.length = 8 ∧ jt.length = 8 ∧ jt'.length = 8 ∧ o ≠ o' ∧
      (uriReply cap room (f + 1) junk jt jh bytes = .ok o ∧ uriReply cap room (f + 1) junk' jt' jh bytes = .ok o') ∧
      (observeReply cap regCap room (f + 1) junk jt jh reg addr bytes = .ok (reg, o) ∧
        observeReply cap regCap room (f + 1) junk' jt' jh reg addr bytes = .ok (reg, o')) ∧
      (discoverReply room (f + 1) paths coredata title idCore junk jt jh bytes = .ok o ∧
        discoverReply room (f + 1) paths coredata title idCore junk' jt' jh bytes = .ok o') := by
    intro h
    by_cases h4 : 4 ≤ bytes.length
    · have hc : bytes.length < 4 + tokenClaim bytes := by
        unfold HasToken at h
        omega
      obtain ⟨a1, a2, a3⟩ := examples_cut_token_leak bytes h4 hc h8 Dec.zero rfl (List.replicate 8 0) rfl jh room hroom cap regCap f reg addr
        paths coredata title idCore hid
      obtain ⟨b1, b2, b3⟩ := examples_cut_token_leak bytes h4 hc h8 Dec.zero rfl (List.replicate 8 1) rfl jh room hroom cap regCap f reg addr
        paths coredata title idCore hid
      refine ⟨Dec.zero, Dec.zero, List.replicate 8 0, List.replicate 8 1, _, _, rfl, rfl, rfl, rfl, fun he => ?_, ⟨a1, b1⟩, ⟨a2, b2⟩, ⟨a3, b3⟩⟩
      have he := List.append_cancel_left (List.append_cancel_right he)
      obtain ⟨n, hn⟩ : ∃ n, tokenClaim bytes = n + 1 := ⟨tokenClaim bytes - 1, by omega⟩
      rw [hn] at he
      simp [List.replicate_succ] at he
    · have hlt : bytes.length < 4 := by omega
      have hm : ∀ b, tokenClaim (bytes ++ (usedMemory b).hdr.bytes.drop bytes.length) ≤ 8 := by
        intro b
        cases bytes with
        | nil => simp [tokenClaim, usedMemory, Header.bytes]
        | cons x xs => simpa [tokenClaim] using h8
      obtain ⟨o, ho, a1, a2, a3⟩ := examples_short_header_leak bytes hlt (usedMemory 0) (List.replicate 8 0) rfl jh room hroom (hm 0) cap regCap f
        reg addr paths coredata title idCore hid
      obtain ⟨o', ho', b1, b2, b3⟩ := examples_short_header_leak bytes hlt (usedMemory 1) (List.replicate 8 0) rfl jh room hroom (hm 1) cap regCap f
        reg addr paths coredata title idCore hid
      refine ⟨usedMemory 0, usedMemory 1, List.replicate 8 0, List.replicate 8 0, o, o', rfl, rfl, rfl, rfl, fun he => ?_, ⟨a1, b1⟩, ⟨a2, b2⟩, ⟨a3, b3⟩⟩
      rw [ho, ho'] at he
      have hd : ∀ b, (replyHead (bytes ++ (usedMemory b).hdr.bytes.drop bytes.length) 0x84)[3]? = some b := by
        intro b
        match bytes, hlt with
        | [], _ => rfl
        | [_], _ => rfl
        | [_, _], _ => rfl
        | [_, _, _], _ => rfl
      have hg := congrArg (fun l => l[3]?) he
      simp only [List.append_assoc] at hg
      rw [List.getElem?_append_left (by exact (by decide : 3 < 4)), List.getElem?_append_left (by exact (by decide : 3 < 4)), hd, hd] at hg
      exact absurd hg (by decide)
  refine ⟨⟨?_, ?_⟩, ⟨?_, ?_⟩, ⟨?_, ?_⟩⟩
  · rintro ⟨j, j', t, t', hj, hj', ht, ht', hne⟩ h
    exact hne (examples_no_leak_partial bytes h j j' hj hj' t t' ht ht' jh jh cap room _ (by omega) hf).1
  · intro h
    obtain ⟨j, j', t, t', o, o', hj, hj', ht, ht', hne, ⟨a, b⟩, -, -⟩ := leak h
    exact ⟨j, j', t, t', hj, hj', ht, ht', fun he => hne (by rw [a, b] at he; exact Except.ok.inj he)⟩
  · rintro ⟨j, j', t, t', hj, hj', ht, ht', hne⟩ h
    exact hne ((examples_no_leak_partial bytes h j j' hj hj' t t' ht ht' jh jh cap room _ (by omega) hf).2.1 regCap reg addr)
  · intro h
    obtain ⟨j, j', t, t', o, o', hj, hj', ht, ht', hne, -, ⟨a, b⟩, -⟩ := leak h
    exact ⟨j, j', t, t', hj, hj', ht, ht', fun he => hne (by rw [a, b] at he; exact (Prod.mk.inj (Except.ok.inj he)).2)⟩
  · rintro ⟨j, j', t, t', hj, hj', ht, ht', hne⟩ h
    exact hne ((examples_no_leak_partial bytes h j j' hj hj' t t' ht ht' jh jh cap room _ (by omega) hf).2.2 paths coredata title idCore)
  · intro h
    obtain ⟨j, j', t, t', o, o', hj, hj', ht, ht', hne, -, -, ⟨a, b⟩⟩ := leak h
    exact ⟨j, j', t, t', hj, hj', ht, ht', fun he => hne (by rw [a, b] at he; exact Except.ok.inj he)⟩

/-- C106 fails for the ping example that walks over the options for the same datagrams, those without a whole header among them. -/
theorem ping_walking_leak_iff (bytes : List UInt8) (h8 : tokenClaim bytes ≤ 8) (jh : Header) (room fuel : Nat) (hroom : 12 ≤ room)
    (hf : 11 * bytes.length + 65600 ≤ fuel) :
    (∃ junk junk' : Dec, ∃ jt jt' : List UInt8, junk.tbuf.length = 8 ∧ junk'.tbuf.length = 8 ∧ jt.length = 8 ∧ jt'.length = 8 ∧
      pingReply room junk jt jh (iterAll fuel) bytes ≠ pingReply room junk' jt' jh (iterAll fuel) bytes) ↔ ¬HasToken bytes := by
  constructor
  · rintro ⟨j, j', t, t', hj, hj', ht, ht', hne⟩ h
    exact hne (by rw [(ping_any_echo_partial bytes h j hj t ht jh room hroom).2 fuel hf,
      (ping_any_echo_partial bytes h j' hj' t' ht' jh room hroom).2 fuel hf])
  · intro h
    obtain ⟨f, rfl⟩ : ∃ f, fuel = f + 1 := ⟨fuel - 1, by omega⟩
    by_cases h4 : 4 ≤ bytes.length
    · have hc : bytes.length < 4 + tokenClaim bytes := by
        unfold HasToken at h
        omega
      refine ⟨Dec.zero, Dec.zero, List.replicate 8 0, List.replicate 8 1, rfl, rfl, rfl, rfl, fun he => ?_⟩
      rw [(ping_cut_token_leak bytes h4 hc h8 Dec.zero rfl _ rfl jh room hroom).2,
        (ping_cut_token_leak bytes h4 hc h8 Dec.zero rfl _ rfl jh room hroom).2] at he
      have he := List.append_cancel_left (Except.ok.inj he)
      obtain ⟨n, hn⟩ : ∃ n, tokenClaim bytes = n + 1 := ⟨tokenClaim bytes - 1, by omega⟩
      rw [hn] at he
      simp [List.replicate_succ] at he
    · have hlt : bytes.length < 4 := by omega
      have hm : ∀ b, tokenClaim (bytes ++ (usedMemory b).hdr.bytes.drop bytes.length) ≤ 8 := by
        intro b
        cases bytes with
        | nil => simp [tokenClaim, usedMemory, Header.bytes]
        | cons x xs => simpa [tokenClaim] using h8
      refine ⟨usedMemory 0, usedMemory 1, List.replicate 8 0, List.replicate 8 0, rfl, rfl, rfl, rfl, fun he => ?_⟩
      rw [ping_short_header_leak bytes hlt (usedMemory 0) _ rfl jh room f hroom (hm 0),
        ping_short_header_leak bytes hlt (usedMemory 1) _ rfl jh room f hroom (hm 1)] at he
      have hd : ∀ b, (replyHead (bytes ++ (usedMemory b).hdr.bytes.drop bytes.length) 0x45)[3]? = some b := by
        intro b
        match bytes, hlt with
        | [], _ => rfl
        | [_], _ => rfl
        | [_, _], _ => rfl
        | [_, _, _], _ => rfl
      have hg := congrArg (fun l => l[3]?) (Except.ok.inj he)
      rw [List.getElem?_append_left (by exact (by decide : 3 < 4)), List.getElem?_append_left (by exact (by decide : 3 < 4)), hd, hd] at hg
      exact absurd hg (by decide)

/-- C106 fails for the echo server with signed characters on datagrams that end inside the header, too. -/
theorem echo_short_leaks (neg : Bool) (bytes : List UInt8) (hl : bytes.length < 4) (hc : ∀ b ∈ bytes, b ≠ 0xFF) (h8 : tokenClaim bytes ≤ 8)
    (cap : Nat) (hcap : 4 ≤ cap) :
    ∃ junk junk' : Dec, junk.tbuf.length = 8 ∧ junk'.tbuf.length = 8 ∧
      echoReply ⟨true, neg⟩ cap junk ⟨bytes, []⟩ ≠ echoReply ⟨true, neg⟩ cap junk' ⟨bytes, []⟩ := by
  refine ⟨usedMemory 0, usedMemory 1, rfl, rfl, fun he => ?_⟩
  have ht : ∀ b : UInt8, (⟨bytes.getD 0 (usedMemory b).hdr.b0, bytes.getD 1 (usedMemory b).hdr.b1, bytes.getD 2 (usedMemory b).hdr.b2,
      (usedMemory b).hdr.b3⟩ : Header).tokenLength.toNat ≤ 8 := by
    intro b
    rw [tokenLength, show (15 : UInt8) = 0x0F from rfl, tkl_toNat]
    simpa [tokenClaim, usedMemory] using h8
  rw [echo_from_memory neg bytes hl hc cap (usedMemory 0) rfl _ rfl, echo_from_memory neg bytes hl hc cap (usedMemory 1) rfl _ rfl,
    if_pos (ht 0), if_pos (ht 1)] at he
  have hg := congrArg (fun l => l[3]?) (Except.ok.inj he)
  simp only [List.getElem?_take, show 3 < cap by omega, if_true] at hg
  simp [usedMemory] at hg

/-- A datagram of one to three bytes that announces a token of more than 8 bytes ends the three examples with a read past the token,
whatever memory held. -/
theorem examples_short_long_token {A : Type} (bytes : List UInt8) (h4 : bytes.length < 4) (h8 : 8 < tokenClaim bytes) (junk : Dec)
    (junkToken : List UInt8) (hjt : junkToken.length = 8) (junkHeader : Header) (room cap regCap fuel : Nat)
    (reg : Registrar A) (addr : A) (paths : List Uri.Entry) (coredata : List Uri.CoREData) (title : Int → Option (List Char)) (idCore : Int) :
    uriReply cap room (fuel + 1) junk junkToken junkHeader bytes = .error (.dec .tokenOverread) ∧
    observeReply cap regCap room (fuel + 1) junk junkToken junkHeader reg addr bytes = .error (.dec .tokenOverread) ∧
    discoverReply room (fuel + 1) paths coredata title idCore junk junkToken junkHeader bytes = .error (.dec .tokenOverread) := by
  obtain ⟨p, e⟩ := short_reading junk bytes h4 fuel
  have htk := sentHeader_tkl (bytes ++ junk.hdr.bytes.drop bytes.length)
  have hn : ¬ tokenClaim (bytes ++ junk.hdr.bytes.drop bytes.length) ≤ 8 := by
    cases bytes with
    | nil => simp [tokenClaim] at h8
    | cons x xs => simpa [tokenClaim] using h8
  refine ⟨?_, ?_, ?_⟩
  · simp only [uriReply, e, incoming, SCtx.init, SCtx.setHeader, SCtx.setToken, List.length_nil, Nat.zero_le, if_true,
      List.nil_append, List.drop_zero, uriLoop, answer, NEnc.headerAndToken, SCtx.getToken, htk, hjt, hn, if_false]
  · simp only [observeReply, e, incoming, SCtx.init, SCtx.setHeader, SCtx.setToken, List.length_nil, Nat.zero_le, if_true,
      List.nil_append, List.drop_zero, SCtx.getToken, htk, hjt, hn, if_false]
  · simp only [discoverReply, e, incoming, SCtx.init, SCtx.setHeader, SCtx.setToken, List.length_nil, Nat.zero_le, if_true,
      List.nil_append, List.drop_zero, NEnc.headerAndToken, SCtx.getToken, htk, hjt, hn, if_false]

/-- C106 for the path, the observe and the discovery example on every datagram whatever: memory shows exactly where the
datagram ends inside its header or inside its token, and the length announced for the token is allowed.  (Announced lengths above 8 end in the same fault with every memory.) -/
theorem examples_leak_exact {A : Type} (bytes : List UInt8) (jh : Header) (cap regCap room fuel : Nat)
    (hroom : 13 ≤ room) (hf : 11 * bytes.length + 65600 ≤ fuel) (reg : Registrar A) (addr : A) (paths : List Uri.Entry)
    (coredata : List Uri.CoREData) (title : Int → Option (List Char)) (idCore : Int) (hid : idCore ≠ Uri.none_) :
    ((∃ junk junk' : Dec, ∃ jt jt' : List UInt8, junk.tbuf.length = 8 ∧ junk'.tbuf.length = 8 ∧ jt.length = 8 ∧ jt'.length = 8 ∧
      uriReply cap room fuel junk jt jh bytes ≠ uriReply cap room fuel junk' jt' jh bytes) ↔
      tokenClaim bytes ≤ 8 ∧ bytes.length < 4 + tokenClaim bytes) ∧
    ((∃ junk junk' : Dec, ∃ jt jt' : List UInt8, junk.tbuf.length = 8 ∧ junk'.tbuf.length = 8 ∧ jt.length = 8 ∧ jt'.length = 8 ∧
      observeReply cap regCap room fuel junk jt jh reg addr bytes ≠ observeReply cap regCap room fuel junk' jt' jh reg addr bytes) ↔
      tokenClaim bytes ≤ 8 ∧ bytes.length < 4 + tokenClaim bytes) ∧
    ((∃ junk junk' : Dec, ∃ jt jt' : List UInt8, junk.tbuf.length = 8 ∧ junk'.tbuf.length = 8 ∧ jt.length = 8 ∧ jt'.length = 8 ∧
      discoverReply room fuel paths coredata title idCore junk jt jh bytes ≠ discoverReply room fuel paths coredata title idCore junk' jt' jh bytes) ↔
      tokenClaim bytes ≤ 8 ∧ bytes.length < 4 + tokenClaim bytes) := by
  by_cases h8 : tokenClaim bytes ≤ 8
  · have hn : ¬HasToken bytes ↔ tokenClaim bytes ≤ 8 ∧ bytes.length < 4 + tokenClaim bytes := by
      unfold HasToken
      omega
    rw [← hn]
    exact examples_leak_iff bytes h8 jh cap regCap room fuel hroom hf reg addr paths coredata title idCore hid
  · obtain ⟨f, rfl⟩ : ∃ f, fuel = f + 1 := ⟨fuel - 1, by omega⟩
    obtain ⟨er, hl⟩ : ∃ er, ∀ (j : Dec), j.tbuf.length = 8 → ∀ t : List UInt8, t.length = 8 →
        uriReply cap room (f + 1) j t jh bytes = .error er ∧ observeReply cap regCap room (f + 1) j t jh reg addr bytes = .error er ∧
        discoverReply room (f + 1) paths coredata title idCore j t jh bytes = .error er := by
      by_cases h4 : 4 ≤ bytes.length
      · exact ⟨_, fun j hj t ht => examples_long_token_faults bytes h4 (by omega) j hj t ht jh room cap regCap f reg addr paths coredata title idCore⟩
      · exact ⟨_, fun j _ t ht => examples_short_long_token bytes (by omega) (by omega) j t ht jh room cap regCap f reg addr paths coredata title idCore⟩
    refine ⟨⟨?_, fun h => absurd h.1 h8⟩, ⟨?_, fun h => absurd h.1 h8⟩, ⟨?_, fun h => absurd h.1 h8⟩⟩
    · rintro ⟨j, j', t, t', hj, hj', ht, ht', hne⟩
      exact absurd ((hl j hj t ht).1.trans (hl j' hj' t' ht').1.symm) hne
    · rintro ⟨j, j', t, t', hj, hj', ht, ht', hne⟩
      exact absurd ((hl j hj t ht).2.1.trans (hl j' hj' t' ht').2.1.symm) hne
    · rintro ⟨j, j', t, t', hj, hj', ht, ht', hne⟩
      exact absurd ((hl j hj t ht).2.2.trans (hl j' hj' t' ht').2.2.symm) hne

theorem serveVersion_more {cap : Nat} {paths : List Uri.Entry} {id : Int} {text : List UInt8} {junk : Dec} {jt jv bytes : List UInt8} {f g : Nat}
    {rs : List (List UInt8)} (h : serveVersion cap paths id text junk jt jv f bytes = .ok rs) (hg : f ≤ g) :
    serveVersion cap paths id text junk jt jv g bytes = .ok rs := by
  rw [serveVersion] at h ⊢
  cases hp : Dec.processToDone f (Dec.fresh junk) ⟨bytes, 0, true⟩ with
  | error e => rw [hp] at h; cases h
  | ok r => rw [processToDone_mono hp hg]; rw [hp] at h; exact h

/-- The server with the version resource comes through only with a whole header and a whole token. -/
theorem version_survived_only {cap : Nat} {paths : List Uri.Entry} {id : Int} {text : List UInt8} {junk : Dec} (hj : junk.tbuf.length = 8)
    {jt jv bytes : List UInt8} {fuel : Nat} {rs : List (List UInt8)}
    (h : serveVersion cap paths id text junk jt jv fuel bytes = .ok rs) : HasToken bytes := by
  have mono := serveVersion_more h (by omega : fuel ≤ fuel + 6)
  refine Classical.byContradiction fun hn => ?_
  by_cases hc : bytes.length < 4 + tokenClaim bytes ∧ bytes.length < 13
  · rw [(cut_datagram_hangs bytes hc.1 hc.2 cap paths id text jt jv junk hj (fuel + 6) (by omega)).2] at mono
    cases mono
  · have h15 : tokenClaim bytes < 16 := Nat.mod_lt _ (by omega)
    have : 8 < tokenClaim bytes ∧ 13 ≤ bytes.length := by
      unfold HasToken at hn
      refine ⟨?_, ?_⟩ <;> omega
    rw [(long_token_datagram_overflows bytes this.1 this.2 cap paths id text jt jv junk hj (fuel + 6) (by omega)).2] at mono
    cases mono

/-- C106: whatever the datagram, what the server with the version resource sends does not depend on what was in its memory before,
and neither does whether it comes through (the buffer has room for the longest answer). -/
theorem version_no_leak {text : List UInt8} {cap : Nat} (hcap : 14 + text.length ≤ cap) {paths : List Uri.Entry} (hpf : ParentsFirst paths)
    {id : Int} (hid : id ≠ -1) (bytes : List UInt8) (junk junk' : Dec) (hb : junk.tbuf.length = 8) (hb' : junk'.tbuf.length = 8)
    (jt jt' : List UInt8) (hjt : jt.length = 8) (hjt' : jt'.length = 8) (jv jv' : List UInt8) (fuel : Nat) (rs : List (List UInt8))
    (h : serveVersion cap paths id text junk jt jv fuel bytes = .ok rs) :
    (∃ fuel', serveVersion cap paths id text junk' jt' jv' fuel' bytes = .ok rs) ∧
    ∀ fuel' rs', serveVersion cap paths id text junk' jt' jv' fuel' bytes = .ok rs' → rs' = rs := by
  have ht := version_survived_only hb h
  have h8 := ht.2
  have hsame := fun g hg => version_no_leak_partial bytes ht (text := text) (cap := cap) (by omega) hpf hid junk junk' hb hb' jt jt' hjt hjt' jv jv' g hg
  refine ⟨⟨max fuel (11 * bytes.length + 65561), ?_⟩, fun fuel' rs' h' => ?_⟩
  · rw [← hsame _ (Nat.le_max_right _ _)]
    exact serveVersion_more h (Nat.le_max_left _ _)
  · have e1 := serveVersion_more h (g := max (max fuel fuel') (11 * bytes.length + 65561)) (by omega)
    have e2 := serveVersion_more h' (g := max (max fuel fuel') (11 * bytes.length + 65561)) (by omega)
    rw [hsame _ (Nat.le_max_right _ _), e2] at e1
    exact Except.ok.inj e1

/-- C106 (partial: exclusions of `stream_server_same_partial`): the same with the stream decoder, for both servers. -/
theorem stream_no_leak_partial (k : SbKind) (hk : k.endNeg = false) (bytes : List UInt8)
    (hc : if k.charSigned then ∀ b ∈ bytes.take (4 + tokenClaim bytes), b ≠ 0xFF else 4 + tokenClaim bytes ≤ bytes.length)
    {text : List UInt8} {cap : Nat} (hcap : 14 + text.length ≤ cap) {paths : List Uri.Entry} (hpf : ParentsFirst paths)
    {id : Int} (hid : id ≠ -1) (junk junk' : Dec) (hb : junk.tbuf.length = 8) (hb' : junk'.tbuf.length = 8)
    (jt jt' : List UInt8) (hjt : jt.length = 8) (hjt' : jt'.length = 8) (jv jv' : List UInt8) :
    (∀ fuel fuel' rs rs', serveStream k cap paths junk jt fuel bytes = .ok rs → serveStream k cap paths junk' jt' fuel' bytes = .ok rs' → rs' = rs) ∧
    ((∃ fuel rs, serveStream k cap paths junk jt fuel bytes = .ok rs) ↔ ∃ fuel rs, serveStream k cap paths junk' jt' fuel bytes = .ok rs) ∧
    (∀ fuel fuel' rs rs', serveVersionStream k cap paths id text junk jt jv fuel bytes = .ok rs →
      serveVersionStream k cap paths id text junk' jt' jv' fuel' bytes = .ok rs' → rs' = rs) ∧
    ((∃ fuel rs, serveVersionStream k cap paths id text junk jt jv fuel bytes = .ok rs) ↔
      ∃ fuel rs, serveVersionStream k cap paths id text junk' jt' jv' fuel bytes = .ok rs) := by
  have e := fun fuel => stream_server_same_partial k hk bytes hc cap paths id text jt jv junk hb fuel
  have e' := fun fuel => stream_server_same_partial k hk bytes hc cap paths id text jt' jv' junk' hb' fuel
  refine ⟨fun f f' rs rs' h h' => ?_, ⟨?_, ?_⟩, fun f f' rs rs' h h' => ?_, ⟨?_, ?_⟩⟩
  · rw [(e f).1] at h
    rw [(e' f').1] at h'
    exact (auto_replies_no_leak cap (by omega) hpf bytes junk junk' hb hb' jt jt' hjt hjt' f rs h).2 f' rs' h'
  · rintro ⟨f, rs, h⟩
    rw [(e f).1] at h
    obtain ⟨g, hg⟩ := (auto_replies_no_leak cap (by omega) hpf bytes junk junk' hb hb' jt jt' hjt hjt' f rs h).1
    exact ⟨g, rs, by rw [(e' g).1]; exact hg⟩
  · rintro ⟨f, rs, h⟩
    rw [(e' f).1] at h
    obtain ⟨g, hg⟩ := (auto_replies_no_leak cap (by omega) hpf bytes junk' junk hb' hb jt' jt hjt' hjt f rs h).1
    exact ⟨g, rs, by rw [(e g).1]; exact hg⟩
  · rw [(e f).2] at h
    rw [(e' f').2] at h'
    exact (version_no_leak hcap hpf hid bytes junk junk' hb hb' jt jt' hjt hjt' jv jv' f rs h).2 f' rs' h'
  · rintro ⟨f, rs, h⟩
    rw [(e f).2] at h
    obtain ⟨g, hg⟩ := (version_no_leak hcap hpf hid bytes junk junk' hb hb' jt jt' hjt hjt' jv jv' f rs h).1
    exact ⟨g, rs, by rw [(e' g).2]; exact hg⟩
  · rintro ⟨f, rs, h⟩
    rw [(e' f).2] at h
    obtain ⟨g, hg⟩ := (version_no_leak hcap hpf hid bytes junk' junk hb' hb jt' jt hjt' hjt jv' jv f rs h).1
    exact ⟨g, rs, by rw [(e g).2]; exact hg⟩

/-- C105 fails for the path, the observe and the discovery example on every datagram that ends inside its header or inside its token:
the answer is longer than the datagram. -/
theorem examples_cut_longer {A : Type} (bytes : List UInt8) (h8 : tokenClaim bytes ≤ 8) (hc : bytes.length < 4 + tokenClaim bytes) (junk : Dec)
    (hj : junk.tbuf.length = 8) (hh : 4 ≤ bytes.length ∨ tokenClaim junk.hdr.bytes ≤ 8) (jt : List UInt8) (hjt : jt.length = 8) (jh : Header)
    (room : Nat) (hroom : 13 ≤ room) (cap regCap fuel : Nat) (reg : Registrar A) (addr : A) (paths : List Uri.Entry)
    (coredata : List Uri.CoREData) (title : Int → Option (List Char)) (idCore : Int) (hid : idCore ≠ Uri.none_) :
    ∃ out, bytes.length < out.length ∧ uriReply cap room (fuel + 1) junk jt jh bytes = .ok out ∧
      observeReply cap regCap room (fuel + 1) junk jt jh reg addr bytes = .ok (reg, out) ∧
      discoverReply room (fuel + 1) paths coredata title idCore junk jt jh bytes = .ok out := by
  by_cases h4 : 4 ≤ bytes.length
  · obtain ⟨a1, a2, a3⟩ := examples_cut_token_leak bytes h4 hc h8 junk hj jt hjt jh room hroom cap regCap fuel reg addr paths coredata title
      idCore hid
    refine ⟨_, ?_, a1, a2, a3⟩
    simp only [List.length_append, List.length_take, hjt, replyHead, List.length_cons, List.length_nil]
    omega
  · have hm : tokenClaim (bytes ++ junk.hdr.bytes.drop bytes.length) ≤ 8 := by
      cases bytes with
      | nil => simpa using hh.resolve_left h4
      | cons x xs => simpa [tokenClaim] using h8
    obtain ⟨o, ho, a1, a2, a3⟩ := examples_short_header_leak bytes (by omega) junk jt hjt jh room hroom hm cap regCap fuel reg addr paths coredata
      title idCore hid
    refine ⟨o, ?_, a1, a2, a3⟩
    rw [ho]
    simp only [List.length_append, List.length_take, hjt, replyHead, List.length_cons, List.length_nil]
    omega

end Verif.Props
