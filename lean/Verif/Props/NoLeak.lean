import Verif.Props.Amplify

/-! # C106: nothing from memory in an answer -/
namespace Verif.Props
open Verif.Model Verif.Spec Verif.Proofs Verif.Model.Header Pull Observable

/-- C106: whatever the datagram, what the server with automatic replies sends does not depend on what was in its memory before,
and neither does whether it comes through. -/
theorem auto_replies_no_leak (cap : Nat) (hcap : 12 ≤ cap) {paths : List Uri.Entry} (hpf : ParentsFirst paths) (bytes : List UInt8)
    (junk junk' : Dec) (hb : junk.tbuf.length = 8) (hb' : junk'.tbuf.length = 8) (jt jt' : List UInt8) (hjt : jt.length = 8) (hjt' : jt'.length = 8)
    (fuel : Nat) (rs : List (List UInt8)) (h : serve cap paths junk jt fuel bytes = .ok rs) :
    (∃ fuel', serve cap paths junk' jt' fuel' bytes = .ok rs) ∧
    ∀ fuel' rs', serve cap paths junk' jt' fuel' bytes = .ok rs' → rs' = rs := by
  have ht : HasToken bytes := (datagram_survived_iff bytes cap paths junk hb jt hjt).mp ⟨fuel, rs, h⟩
  have h8 := ht.2
  have hsame : ∀ g, 11 * bytes.length + 65561 ≤ g → serve cap paths junk jt g bytes = serve cap paths junk' jt' g bytes := by
    intro g hg
    obtain ⟨h1, h2⟩ := any_datagram_served_partial bytes ht (cap := cap) (by omega) hpf junk hb jt hjt g hg
    obtain ⟨h1', h2'⟩ := any_datagram_served_partial bytes ht (cap := cap) (by omega) hpf junk' hb' jt' hjt' g hg
    by_cases hd : ∃ q, q ≠ -1 ∧ Denotes paths (-1) (pathIn bytes) q
    · rw [h1 hd, h1' hd]
    · rw [h2 fun q hq hq' => hd ⟨q, hq, hq'⟩, h2' fun q hq hq' => hd ⟨q, hq, hq'⟩]
  refine ⟨⟨max fuel (11 * bytes.length + 65561), ?_⟩, fun fuel' rs' h' => ?_⟩
  · rw [← hsame _ (Nat.le_max_right _ _)]
    exact serve_more h (Nat.le_max_left _ _)
  · have e1 := serve_more h (g := max (max fuel fuel') (11 * bytes.length + 65561)) (by omega)
    have e2 := serve_more h' (g := max (max fuel fuel') (11 * bytes.length + 65561)) (by omega)
    rw [hsame _ (Nat.le_max_right _ _), e2] at e1
    exact Except.ok.inj e1

/-- C106 (partial: complete header and token, room for the answer): nor does what the version resource sends. -/
theorem version_no_leak_partial (bytes : List UInt8) (h : HasToken bytes) {text : List UInt8} {cap : Nat}
    (hcap : 6 + tokenClaim bytes + text.length ≤ cap) {paths : List Uri.Entry} (hpf : ParentsFirst paths) {id : Int} (hid : id ≠ -1)
    (junk junk' : Dec) (hb : junk.tbuf.length = 8) (hb' : junk'.tbuf.length = 8) (jt jt' : List UInt8) (hjt : jt.length = 8) (hjt' : jt'.length = 8)
    (jv jv' : List UInt8) (fuel : Nat) (hf : 11 * bytes.length + 65561 ≤ fuel) :
    serveVersion cap paths id text junk jt jv fuel bytes = serveVersion cap paths id text junk' jt' jv' fuel bytes := by
  obtain ⟨h1, h2, h3⟩ := any_datagram_version_partial bytes h hcap hpf hid junk hb jt hjt jv fuel hf
  obtain ⟨h1', h2', h3'⟩ := any_datagram_version_partial bytes h hcap hpf hid junk' hb' jt' hjt' jv' fuel hf
  by_cases hd : Denotes paths (-1) (pathIn bytes) id
  · rw [h1 hd, h1' hd]
  · by_cases hq : ∃ q, q ≠ -1 ∧ Denotes paths (-1) (pathIn bytes) q
    · obtain ⟨q, hq, hq'⟩ := hq
      have hne : q ≠ id := fun h => hd (h ▸ hq')
      rw [h2 ⟨q, hq, hne, hq'⟩, h2' ⟨q, hq, hne, hq'⟩]
    · rw [h3 fun q h h' => hq ⟨q, h, h'⟩, h3' fun q h h' => hq ⟨q, h, h'⟩]

/-- C106, exactly for the ping example: of the datagrams that announce a token of at most eight bytes behind a complete header,
the answer shows memory for those that do not contain the token. -/
theorem ping_leak_iff (bytes : List UInt8) (h4 : 4 ≤ bytes.length) (h8 : tokenClaim bytes ≤ 8) (junk : Dec) (hj : junk.tbuf.length = 8)
    (junkHeader : Header) (room : Nat) (hroom : 12 ≤ room) :
    (∃ t t' : List UInt8, t.length = 8 ∧ t'.length = 8 ∧
      pingReply room junk t junkHeader (fun p => .ok ([], p)) bytes ≠ pingReply room junk t' junkHeader (fun p => .ok ([], p)) bytes) ↔
      ¬HasToken bytes := by
  constructor
  · rintro ⟨t, t', ht, ht', hne⟩ h
    exact hne (by rw [(ping_any_echo_partial bytes h junk hj t ht junkHeader room hroom).1,
      (ping_any_echo_partial bytes h junk hj t' ht' junkHeader room hroom).1])
  · intro h
    have hc : bytes.length < 4 + tokenClaim bytes := by
      unfold HasToken at h
      omega
    refine ⟨List.replicate 8 0, List.replicate 8 1, rfl, rfl, fun he => ?_⟩
    rw [(ping_cut_token_leak bytes h4 hc h8 junk hj _ rfl junkHeader room hroom).1,
      (ping_cut_token_leak bytes h4 hc h8 junk hj _ rfl junkHeader room hroom).1] at he
    have he := List.append_cancel_left (Except.ok.inj he)
    obtain ⟨n, hn⟩ : ∃ n, tokenClaim bytes = n + 1 := ⟨tokenClaim bytes - 1, by omega⟩
    rw [hn] at he
    simp [List.replicate_succ] at he

/-- C106 (partial: exclusions of `echo_bytes_partial`): nor does what the echo server sends. -/
theorem echo_no_leak_partial (k : SbKind) (h : Header) (t rest : List UInt8) (ht : t.length = h.tokenLength.toNat) (h8 : t.length ≤ 8)
    (hc : k.charSigned = true → ∀ b ∈ [h.b0, h.b1, h.b2, h.b3] ++ t, b ≠ 0xFF) (hk : k.endNeg = false ∨ t ≠ [] ∨ ¬ HeaderLast rest) (cap : Nat)
    (junk junk' : Dec) (hj : junk.tbuf.length = 8) (hj' : junk'.tbuf.length = 8) (cur : List UInt8) (more : List (List UInt8))
    (hs : cur ++ more.flatten = [h.b0, h.b1, h.b2, h.b3] ++ t ++ rest) :
    echoReply k cap junk ⟨cur, more⟩ = echoReply k cap junk' ⟨cur, more⟩ := by
  rw [echo_bytes_partial k h t rest ht h8 hc hk cap junk hj cur more hs, echo_bytes_partial k h t rest ht h8 hc hk cap junk' hj' cur more hs]

/-- C106 fails for the echo server with signed characters: every datagram that ends inside the token it announces is answered
with bytes from memory. -/
theorem echo_leaks (neg : Bool) (h : Header) (t : List UInt8) (ht : t.length < h.tokenLength.toNat) (h8 : h.tokenLength.toNat ≤ 8)
    (hc : ∀ b ∈ [h.b0, h.b1, h.b2, h.b3] ++ t, b ≠ 0xFF) (cap : Nat) (hcap : 12 ≤ cap) (junk : Dec)
    (cur : List UInt8) (more : List (List UInt8)) (hs : cur ++ more.flatten = [h.b0, h.b1, h.b2, h.b3] ++ t) :
    ∃ b b' : List UInt8, b.length = 8 ∧ b'.length = 8 ∧
      echoReply ⟨true, neg⟩ cap { junk with tbuf := b } ⟨cur, more⟩ ≠ echoReply ⟨true, neg⟩ cap { junk with tbuf := b' } ⟨cur, more⟩ := by
  refine ⟨List.replicate 8 0, List.replicate 8 1, rfl, rfl, fun he => ?_⟩
  rw [echo_discloses neg h t ht h8 hc cap _ rfl cur more hs, echo_discloses neg h t ht h8 hc cap _ rfl cur more hs] at he
  have he := Except.ok.inj he
  have hl : ∀ x : UInt8, ([((h.setType acknowledgement).setCode codeValid).b0, codeValid, h.b2, h.b3] ++
      (t ++ ((List.replicate 8 x).drop t.length).take (h.tokenLength.toNat - t.length))).take cap =
      [((h.setType acknowledgement).setCode codeValid).b0, codeValid, h.b2, h.b3] ++
      (t ++ ((List.replicate 8 x).drop t.length).take (h.tokenLength.toNat - t.length)) := fun x =>
    List.take_of_length_le (by
      simp only [List.length_append, List.length_cons, List.length_nil, List.length_take, List.length_drop, List.length_replicate]
      omega)
  have he := (hl 0).symm.trans (he.trans (hl 1))
  have he := List.append_cancel_left (List.append_cancel_left he)
  obtain ⟨n, hn⟩ : ∃ n, 8 - t.length = n + 1 := ⟨8 - t.length - 1, by omega⟩
  obtain ⟨j, hj⟩ : ∃ j, h.tokenLength.toNat - t.length = j + 1 := ⟨h.tokenLength.toNat - t.length - 1, by omega⟩
  rw [List.drop_replicate, List.drop_replicate, hn, hj, List.replicate_succ, List.replicate_succ, List.take_succ_cons, List.take_succ_cons] at he
  exact absurd (List.cons.inj he).1 (by decide)

end Verif.Props
