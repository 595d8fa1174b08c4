import Verif.Props.ServerAny

/-! # C46: automatic replies to arbitrary datagrams breed replies -/
namespace Verif.Props
open Verif.Model Verif.Spec Verif.Proofs Verif.Model.Header

/-- The reply to a datagram is again a datagram with header and token, whose reply is itself and which names no path. -/
theorem reply_of_reply {bytes : List UInt8} (h : HasToken bytes) :
    HasToken (ackHead bytes 0x84 ++ tokenOf bytes) ∧
    tokenClaim (ackHead bytes 0x84 ++ tokenOf bytes) = tokenClaim bytes ∧
    ackHead (ackHead bytes 0x84 ++ tokenOf bytes) 0x84 ++ tokenOf (ackHead bytes 0x84 ++ tokenOf bytes) =
      ackHead bytes 0x84 ++ tokenOf bytes ∧
    pathIn (ackHead bytes 0x84 ++ tokenOf bytes) = [] := by
  have hl := token_empty h
  have h8 := h.2
  have hlt := (bytes.getD 0 0).toNat_lt
  have hc : tokenClaim (ackHead bytes 0x84 ++ tokenOf bytes) = tokenClaim bytes := by
    simp only [tokenClaim, ackHead, List.cons_append, List.getD_cons_zero, UInt8.toNat_ofNat']
    omega
  have hlen : (ackHead bytes 0x84 ++ tokenOf bytes).length = 4 + tokenClaim bytes := by simp [ackHead, hl]; omega
  have htok : tokenOf (ackHead bytes 0x84 ++ tokenOf bytes) = tokenOf bytes := by
    rw [tokenOf, hc, show (ackHead bytes 0x84 ++ tokenOf bytes).drop 4 = tokenOf bytes from rfl, List.take_of_length_le (by omega)]
  have hhead : ackHead (ackHead bytes 0x84 ++ tokenOf bytes) 0x84 = ackHead bytes 0x84 := by
    simp only [ackHead, List.cons_append, List.getD_cons_zero, List.getD_cons_succ, List.cons.injEq, and_true]
    refine congrArg UInt8.ofNat ?_
    rw [UInt8.toNat_ofNat']
    omega
  refine ⟨⟨by rw [hlen, hc]; omega, by rw [hc]; exact h8⟩, hc, by rw [hhead, htok], ?_⟩
  rw [pathIn, behindToken, hc, List.drop_of_length_le (by omega)]
  simp [readRest]

/-- C46 fails for every datagram of arbitrary bytes that gets an automatic reply at all, be its version, type and code
what they may: of two servers that each see what the other sends, each answers every time, for any number of rounds. -/
theorem auto_replies_breed_any (bytes : List UInt8) (h : HasToken bytes) (paths : Nat → List Uri.Entry) (n : Nat)
    (hpf : ParentsFirst (paths n)) (hd : ∀ q, q ≠ -1 → ¬Denotes (paths n) (-1) (pathIn bytes) q) (cap : Nat → Nat)
    (hcap : ∀ i, 4 + tokenClaim bytes ≤ cap i) (junk : Nat → Dec) (hb : ∀ i, (junk i).tbuf.length = 8)
    (jt : Nat → List UInt8) (hj : ∀ i, (jt i).length = 8) (fuel : Nat → Nat) (hf : ∀ i, 11 * bytes.length + 65561 ≤ fuel i) :
    exchange (fun i => serve (cap i) (paths i) (junk i) (jt i) (fuel i)) (n + 1) bytes =
      some (ackHead bytes 0x84 ++ tokenOf bytes) := by
  rw [exchange, (any_datagram_served_partial bytes h (hcap n) hpf (junk n) (hb n) (jt n) (hj n) (fuel n) (hf n)).2 hd]
  simp only
  obtain ⟨ht, hc, hr, hp⟩ := reply_of_reply h
  have hl : (ackHead bytes 0x84 ++ tokenOf bytes).length ≤ bytes.length := by
    have := h.1; simp [ackHead, token_empty h]; omega
  generalize hg : ackHead bytes 0x84 ++ tokenOf bytes = r at *
  clear hd hpf
  induction n with
  | zero => rfl
  | succ n ih =>
    obtain ⟨pay, d', c', hpay, hall⟩ := datagram_said (junk n) (hb n) r ht
    obtain ⟨x, hx, hs⟩ := said_served (cap n) (paths n) (jt n) (hj n) r ht pay hpay
    have : serve (cap n) (paths n) (junk n) (jt n) (fuel n) r = .ok [r] := by
      simp only [serve, hall (fuel n) (by have := hf n; omega), hx, hs]
      rw [hp, if_pos (show ((Uri.Matcher.init (paths n)).feed []).lastFound = -1 from rfl), hr, List.take_of_length_le]
      have := hcap n
      rw [← hg]; simp [ackHead, token_empty h]; omega
    rw [exchange, this]
    exact ih

/-- A datagram that is no message of RFC 7252, version 0 and a reserved code: it gets the reply, and the exchange never ends. -/
example : HasToken [0x11, 0xE0, 1, 2, 0xAB, 0xF0] ∧
    ackHead [0x11, 0xE0, 1, 2, 0xAB, 0xF0] 0x84 ++ tokenOf [0x11, 0xE0, 1, 2, 0xAB, 0xF0] = [0x21, 0x84, 1, 2, 0xAB] ∧
    pathIn [0x11, 0xE0, 1, 2, 0xAB, 0xF0] = [] := by
  refine ⟨by simp [HasToken, tokenClaim], by decide, ?_⟩
  simp [pathIn, behindToken, tokenClaim, readRest, readExt]

/-- A server with the version responder gives back the automatic reply it is sent, and answers its own text with the automatic reply. -/
theorem version_answers_replies (bytes : List UInt8) (h : HasToken bytes) {cap : Nat} (hcap : 4 + tokenClaim bytes ≤ cap)
    (paths : List Uri.Entry) {id : Int} (hid : id ≠ -1) (text jv : List UInt8) (junk : Dec) (hb : junk.tbuf.length = 8)
    (jt : List UInt8) (hjt : jt.length = 8) (fuel : Nat) (hp : pathIn bytes = []) (hf : 11 * bytes.length + 65561 ≤ fuel) :
    serveVersion cap paths id text junk jt jv fuel bytes = .ok [ackHead bytes 0x84 ++ tokenOf bytes] := by
  obtain ⟨pay, d', c', hpay, hall⟩ := datagram_said junk hb bytes h
  obtain ⟨x, hx, hs⟩ := said_answered cap paths id hid text jt jv hjt bytes h pay hpay
  simp only [serveVersion, hall fuel hf, hx, hs]
  rw [hp, if_pos (show ((Uri.Matcher.init paths).feed []).lastFound = -1 from rfl), List.take_of_length_le]
  simp [ackHead, token_empty h]; omega

/-- The text reply is a datagram with header and token that names no path; the automatic reply to it is the one to the request. -/
theorem reply_of_text {bytes : List UInt8} (h : HasToken bytes) (text : List UInt8) :
    let r := ackHead bytes 0x45 ++ tokenOf bytes ++ 0xC0 :: 0xFF :: text
    HasToken r ∧ ackHead r 0x84 ++ tokenOf r = ackHead bytes 0x84 ++ tokenOf bytes ∧ pathIn r = [] ∧ tokenClaim r = tokenClaim bytes := by
  intro r
  have hl := token_empty h
  have h8 := h.2
  have hlt := (bytes.getD 0 0).toNat_lt
  have hc : tokenClaim r = tokenClaim bytes := by
    simp only [r, tokenClaim, ackHead, List.cons_append, List.getD_cons_zero, UInt8.toNat_ofNat']
    omega
  have hlen : r.length = 6 + tokenClaim bytes + text.length := by simp [r, ackHead, hl]; omega
  have htok : tokenOf r = tokenOf bytes := by
    rw [tokenOf, hc, show r.drop 4 = tokenOf bytes ++ 0xC0 :: 0xFF :: text from rfl, ← hl, List.take_left]
  have hhead : ackHead r 0x84 = ackHead bytes 0x84 := by
    simp only [r, ackHead, List.cons_append, List.getD_cons_zero, List.getD_cons_succ, List.cons.injEq, and_true]
    refine congrArg UInt8.ofNat ?_
    rw [UInt8.toNat_ofNat']
    omega
  refine ⟨⟨by rw [hlen, hc]; omega, by rw [hc]; exact h8⟩, by rw [hhead, htok], ?_, hc⟩
  have : behindToken r = 0xC0 :: 0xFF :: text := by
    rw [behindToken, hc, ← List.drop_drop, show r.drop 4 = tokenOf bytes ++ 0xC0 :: 0xFF :: text from rfl, ← hl, List.drop_left]
  rw [pathIn, this]
  simp [readRest, readExt]

/-- C46 fails also for requests that are answered as they should be: the version responder's text is taken for a request by a server that
sees it, and from then on automatic replies go to and fro for any number of rounds. -/
theorem text_replies_breed (bytes : List UInt8) (h : HasToken bytes) (paths : Nat → List Uri.Entry) (n : Nat)
    (hpf : ParentsFirst (paths (n + 1))) (id : Nat → Int) (hid : ∀ i, id i ≠ -1) (hd : Denotes (paths (n + 1)) (-1) (pathIn bytes) (id (n + 1)))
    (cap : Nat → Nat) (text : Nat → List UInt8) (hcap : ∀ i, 6 + tokenClaim bytes + (text i).length ≤ cap i)
    (junk : Nat → Dec) (hb : ∀ i, (junk i).tbuf.length = 8) (jt : Nat → List UInt8) (hj : ∀ i, (jt i).length = 8) (jv : Nat → List UInt8)
    (fuel : Nat → Nat) (hf : ∀ i, 11 * (bytes.length + (text (n + 1)).length) + 65600 ≤ fuel i) :
    exchange (fun i => serveVersion (cap i) (paths i) (id i) (text i) (junk i) (jt i) (jv i) (fuel i)) (n + 2) bytes =
      some (ackHead bytes 0x84 ++ tokenOf bytes) := by
  have hl := token_empty h
  have h1 := h.1
  rw [exchange, (any_datagram_version_partial bytes h (hcap (n + 1)) hpf (hid _) (junk _) (hb _) (jt _) (hj _) (jv _) (fuel _)
    (by have := hf (n + 1); omega)).1 hd]
  simp only
  obtain ⟨ht, hr, hp, hc⟩ := reply_of_text h (text (n + 1))
  rw [exchange, version_answers_replies _ ht (by rw [hc]; have := hcap n; omega) (paths n) (hid n) (text n) (jv n) (junk n) (hb n) (jt n) (hj n)
    (fuel n) hp (by have := hf n; simp [ackHead, hl] at *; omega), hr]
  simp only
  clear ht hr hp hc
  obtain ⟨ht, hc, hr, hp⟩ := reply_of_reply h
  have hlen : (ackHead bytes 0x84 ++ tokenOf bytes).length ≤ bytes.length := by simp [ackHead, hl]; omega
  have key : ∀ k, exchange (fun i => serveVersion (cap i) (paths i) (id i) (text i) (junk i) (jt i) (jv i) (fuel i)) k
      (ackHead bytes 0x84 ++ tokenOf bytes) = some (ackHead bytes 0x84 ++ tokenOf bytes) := by
    intro k
    induction k with
    | zero => rfl
    | succ k ih =>
      rw [exchange, version_answers_replies _ ht (by rw [hc]; have := hcap k; omega) (paths k) (hid k) (text k) (jv k) (junk k) (hb k)
        (jt k) (hj k) (fuel k) hp (by have := hf k; omega), hr]
      exact ih
  exact key n

example : exchange (fun _ => serveVersion 64 uriSample 4 [0x31, 0x2E, 0x30] Dec.zero (List.replicate 8 0) [0, 0, 0, 0] 300) 4 (encMsg serverSample) =
    some [0x62, 0x84, 0x12, 0x34, 0xAA, 0xFF] := by decide +kernel

end Verif.Props
