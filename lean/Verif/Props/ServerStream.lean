import Verif.Props.ServerAny
import Verif.Props.StreamChars

/-! # C87 with the stream decoder, for every datagram and every kind of stream -/
namespace Verif.Props
open Verif.Model Verif.Spec Verif.Proofs Verif.Model.Header

theorem seen_parts {k : SbKind} {bytes seen : List UInt8} (h : seenBytes k.charSigned bytes = some seen) :
    ∃ b0 b1 b2 b3 tok r1 rest, takeChars k.charSigned bytes 4 = some ([b0, b1, b2, b3], r1) ∧
      takeChars k.charSigned r1 (b0 &&& 0x0F).toNat = some (tok, rest) ∧ seen = [b0, b1, b2, b3] ++ tok ++ rest ∧
      tokenClaim seen = (b0 &&& 0x0F).toNat ∧ behindToken seen = rest ∧ 4 + tokenClaim seen ≤ seen.length := by
  unfold seenBytes at h
  cases h1 : takeChars k.charSigned bytes 4 with
  | none => rw [h1] at h; cases h
  | some v =>
    obtain ⟨hd, r1⟩ := v
    rw [h1] at h
    obtain ⟨b0, b1, b2, b3, rfl⟩ : ∃ b0 b1 b2 b3, hd = [b0, b1, b2, b3] := by
      have := (takeChars_length h1).1
      match hd, this with
      | [b0, b1, b2, b3], _ => exact ⟨b0, b1, b2, b3, rfl⟩
    have ht : tokenClaim [b0, b1, b2, b3] = (b0 &&& 0x0F).toNat := by rw [tkl_toNat]; rfl
    simp only [ht] at h
    cases h2 : takeChars k.charSigned r1 (b0 &&& 0x0F).toNat with
    | none => rw [h2] at h; cases h
    | some w =>
      obtain ⟨tok, rest⟩ := w
      rw [h2] at h
      simp only [Option.map_some, Option.some.injEq] at h
      have hl := (takeChars_length h2).1
      have hc : tokenClaim seen = (b0 &&& 0x0F).toNat := by rw [← h, tkl_toNat]; rfl
      refine ⟨b0, b1, b2, b3, tok, r1, rest, rfl, h2, h.symm, hc, ?_, ?_⟩
      · rw [behindToken, hc, ← h]
        exact List.drop_left' (by rw [List.length_append, hl]; rfl)
      · rw [hc, ← h, List.length_append, List.length_append, hl]; exact Nat.le_add_right _ _

/-- C27: up to the number of steps, decoding a stream of one segment is decoding a buffer that contains the bytes as the stream
decoder sees them (partial: at most eight bytes of token are announced; `in_avail()` is 0 at the end or the bytes do not end
within an option). -/
theorem decoder_sees_partial (k : SbKind) (bytes seen : List UInt8) (hs : seenBytes k.charSigned bytes = some seen)
    (h8 : tokenClaim seen ≤ 8) (hk : k.endNeg = false ∨ endsOpen (behindToken seen) = false) (junk : Dec) (hj : junk.tbuf.length = 8) :
    ∃ n n', ∀ f, SDec.processToDone k (n + f) (Dec.fresh junk) ⟨bytes, []⟩ =
      match Dec.processToDone (n' + f) (Dec.fresh junk) ⟨seen, 0, true⟩ with
      | .error e => .error e
      | .ok (d', _, evs) => .ok (d', evs) := by
  obtain ⟨b0, b1, b2, b3, tok, r1, rest, h1, h2, rfl, hc, hb, hl⟩ := seen_parts hs
  rw [hb] at hk
  have hl1 := (takeChars_length h1).2
  have hl2 := takeChars_length h2
  obtain ⟨n, n', s', hs', hm, hall⟩ := stream_sees k junk hj b0 b1 b2 b3 tok bytes r1 rest h1 h2 (by omega) ⟨bytes, []⟩ (by simp [total])
  have hs2 : s' = ⟨[b0, b1, b2, b3] ++ tok ++ rest, []⟩ := by
    obtain ⟨c, m⟩ := s'
    have hm := hm rfl
    simp only at hm
    subst hm
    simp only [total, List.flatten_nil, List.append_nil] at hs'
    rw [hs']
  subst hs2
  have hclean : k.charSigned = true → ∀ b ∈ [b0, b1, b2, b3] ++ tok, b ≠ 0xFF := fun hs b hb => by
    rcases List.mem_append.1 hb with hb | hb
    · exact hl1 hs b hb
    · exact hl2.2 hs b hb
  refine ⟨n, n', fun f => ?_⟩
  have hz : SDec.processToDone k (n' + f) (Dec.fresh junk) ⟨[b0, b1, b2, b3] ++ tok ++ rest, []⟩ =
      SDec.processToDone ⟨k.charSigned, false⟩ (n' + f) (Dec.fresh junk) ⟨[b0, b1, b2, b3] ++ tok ++ rest, []⟩ := by
    rcases hk with hk | hk
    · rw [← hk]
    · exact stream_any_same k junk hj b0 b1 b2 b3 tok rest hl2.1 (by omega) hclean hk _ [] (by simp) (n' + f)
  rw [hall, hz]
  refine stream_agrees_partial ⟨k.charSigned, false⟩ rfl ([b0, b1, b2, b3] ++ tok ++ rest) junk hj ?_ (n' + f)
  have hh : ((([b0, b1, b2, b3] ++ tok ++ rest).headD 0) &&& 0x0F).toNat = (b0 &&& 0x0F).toNat := rfl
  rw [hh]
  cases hsg : k.charSigned with
  | false => rw [hc] at hl; simpa using hl
  | true =>
    simp only [if_true]
    rw [List.take_left' (by rw [List.length_append, hl2.1]; rfl)]
    exact hclean hsg

/-- C87 (partial: at most eight bytes of token are announced; `in_avail()` is 0 at the end or the datagram does not end within
an option): up to the number of steps, the server with the stream decoder does with a datagram what it does with a buffer
that contains the datagram as the stream decoder sees it. -/
theorem server_sees_partial (k : SbKind) (bytes seen : List UInt8) (hs : seenBytes k.charSigned bytes = some seen)
    (h8 : tokenClaim seen ≤ 8) (hk : k.endNeg = false ∨ endsOpen (behindToken seen) = false)
    (cap : Nat) (paths : List Uri.Entry) (id : Int) (text jt jv : List UInt8) (junk : Dec) (hj : junk.tbuf.length = 8) :
    ∃ n n', ∀ f, serveStream k cap paths junk jt (n + f) bytes = serve cap paths junk jt (n' + f) seen ∧
      serveVersionStream k cap paths id text junk jt jv (n + f) bytes = serveVersion cap paths id text junk jt jv (n' + f) seen := by
  obtain ⟨n, n', hall⟩ := decoder_sees_partial k bytes seen hs h8 hk junk hj
  refine ⟨n, n', fun f => ?_⟩
  rw [serveStream, serve, serveVersionStream, serveVersion, hall]
  cases Dec.processToDone (n' + f) (Dec.fresh junk) ⟨seen, 0, true⟩ with
  | error e => exact ⟨rfl, rfl⟩
  | ok r => exact ⟨rfl, rfl⟩

/-- C87 fails: with a stream whose `in_avail()` is -1 at the end, every datagram that ends within an option makes the server
read past its end. -/
theorem server_open_end_overreads (k : SbKind) (hk : k.endNeg = true) (bytes seen : List UInt8)
    (hs : seenBytes k.charSigned bytes = some seen) (h8 : tokenClaim seen ≤ 8) (ho : endsOpen (behindToken seen) = true)
    (cap : Nat) (paths : List Uri.Entry) (id : Int) (text jt jv : List UInt8) (junk : Dec) (hj : junk.tbuf.length = 8) :
    ∃ N, ∀ fuel, N ≤ fuel → serveStream k cap paths junk jt fuel bytes = .error .chunkOverread ∧
      serveVersionStream k cap paths id text junk jt jv fuel bytes = .error .chunkOverread := by
  obtain ⟨b0, b1, b2, b3, tok, r1, rest, h1, h2, rfl, hc, hb, -⟩ := seen_parts hs
  rw [hb] at ho
  obtain ⟨N, hN⟩ := stream_bytes_overread k hk junk hj b0 b1 b2 b3 tok bytes r1 rest h1 h2 (by omega) ho bytes [] (by simp)
  exact ⟨N, fun fuel hf => by simp only [serveStream, serveVersionStream, hN fuel hf, and_self]⟩

/-- C87: exactly which datagrams the server with the stream decoder survives: those of which header and token are seen, with
at most eight bytes of token, and, where `in_avail()` is -1 at the end, that do not end within an option. -/
theorem stream_server_survives_iff (k : SbKind) (bytes : List UInt8) (cap : Nat) (paths : List Uri.Entry) (junk : Dec)
    (hj : junk.tbuf.length = 8) (jt : List UInt8) (hjt : jt.length = 8) :
    (∃ fuel rs, serveStream k cap paths junk jt fuel bytes = .ok rs) ↔
      ∃ seen, seenBytes k.charSigned bytes = some seen ∧ tokenClaim seen ≤ 8 ∧
        (k.endNeg = false ∨ endsOpen (behindToken seen) = false) := by
  constructor
  · rintro ⟨fuel, rs, h⟩
    have never : ∀ x N, (∀ f, N ≤ f → SDec.processToDone k f (Dec.fresh junk) ⟨bytes, []⟩ = .error x) → False := by
      intro x N hN
      rw [serveStream] at h
      cases e : SDec.processToDone k fuel (Dec.fresh junk) ⟨bytes, []⟩ with
      | error y => rw [e] at h; cases h
      | ok v =>
        have := toDone_more k fuel N (Dec.fresh junk) ⟨bytes, []⟩ (by rw [e]; simp)
        rw [e, hN _ (by omega)] at this
        cases this
    have ht : total ⟨bytes, []⟩ = bytes := by simp [total]
    cases h1 : takeChars k.charSigned bytes 4 with
    | none => exact (never .outOfFuel 0 fun f _ => stream_waits k junk hj bytes ⟨bytes, []⟩ ht (Or.inl h1) f).elim
    | some v =>
      obtain ⟨hd, r1⟩ := v
      obtain ⟨b0, b1, b2, b3, rfl⟩ : ∃ b0 b1 b2 b3, hd = [b0, b1, b2, b3] := by
        have := (takeChars_length h1).1
        match hd, this with
        | [b0, b1, b2, b3], _ => exact ⟨b0, b1, b2, b3, rfl⟩
      have htk : tokenClaim [b0, b1, b2, b3] = (b0 &&& 0x0F).toNat := by rw [tkl_toNat]; rfl
      by_cases h8 : (b0 &&& 0x0F).toNat ≤ 8
      · cases h2 : takeChars k.charSigned r1 (b0 &&& 0x0F).toNat with
        | none =>
          exact (never .outOfFuel 0 fun f _ => stream_waits k junk hj bytes ⟨bytes, []⟩ ht
            (Or.inr ⟨b0, b1, b2, b3, r1, h1, by rw [Nat.min_eq_right (by omega)]; exact h2⟩) f).elim
        | some w =>
          obtain ⟨tok, rest⟩ := w
          have hs : seenBytes k.charSigned bytes = some ([b0, b1, b2, b3] ++ tok ++ rest) := by
            simp only [seenBytes, h1, htk, h2, Option.map_some]
          have hc : tokenClaim ([b0, b1, b2, b3] ++ tok ++ rest) = (b0 &&& 0x0F).toNat := htk
          refine ⟨_, hs, by omega, ?_⟩
          cases hn : k.endNeg with
          | false => exact Or.inl rfl
          | true =>
            refine Or.inr ?_
            cases he : endsOpen (behindToken ([b0, b1, b2, b3] ++ tok ++ rest)) with
            | false => rfl
            | true =>
              rw [behindToken, hc, List.drop_left' (by rw [List.length_append, (takeChars_length h2).1]; rfl)] at he
              obtain ⟨N, hN⟩ := stream_bytes_overread k hn junk hj b0 b1 b2 b3 tok bytes r1 rest h1 h2 h8 he bytes [] (by simp)
              exact (never _ N hN).elim
      · exfalso
        cases h2 : takeChars k.charSigned r1 9 with
        | none =>
          exact never .outOfFuel 0 fun f _ => stream_waits k junk hj bytes ⟨bytes, []⟩ ht
            (Or.inr ⟨b0, b1, b2, b3, r1, h1, by rw [Nat.min_eq_left (by omega)]; exact h2⟩) f
        | some w =>
          obtain ⟨N, hN⟩ := stream_overflows k junk hj b0 b1 b2 b3 bytes r1 h1 (by omega) (by rw [h2]; rfl) ⟨bytes, []⟩ ht
          exact never _ N hN
  · rintro ⟨seen, hs, h8, hk⟩
    obtain ⟨-, -, -, -, -, -, -, -, -, -, -, -, hl⟩ := seen_parts hs
    obtain ⟨n, n', hall⟩ := server_sees_partial k bytes seen hs h8 hk cap paths 0 [] jt [] junk hj
    obtain ⟨pay, d', c', hpay, hsaid⟩ := datagram_said junk hj seen ⟨hl, h8⟩
    obtain ⟨x, hx, -⟩ := said_served cap paths jt hjt seen ⟨hl, h8⟩ pay hpay
    refine ⟨n + (11 * seen.length + 65561), x.sent, ?_⟩
    rw [(hall _).1, serve, hsaid _ (by omega)]
    simp only [hx]

/-- C87 (partial: the datagrams of `server_sees_partial`): the answer of the server with the stream decoder, for all steps from
some number on.  It carries the message id and the token that the stream decoder sees. -/
theorem stream_datagram_served_partial (k : SbKind) (bytes seen : List UInt8) (hs : seenBytes k.charSigned bytes = some seen)
    (h8 : tokenClaim seen ≤ 8) (hk : k.endNeg = false ∨ endsOpen (behindToken seen) = false)
    {cap : Nat} (hcap : 4 + tokenClaim seen ≤ cap) {paths : List Uri.Entry} (hpf : ParentsFirst paths) (junk : Dec)
    (hj : junk.tbuf.length = 8) (jt : List UInt8) (hjt : jt.length = 8) :
    ∃ N, ∀ fuel, N ≤ fuel →
      ((∃ q, q ≠ -1 ∧ Denotes paths (-1) (pathIn seen) q) → serveStream k cap paths junk jt fuel bytes = .ok []) ∧
      ((∀ q, q ≠ -1 → ¬Denotes paths (-1) (pathIn seen) q) →
        serveStream k cap paths junk jt fuel bytes = .ok [ackHead seen 0x84 ++ tokenOf seen]) := by
  obtain ⟨-, -, -, -, -, -, -, -, -, -, -, -, hl⟩ := seen_parts hs
  obtain ⟨n, n', hall⟩ := server_sees_partial k bytes seen hs h8 hk cap paths 0 [] jt [] junk hj
  refine ⟨n + (11 * seen.length + 65561), fun fuel hf => ?_⟩
  obtain ⟨f, rfl⟩ := Nat.exists_eq_add_of_le hf
  rw [Nat.add_assoc, (hall _).1]
  exact any_datagram_served_partial seen ⟨hl, h8⟩ hcap hpf junk hj jt hjt _
    (Nat.le_trans (Nat.le_add_right _ f) (Nat.le_add_left _ n'))

/-- C87 fails with a signed character type: the answer to a datagram without token whose message id ends with the byte 0xFF
carries another message id, whose last byte is the first byte behind the header; so does the path that decides it begin one
byte too late. -/
theorem stream_answer_wrong_id (k : SbKind) (hk : k.charSigned = true) (b0 b1 b2 b4 : UInt8) (rest : List UInt8)
    (h0 : b0.toNat % 16 = 0) (h1 : b1 ≠ 0xFF) (h2 : b2 ≠ 0xFF) (h4 : b4 ≠ 0xFF)
    (he : k.endNeg = false ∨ endsOpen rest = false) {cap : Nat} (hcap : 4 ≤ cap) {paths : List Uri.Entry} (hpf : ParentsFirst paths)
    (hd : ∀ q, q ≠ -1 → ¬Denotes paths (-1) (pathIn (b0 :: b1 :: b2 :: b4 :: rest)) q)
    (junk : Dec) (hj : junk.tbuf.length = 8) (jt : List UInt8) (hjt : jt.length = 8) :
    ∃ N, ∀ fuel, N ≤ fuel → serveStream k cap paths junk jt fuel (b0 :: b1 :: b2 :: 0xFF :: b4 :: rest) =
      .ok [[UInt8.ofNat (64 * (b0.toNat / 64) + 32), 0x84, b2, b4]] := by
  have f : ∀ b : UInt8, b ≠ 0xFF → (b == 0xFF) = false := fun b h => by simpa using h
  have h0' : b0 ≠ 0xFF := by rintro rfl; exact absurd h0 (by decide)
  have e : takeChars k.charSigned (b0 :: b1 :: b2 :: 0xFF :: b4 :: rest) 4 = some ([b0, b1, b2, b4], rest) := by
    rw [hk]
    simp [takeChars, f _ h0', f _ h1, f _ h2, f _ h4, takeChars_zero]
  have ht : tokenClaim [b0, b1, b2, b4] = 0 := h0
  have ht' : tokenClaim (b0 :: b1 :: b2 :: b4 :: rest) = 0 := h0
  have hs : seenBytes k.charSigned (b0 :: b1 :: b2 :: 0xFF :: b4 :: rest) = some (b0 :: b1 :: b2 :: b4 :: rest) := by
    simp only [seenBytes, e, ht, takeChars_zero, Option.map_some]
    rfl
  obtain ⟨N, hN⟩ := stream_datagram_served_partial k _ _ hs (by rw [ht']; exact Nat.zero_le 8)
    (by rw [behindToken, ht']; exact he) (by rw [ht']; exact hcap) hpf junk hj jt hjt
  refine ⟨N, fun fuel hf => ?_⟩
  rw [(hN fuel hf).2 hd]
  simp [ackHead, tokenOf, ht', h0]

/-- A request with message id 0x12FF is answered with message id 0x12C0, and its first option is lost. -/
example : seenBytes true [0x40, 1, 0x12, 0xFF, 0xC0, 0xB1, 0x61] = some [0x40, 1, 0x12, 0xC0, 0xB1, 0x61] ∧
    serveStream ⟨true, true⟩ 64 [] Dec.zero (List.replicate 8 0) 300 [0x40, 1, 0x12, 0xFF, 0xC0, 0xB1, 0x61] =
      .ok [[0x60, 0x84, 0x12, 0xC0]] := by decide +kernel

example : endsOpen (behindToken [0x40, 1, 0x12, 0xC0, 0xB1, 0x61]) = false ∧ endsOpen (behindToken [0x40, 1, 0x12, 0xC0, 0xB2, 0x61]) = true := by
  simp [endsOpen, readExt, behindToken, tokenClaim]

example : serveStream ⟨true, true⟩ 64 [] Dec.zero (List.replicate 8 0) 300 [0x40, 1, 0x12, 0xC0, 0xB2, 0x61] = .error .chunkOverread := by
  decide +kernel

end Verif.Props
