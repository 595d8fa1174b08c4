import Verif.Proofs.Chars
import Verif.Props.StreamAny

/-! # C27 for every sequence of bytes: what a stream decoder takes for header and token -/
namespace Verif.Props
open Verif.Model Verif.Proofs Verif.Spec Header Dec

theorem preS_inj_error (e : List Event) (x : Fault) : preS e (.error x) = .error x := rfl

theorem fresh_step (k : SbKind) (junk : Dec) (s : Sb) (f : Nat) :
    SDec.processToDone k (f + 1) (fresh junk) s = SDec.processToDone k f { fresh junk with st := .header, hpos := 0 } s.pull := by
  have hst : SDec.stepNotify k (fresh junk) s = .ok ({ fresh junk with st := .header, hpos := 0 }, s.pull, [], s.pull.cur.length == 0) := rfl
  rw [toDone_succ hst (by simp) f]
  cases SDec.processToDone k f { fresh junk with st := .header, hpos := 0 } s.pull with
  | error x => rfl
  | ok v => rfl

theorem toDone_pull (k : SbKind) (d : Dec) (s : Sb) (f : Nat) : SDec.processToDone k f d s.pull = SDec.processToDone k f d s := by
  cases f with
  | zero => rfl
  | succ f => simp only [SDec.processToDone, SDec.stepNotify, SDec.step, pull_pull]

/-- The decoder when the header has come. -/
def headed (junk : Dec) (b0 b1 b2 b3 : UInt8) : Dec := { fresh junk with st := .headerDone, hdr := ⟨b0, b1, b2, b3⟩, hpos := 4 }

/-- The decoder when it waits for the token. -/
def awaits (junk : Dec) (b0 b1 b2 b3 : UInt8) : Dec :=
  { headed junk b0 b1 b2 b3 with st := .token, tpos := 0, opt := { junk.opt with st := .garbage } }

theorem header_of (k : SbKind) (junk : Dec) (b0 b1 b2 b3 : UInt8) (s s' : Sb) (h : Chars k 4 s [b0, b1, b2, b3] s') :
    ∃ m, ∀ f, SDec.processToDone k (m + f) (fresh junk) s =
      preS [.header ⟨b0, b1, b2, b3⟩] (SDec.processToDone k f (headed junk b0 b1 b2 b3) s') := by
  obtain ⟨m, hm⟩ := header_chars h { fresh junk with st := .header, hpos := 0 } rfl (by omega) rfl
  refine ⟨m + 1, fun f => ?_⟩
  rw [show m + 1 + f = m + f + 1 by omega, fresh_step, toDone_pull, hm]
  rfl

theorem token_wait (k : SbKind) (junk : Dec) (b0 b1 b2 b3 : UInt8) (ht : 0 < (b0 &&& 0x0F).toNat) (s : Sb) (f : Nat) :
    SDec.processToDone k (f + 2) (headed junk b0 b1 b2 b3) s = SDec.processToDone k f (awaits junk b0 b1 b2 b3) s := by
  have hp : (headed junk b0 b1 b2 b3).hdr.tokenLength > 0 := by
    rw [gt_iff_lt, UInt8.lt_iff_toNat_lt]; exact ht
  have h1 : SDec.stepNotify k (headed junk b0 b1 b2 b3) s =
      .ok ({ headed junk b0 b1 b2 b3 with st := .tokenStart }, s.pull, [], s.pull.cur.length == 0) := by
    rw [SDec.stepNotify, SDec.step]
    simp only [show (headed junk b0 b1 b2 b3).st = .headerDone from rfl, hp, if_true]
    rfl
  have h2 : SDec.stepNotify k { headed junk b0 b1 b2 b3 with st := .tokenStart } s.pull =
      .ok (awaits junk b0 b1 b2 b3, s.pull.pull, [], s.pull.pull.cur.length == 0) := rfl
  rw [toDone_succ h1 (by simp) (f + 1), toDone_succ h2 (by simp [awaits]) f, preS_preS, toDone_pull, toDone_pull]
  cases SDec.processToDone k f (awaits junk b0 b1 b2 b3) s with
  | error x => rfl
  | ok v => rfl

/-- C27: what the decoder takes for header and token are the characters it sees.  Reading `raw`, it does what it does when
exactly these characters stand in front of what is left. -/
theorem stream_sees (k : SbKind) (junk : Dec) (hj : junk.tbuf.length = 8) (b0 b1 b2 b3 : UInt8) (tok raw r1 rest : List UInt8)
    (h1 : takeChars k.charSigned raw 4 = some ([b0, b1, b2, b3], r1))
    (h2 : takeChars k.charSigned r1 (b0 &&& 0x0F).toNat = some (tok, rest)) (h8 : (b0 &&& 0x0F).toNat ≤ 8) (s : Sb) (hs : total s = raw) :
    ∃ n n' s', total s' = [b0, b1, b2, b3] ++ tok ++ rest ∧ (s.more = [] → s'.more = []) ∧
      ∀ f, SDec.processToDone k (n + f) (fresh junk) s = SDec.processToDone k (n' + f) (fresh junk) s' := by
  obtain ⟨s1, e1, c1, m1⟩ := chars_of_take k h1 s hs
  obtain ⟨s2, e2, c2, m2⟩ := chars_of_take k h2 s1 e1
  have htl := (takeChars_length h2).1
  refine ?_
  by_cases h0 : (b0 &&& 0x0F).toNat = 0
  · have htok : tok = [] := List.length_eq_zero_iff.1 (by omega)
    subst htok
    have c2' := c2
    rw [h0] at c2'
    cases c2'
    obtain ⟨n, hn⟩ := header_of k junk b0 b1 b2 b3 s s1 c1
    obtain ⟨n', hn'⟩ := header_of k junk b0 b1 b2 b3 _ s1 (c1.lined_up s1)
    refine ⟨n, n', _, ?_, ?_, fun f => by rw [hn, hn']⟩
    · simp only [total, List.append_assoc, List.append_nil] at e2 ⊢
      rw [e2]
    · exact m1
  · obtain ⟨n, hn⟩ := header_of k junk b0 b1 b2 b3 s s1 c1
    obtain ⟨n', hn'⟩ := header_of k junk b0 b1 b2 b3 _ ⟨tok ++ s2.cur, s2.more⟩ (c1.lined_up ⟨tok ++ s2.cur, s2.more⟩)
    have hT : (awaits junk b0 b1 b2 b3).hdr.tokenLength.toNat = (b0 &&& 0x0F).toNat := rfl
    obtain ⟨q, hq⟩ := token_phase c2 (awaits junk b0 b1 b2 b3) rfl hj (by omega) (by rw [hT]; exact Nat.zero_add _) h8
    obtain ⟨q', hq'⟩ := token_phase (c2.lined_up s2) (awaits junk b0 b1 b2 b3) rfl hj (by omega) (by rw [hT]; exact Nat.zero_add _) h8
    refine ⟨n + (q + 2), n' + (q' + 2), ⟨[b0, b1, b2, b3] ++ (tok ++ s2.cur), s2.more⟩, ?_, fun x => m2 (m1 x), fun f => ?_⟩
    · simp only [total, List.append_assoc] at e2 ⊢
      rw [e2]
    · rw [show n + (q + 2) + f = n + (q + f + 2) by omega, show n' + (q' + 2) + f = n' + (q' + f + 2) by omega, hn, hn',
        token_wait k junk b0 b1 b2 b3 (by omega), token_wait k junk b0 b1 b2 b3 (by omega), hq, hq']

/-- C27: where the characters for header or token do not come, the decoder waits for ever. -/
theorem stream_waits (k : SbKind) (junk : Dec) (hj : junk.tbuf.length = 8) (raw : List UInt8) (s : Sb) (hs : total s = raw)
    (h : takeChars k.charSigned raw 4 = none ∨ ∃ b0 b1 b2 b3 r1, takeChars k.charSigned raw 4 = some ([b0, b1, b2, b3], r1) ∧
      takeChars k.charSigned r1 (min 9 (b0 &&& 0x0F).toNat) = none) (fuel : Nat) :
    SDec.processToDone k fuel (fresh junk) s = .error .outOfFuel := by
  rcases h with h | ⟨b0, b1, b2, b3, r1, h1, h2⟩
  · cases fuel with
    | zero => rfl
    | succ f =>
      rw [fresh_step, toDone_pull]
      exact header_stuck h s hs _ rfl rfl f
  · obtain ⟨s1, e1, c1, -⟩ := chars_of_take k h1 s hs
    obtain ⟨n, hn⟩ := header_of k junk b0 b1 b2 b3 s s1 c1
    by_cases h0 : (b0 &&& 0x0F).toNat = 0
    · rw [h0, Nat.min_zero, takeChars_zero] at h2; cases h2
    have key : SDec.processToDone k (n + (fuel + 2)) (fresh junk) s = .error .outOfFuel := by
      rw [hn, token_wait k junk b0 b1 b2 b3 (by omega), token_stuck h2 s1 e1 (awaits junk b0 b1 b2 b3) rfl hj (Nat.zero_add _) fuel]
      rfl
    by_cases hc : SDec.processToDone k fuel (fresh junk) s = .error .outOfFuel
    · exact hc
    · have := toDone_more k fuel (n + 2) (fresh junk) s hc
      rw [show fuel + (n + 2) = n + (fuel + 2) by omega, key] at this
      exact this.symm

/-- C27 fails: where more than eight bytes of token are announced and a ninth character comes, it is written behind the
token buffer. -/
theorem stream_overflows (k : SbKind) (junk : Dec) (hj : junk.tbuf.length = 8) (b0 b1 b2 b3 : UInt8) (raw r1 : List UInt8)
    (h1 : takeChars k.charSigned raw 4 = some ([b0, b1, b2, b3], r1)) (h8 : 8 < (b0 &&& 0x0F).toNat)
    (h2 : (takeChars k.charSigned r1 9).isSome = true) (s : Sb) (hs : total s = raw) :
    ∃ N, ∀ fuel, N ≤ fuel → SDec.processToDone k fuel (fresh junk) s = .error .tokenOverflow := by
  obtain ⟨⟨cs, rest⟩, h2⟩ := Option.isSome_iff_exists.1 h2
  obtain ⟨s1, e1, c1, -⟩ := chars_of_take k h1 s hs
  obtain ⟨s2, -, c2, -⟩ := chars_of_take k h2 s1 e1
  obtain ⟨n, hn⟩ := header_of k junk b0 b1 b2 b3 s s1 c1
  obtain ⟨q, hq⟩ := token_overflow c2 (awaits junk b0 b1 b2 b3) rfl hj (by omega) rfl h8
  refine ⟨n + (q + 2), fun fuel hf => ?_⟩
  obtain ⟨f, rfl⟩ := Nat.exists_eq_add_of_le hf
  rw [show n + (q + 2) + f = n + (q + f + 2) by omega, hn, token_wait k junk b0 b1 b2 b3 (by omega), hq]
  rfl

/-- C27 for every sequence of bytes and every cut into segments (partial: `in_avail()` is 0 at the end or what is left behind
header and token does not end within an option; the one case of C13): the decoder completes, and it reports header and token
from the characters it sees, and everything behind them as from one buffer, except that the payload comes segment by segment
and of an option value that is cut only the beginning. -/
theorem stream_bytes_reported_partial (k : SbKind) (junk : Dec) (hj : junk.tbuf.length = 8) (b0 b1 b2 b3 : UInt8)
    (tok raw r1 rest : List UInt8) (h1 : takeChars k.charSigned raw 4 = some ([b0, b1, b2, b3], r1))
    (h2 : takeChars k.charSigned r1 (b0 &&& 0x0F).toNat = some (tok, rest)) (h8 : (b0 &&& 0x0F).toNat ≤ 8)
    (hst : junk.opt.st ≠ .payload ∨ tok ≠ [] ∨ rest ≠ []) (hk : k.endNeg = false ∨ endsOpen rest = false)
    (cur : List UInt8) (more : List (List UInt8)) (hcut : cur ++ more.flatten = raw) :
    ∃ N d' evs, d'.st = .done ∧ Parts (glue evs) (reportOf b0 b1 b2 b3 tok rest) ∧
      ∀ fuel, N ≤ fuel → SDec.processToDone k fuel (fresh junk) ⟨cur, more⟩ = .ok (d', evs) := by
  obtain ⟨n, n', s', hs', -, hall⟩ := stream_sees k junk hj b0 b1 b2 b3 tok raw r1 rest h1 h2 h8 ⟨cur, more⟩ hcut
  have hl := takeChars_length h2
  have hl1 := (takeChars_length h1).2
  obtain ⟨N, d', evs, hd, hp, hN⟩ := stream_any_delivered_partial k junk hj b0 b1 b2 b3 tok rest hl.1 (by omega) hst
    (fun hs b hb => by
      rcases List.mem_append.1 hb with hb | hb
      · exact hl1 hs b hb
      · exact hl.2 hs b hb) hk s'.cur s'.more hs'
  refine ⟨n + N, d', evs, hd, hp, fun fuel hf => ?_⟩
  obtain ⟨f, rfl⟩ := Nat.exists_eq_add_of_le hf
  rw [Nat.add_assoc, hall, hN _ (by omega)]

/-- C27 fails where `in_avail()` is -1 at the end, on every sequence of bytes whose part behind header and token ends within
an option. -/
theorem stream_bytes_overread (k : SbKind) (hn : k.endNeg = true) (junk : Dec) (hj : junk.tbuf.length = 8) (b0 b1 b2 b3 : UInt8)
    (tok raw r1 rest : List UInt8) (h1 : takeChars k.charSigned raw 4 = some ([b0, b1, b2, b3], r1))
    (h2 : takeChars k.charSigned r1 (b0 &&& 0x0F).toNat = some (tok, rest)) (h8 : (b0 &&& 0x0F).toNat ≤ 8)
    (hk : endsOpen rest = true) (cur : List UInt8) (more : List (List UInt8)) (hcut : cur ++ more.flatten = raw) :
    ∃ N, ∀ fuel, N ≤ fuel → SDec.processToDone k fuel (fresh junk) ⟨cur, more⟩ = .error .chunkOverread := by
  obtain ⟨n, n', s', hs', -, hall⟩ := stream_sees k junk hj b0 b1 b2 b3 tok raw r1 rest h1 h2 h8 ⟨cur, more⟩ hcut
  have hl := takeChars_length h2
  have hl1 := (takeChars_length h1).2
  obtain ⟨N, hN⟩ := stream_any_overreads k hn junk hj b0 b1 b2 b3 tok rest hl.1 (by omega)
    (fun hs b hb => by
      rcases List.mem_append.1 hb with hb | hb
      · exact hl1 hs b hb
      · exact hl.2 hs b hb) hk s'.cur s'.more hs'
  refine ⟨n + N, fun fuel hf => ?_⟩
  obtain ⟨f, rfl⟩ := Nat.exists_eq_add_of_le hf
  rw [Nat.add_assoc, hall, hN _ (by omega)]

/-- C27: the decoder completes a stream, whatever its bytes and however they are cut into segments, exactly if the characters
it sees are enough for header and token, at most eight bytes of token are announced, and `in_avail()` is 0 at the end or what is
left does not end within an option. -/
theorem stream_bytes_complete_iff (k : SbKind) (junk : Dec) (hj : junk.tbuf.length = 8) (hst : junk.opt.st ≠ .payload)
    (cur : List UInt8) (more : List (List UInt8)) :
    (∃ fuel d' evs, SDec.processToDone k fuel (fresh junk) ⟨cur, more⟩ = .ok (d', evs)) ↔
      ∃ b0 b1 b2 b3 tok r1 rest, takeChars k.charSigned (cur ++ more.flatten) 4 = some ([b0, b1, b2, b3], r1) ∧
        takeChars k.charSigned r1 (b0 &&& 0x0F).toNat = some (tok, rest) ∧ (b0 &&& 0x0F).toNat ≤ 8 ∧
        (k.endNeg = false ∨ endsOpen rest = false) := by
  constructor
  · rintro ⟨fuel, d', evs, h⟩
    have never : ∀ x N, (∀ fuel, N ≤ fuel → SDec.processToDone k fuel (fresh junk) ⟨cur, more⟩ = .error x) → False := by
      intro x N hN
      have := toDone_more k fuel N (fresh junk) ⟨cur, more⟩ (by rw [h]; simp)
      rw [h, hN _ (by omega)] at this
      cases this
    cases h1 : takeChars k.charSigned (cur ++ more.flatten) 4 with
    | none => rw [stream_waits k junk hj _ ⟨cur, more⟩ rfl (Or.inl h1)] at h; cases h
    | some v =>
      obtain ⟨hd, r1⟩ := v
      obtain ⟨b0, b1, b2, b3, rfl⟩ : ∃ b0 b1 b2 b3, hd = [b0, b1, b2, b3] := by
        have := (takeChars_length h1).1
        match hd, this with
        | [b0, b1, b2, b3], _ => exact ⟨b0, b1, b2, b3, rfl⟩
      by_cases h8 : (b0 &&& 0x0F).toNat ≤ 8
      · cases h2 : takeChars k.charSigned r1 (b0 &&& 0x0F).toNat with
        | none =>
          rw [stream_waits k junk hj _ ⟨cur, more⟩ rfl (Or.inr ⟨b0, b1, b2, b3, r1, h1, by rw [Nat.min_eq_right (by omega)]; exact h2⟩)] at h
          cases h
        | some w =>
          obtain ⟨tok, rest⟩ := w
          refine ⟨b0, b1, b2, b3, tok, r1, rest, rfl, h2, h8, ?_⟩
          cases hn : k.endNeg with
          | false => exact Or.inl rfl
          | true =>
            refine Or.inr ?_
            cases he : endsOpen rest with
            | false => rfl
            | true =>
              obtain ⟨N, hN⟩ := stream_bytes_overread k hn junk hj b0 b1 b2 b3 tok _ r1 rest h1 h2 h8 he cur more rfl
              exact (never _ N hN).elim
      · exfalso
        cases h2 : takeChars k.charSigned r1 9 with
        | none =>
          rw [stream_waits k junk hj _ ⟨cur, more⟩ rfl (Or.inr ⟨b0, b1, b2, b3, r1, h1, by rw [Nat.min_eq_left (by omega)]; exact h2⟩)] at h
          cases h
        | some w =>
          obtain ⟨N, hN⟩ := stream_overflows k junk hj b0 b1 b2 b3 _ r1 h1 (by omega) (by rw [h2]; rfl) ⟨cur, more⟩ rfl
          exact never _ N hN
  · rintro ⟨b0, b1, b2, b3, tok, r1, rest, h1, h2, h8, hk⟩
    obtain ⟨N, d', evs, -, -, hN⟩ := stream_bytes_reported_partial k junk hj b0 b1 b2 b3 tok _ r1 rest h1 h2 h8 (Or.inl hst) hk cur more rfl
    exact ⟨N, d', evs, hN N (Nat.le_refl _)⟩

/-- Two bytes 0xFF in the header, one in the token, cut into three segments: they are gone. -/
example : takeChars true ([0x42, 0xFF] ++ [[1, 0xFF, 0, 1, 0xAA], [0xFF, 0xBB, 0xB1, 0x61]].flatten) 4 =
      some ([0x42, 1, 0, 1], [0xAA, 0xFF, 0xBB, 0xB1, 0x61]) ∧
    takeChars true [0xAA, 0xFF, 0xBB, 0xB1, 0x61] 2 = some ([0xAA, 0xBB], [0xB1, 0x61]) ∧
    (SDec.processToDone ⟨true, true⟩ 30 Dec.zero ⟨[0x42, 0xFF], [[1, 0xFF, 0, 1, 0xAA], [0xFF, 0xBB, 0xB1, 0x61]]⟩).map (·.2) =
      .ok [.header ⟨0x42, 1, 0, 1⟩, .token [0xAA, 0xBB], .optionStart, .option 11 [0x61] true, .optionsCompleted, .completed] := by
  decide +kernel

/-- With an unsigned type a stream of one byte is a message with a token of two bytes. -/
example : takeChars false [0x42] 4 = some ([0x42, 0xFF, 0xFF, 0xFF], []) ∧ takeChars false [] 2 = some ([0xFF, 0xFF], []) ∧
    (SDec.processToDone ⟨false, true⟩ 30 Dec.zero ⟨[], [[], [0x42]]⟩).map (·.2) =
      .ok [.header ⟨0x42, 0xFF, 0xFF, 0xFF⟩, .token [0xFF, 0xFF], .optionStart, .optionsCompleted, .completed] := by
  decide +kernel

/-- Nine bytes of token. -/
example : takeChars true [0x49, 1, 0, 1, 1, 2, 3, 4, 5, 6, 7, 8, 9] 4 = some ([0x49, 1, 0, 1], [1, 2, 3, 4, 5, 6, 7, 8, 9]) ∧
    (takeChars true [1, 2, 3, 4, 5, 6, 7, 8, 9] 9).isSome = true := by decide

/-- And a token that never comes. -/
example : takeChars true [0x42, 1, 0, 1, 0xFF] 4 = some ([0x42, 1, 0, 1], [0xFF]) ∧ takeChars true [0xFF] (min 9 2) = none := by decide

end Verif.Props
