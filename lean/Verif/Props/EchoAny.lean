import Verif.Props.EchoCuts
import Verif.Props.ServerStream

/-! # C69: the echo server with a subject and any datagram whatever, in any number of segments -/
namespace Verif.Props
open Verif.Model Verif.Spec Verif.Proofs Verif.Model.Header Verif.Model.Observable

theorem sees_report (b0 b1 b2 b3 : UInt8) (tok rest : List UInt8) :
    (reportOf b0 b1 b2 b3 tok rest).filter echoSees = [.header ⟨b0, b1, b2, b3⟩, .token tok, .completed] := by
  have : ((readRest 0 0 rest).1.map fun i => Event.option (UInt16.ofNat i.number) i.value i.complete).filter echoSees = [] := by
    simp [List.filter_eq_nil_iff, echoSees]
  unfold reportOf
  simp only [List.filter_append, this]
  cases (readRest 0 0 rest).2 <;> rfl

/-- C69 for the echo server and any datagram (partial: at most eight bytes of token are announced; `in_avail()` is 0 at the end
or the datagram does not end within an option; the one case of C13): in however many segments it comes, it is answered by
exactly one message: 2.03 with the message id and the token that the stream decoder sees. -/
theorem echo_subject_any_partial (k : SbKind) (bytes seen : List UInt8) (hs : seenBytes k.charSigned bytes = some seen)
    (h8 : tokenClaim seen ≤ 8) (hk : k.endNeg = false ∨ endsOpen (behindToken seen) = false) (junk : Dec) (hj : junk.tbuf.length = 8)
    (hst : junk.opt.st ≠ .payload ∨ 4 < seen.length) (cap : Nat) (hcap : 4 + tokenClaim seen ≤ cap)
    (paths : List Uri.Entry) (jt : List UInt8) (hjt : jt.length = 8) (cur : List UInt8) (more : List (List UInt8))
    (hcut : cur ++ more.flatten = bytes) :
    ∃ N, ∀ fuel, N ≤ fuel →
      serveWith (SCtx.echoEvent cap) k paths junk jt fuel ⟨cur, more⟩ = .ok [ackHead seen 0x43 ++ tokenOf seen] := by
  obtain ⟨b0, b1, b2, b3, tok, r1, rest, h1, h2, rfl, hc, hb, hl⟩ := seen_parts hs
  rw [hb] at hk
  have htl := (takeChars_length h2).1
  have hst' : junk.opt.st ≠ .payload ∨ tok ≠ [] ∨ rest ≠ [] := by
    rcases hst with h | h
    · exact Or.inl h
    · by_cases ht : tok = []
      · refine Or.inr (Or.inr ?_)
        rintro rfl
        subst ht
        simp at h
      · exact Or.inr (Or.inl ht)
  obtain ⟨N, d', evs, -, hp, hN⟩ := stream_bytes_reported_partial k junk hj b0 b1 b2 b3 tok bytes r1 rest h1 h2 (by omega) hst' hk cur more hcut
  have htok : tokenOf ([b0, b1, b2, b3] ++ tok ++ rest) = tok := by
    have : List.drop 4 ([b0, b1, b2, b3] ++ tok ++ rest) = tok ++ rest := by simp
    rw [tokenOf, hc, this, List.take_left' htl]
  refine ⟨N, fun fuel hf => ?_⟩
  simp only [serveWith, hN fuel hf]
  rw [run_sees, ← sees_glue, sees_parts hp, sees_report]
  have hr := any_reply (⟨hl, h8⟩ : HasToken ([b0, b1, b2, b3] ++ tok ++ rest)) (jt := jt.drop tok.length)
    (Uri.Matcher.init paths) [] cap 0x43
  have hh : sentHeader ([b0, b1, b2, b3] ++ tok ++ rest) = ⟨b0, b1, b2, b3⟩ := rfl
  rw [htok, hh] at hr
  have ht8 : tok.length ≤ 8 := by omega
  have h43 : (0x43 : UInt8) = codeValid := rfl
  rw [h43] at hr
  simp only [SCtx.runEvents, SCtx.echoEvent, SCtx.setToken, SCtx.setHeader, SCtx.init, hjt, ht8, if_true, hr, SCtx.send, List.nil_append]
  rw [List.take_of_length_le (by simp only [ackHead, List.length_append, List.length_cons, List.length_nil]; omega), htok]
  rfl

/-- C69: exactly which datagrams, in whatever segments, the echo server answers at all (previous content of the decoder as in
every one that starts anew): the others keep it waiting for ever, overflow its token buffer, or are read past their end. -/
theorem echo_subject_answers_iff (k : SbKind) (bytes : List UInt8) (junk : Dec) (hj : junk.tbuf.length = 8)
    (hst : junk.opt.st ≠ .payload) (cap : Nat) (hcap : 12 ≤ cap) (paths : List Uri.Entry) (jt : List UInt8) (hjt : jt.length = 8)
    (cur : List UInt8) (more : List (List UInt8)) (hcut : cur ++ more.flatten = bytes) :
    (∃ fuel rs, serveWith (SCtx.echoEvent cap) k paths junk jt fuel ⟨cur, more⟩ = .ok rs) ↔
      ∃ seen, seenBytes k.charSigned bytes = some seen ∧ tokenClaim seen ≤ 8 ∧
        (k.endNeg = false ∨ endsOpen (behindToken seen) = false) := by
  constructor
  · rintro ⟨fuel, rs, h⟩
    rw [serveWith] at h
    cases e : SDec.processToDone k fuel (Dec.fresh junk) ⟨cur, more⟩ with
    | error x => rw [e] at h; cases h
    | ok v =>
      obtain ⟨b0, b1, b2, b3, tok, r1, rest, h1, h2, h8, hk⟩ := (stream_bytes_complete_iff k junk hj hst cur more).1 ⟨fuel, v.1, v.2, e⟩
      rw [hcut] at h1
      have htk : tokenClaim [b0, b1, b2, b3] = (b0 &&& 0x0F).toNat := by rw [tkl_toNat]; rfl
      have hs : seenBytes k.charSigned bytes = some ([b0, b1, b2, b3] ++ tok ++ rest) := by
        simp only [seenBytes, h1, htk, h2, Option.map_some]
      have hc : tokenClaim ([b0, b1, b2, b3] ++ tok ++ rest) = (b0 &&& 0x0F).toNat := htk
      refine ⟨_, hs, by omega, ?_⟩
      rw [behindToken, hc, List.drop_left' (by rw [List.length_append, (takeChars_length h2).1]; rfl)]
      exact hk
  · rintro ⟨seen, hs, h8, hk⟩
    obtain ⟨N, hN⟩ := echo_subject_any_partial k bytes seen hs h8 hk junk hj (Or.inl hst) cap (by omega) paths jt hjt cur more hcut
    exact ⟨N, _, hN N (Nat.le_refl _)⟩

/-- C69 for the server with a path table and any datagram in one segment (partial: at most eight bytes of token are announced;
`in_avail()` is 0 at the end or the datagram does not end within an option): it is answered by exactly one message with the
message id and the token that the stream decoder sees: the version if the path in the datagram denotes that node, and 4.04
otherwise. -/
theorem boilerplate_any_partial (k : SbKind) (bytes seen : List UInt8) (hs : seenBytes k.charSigned bytes = some seen)
    (h8 : tokenClaim seen ≤ 8) (hk : k.endNeg = false ∨ endsOpen (behindToken seen) = false) (junk : Dec) (hj : junk.tbuf.length = 8)
    (text : List UInt8) (cap : Nat) (hcap : 6 + tokenClaim seen + text.length ≤ cap) {paths : List Uri.Entry}
    (hpf : ParentsFirst paths) {id : Int} (hid : id ≠ -1) (jt : List UInt8) (hjt : jt.length = 8) (jv : List UInt8) :
    ∃ N, ∀ fuel, N ≤ fuel →
      (Denotes paths (-1) (pathIn seen) id → serveWith (SCtx.boilerEvent cap id text jv) k paths junk jt fuel ⟨bytes, []⟩ =
        .ok [ackHead seen 0x45 ++ tokenOf seen ++ 0xC0 :: 0xFF :: text]) ∧
      (¬Denotes paths (-1) (pathIn seen) id → serveWith (SCtx.boilerEvent cap id text jv) k paths junk jt fuel ⟨bytes, []⟩ =
        .ok [ackHead seen 0x84 ++ tokenOf seen]) := by
  obtain ⟨-, -, -, -, -, -, -, -, -, -, -, -, hl⟩ := seen_parts hs
  obtain ⟨n, n', hall⟩ := decoder_sees_partial k bytes seen hs h8 hk junk hj
  obtain ⟨pay, d', c', hpay, hsaid⟩ := datagram_said junk hj seen ⟨hl, h8⟩
  refine ⟨n + (11 * seen.length + 65561), fun fuel hf => ?_⟩
  obtain ⟨f, rfl⟩ := Nat.exists_eq_add_of_le hf
  have htl := token_empty (⟨hl, h8⟩ : HasToken seen)
  have hrun := hall (11 * seen.length + 65561 + f)
  rw [hsaid _ (Nat.le_trans (Nat.le_add_right _ f) (Nat.le_add_left _ n')), ← Nat.add_assoc] at hrun
  simp only [serveWith, hrun]
  rw [boiler_before _ _ _ _ _ _ (by simp [itemEvents]) (by simp [itemEvents]), onEvents_upTo cap paths jt hjt seen ⟨hl, h8⟩]
  simp only
  have hskip := fun x => boiler_skips cap id text jv [.completed] (.optionsCompleted :: pay) x (by
    intro e he
    rcases List.mem_cons.1 he with rfl | he
    · exact Or.inl rfl
    · exact Or.inr (hpay e he))
  rw [← List.cons_append, hskip]
  simp only [SCtx.runEvents, SCtx.boilerEvent, SCtx.foundNode, any_reply (⟨hl, h8⟩ : HasToken seen),
    any_versionReply (⟨hl, h8⟩ : HasToken seen)]
  have t1 : (ackHead seen 0x45 ++ tokenOf seen ++ 0xC0 :: 0xFF :: text).take cap = ackHead seen 0x45 ++ tokenOf seen ++ 0xC0 :: 0xFF :: text :=
    List.take_of_length_le (by simp only [ackHead, List.length_append, List.length_cons, List.length_nil]; omega)
  have t2 : (ackHead seen 0x84 ++ tokenOf seen).take cap = ackHead seen 0x84 ++ tokenOf seen :=
    List.take_of_length_le (by simp only [ackHead, List.length_append, List.length_cons, List.length_nil]; omega)
  rw [t1, t2]
  refine ⟨fun hd => ?_, fun hd => ?_⟩
  · rw [if_pos (uri_path_found hpf hd)]
    rfl
  · rw [if_neg (fun he => hd ((uri_path_iff hpf _ (by rw [he]; exact hid)).mp rfl |> fun g => by rwa [he] at g))]
    rfl

/-- A request with an id that ends with 0xFF asks for the version by mistake: what is left of the header byte of its first
option is taken for the id, and the next option for the path. -/
example : seenBytes true [0x40, 1, 0x12, 0xFF, 0x70, 0xB1, 0x76] = some [0x40, 1, 0x12, 0x70, 0xB1, 0x76] ∧
    pathIn [0x40, 1, 0x12, 0x70, 0xB1, 0x76] = ["v".toList] ∧
    serveWith (SCtx.boilerEvent 64 4 [0x31] [0, 0, 0, 0]) ⟨true, true⟩ [⟨"v".toList, 4, -1⟩] Dec.zero (List.replicate 8 0) 60
      ⟨[0x40, 1, 0x12, 0xFF, 0x70, 0xB1, 0x76], []⟩ = .ok [[0x60, 0x45, 0x12, 0x70, 0xC0, 0xFF, 0x31]] := by
  refine ⟨by decide, ?_, by decide +kernel⟩
  simp [pathIn, behindToken, tokenClaim, readRest, readExt]

/-- Garbage behind the token, cut into three segments, with a byte 0xFF in the message id that is lost. -/
example : seenBytes true [0x51, 0, 0xFF, 7, 8, 9, 0xD3, 0xFF, 0xFF] = some [0x51, 0, 7, 8, 9, 0xD3, 0xFF, 0xFF] ∧
    serveWith (SCtx.echoEvent 64) ⟨true, false⟩ [] Dec.zero (List.replicate 8 0) 100 ⟨[0x51, 0], [[0xFF, 7, 8, 9, 0xD3], [0xFF, 0xFF]]⟩ =
      .ok [[0x61, 0x43, 7, 8, 9]] := by decide +kernel

end Verif.Props
