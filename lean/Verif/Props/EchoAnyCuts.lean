import Verif.Props.EchoAny
import Verif.Props.StreamAnyExact

/-! # C69: the server with a path table and any datagram, in any number of segments -/
namespace Verif.Props
open Verif.Model Verif.Spec Verif.Proofs Verif.Model.Header Verif.Model.Observable

/-- The path in a datagram that comes in the segments `segs`: of the value of every option with the number of Uri-Path (modulo 65536)
the part in the segment in which the value starts. -/
def pathSeen (segs : List (List UInt8)) : List (List Char) :=
  ((cutRest segs (4 + tokenClaim segs.flatten) 0 0 (behindToken segs.flatten)).filter fun i => i.number % 65536 = 11).map fun i =>
    i.value.map fun b => Char.ofNat b.toNat

/-- C69 for the server with a path table and any datagram in any segments (partial: header and token are there, the token is at most
eight bytes long and, with a signed character type, none of these bytes is 0xFF; `in_avail()` is 0 at the end or the datagram does not end
within an option; the one case of C13): it is answered by exactly one message: the version if the path as it is seen in these
segments denotes that node, and 4.04 otherwise. -/
theorem boilerplate_any_segments_partial (k : SbKind) (cur : List UInt8) (more : List (List UInt8)) (bytes : List UInt8)
    (hcut : cur ++ more.flatten = bytes) (h : HasToken bytes)
    (hc : k.charSigned = true → ∀ b ∈ bytes.take (4 + tokenClaim bytes), b ≠ 0xFF)
    (hk : k.endNeg = false ∨ endsOpen (behindToken bytes) = false) (junk : Dec) (hj : junk.tbuf.length = 8)
    (hst : junk.opt.st ≠ .payload ∨ 4 < bytes.length)
    (text : List UInt8) (cap : Nat) (hcap : 6 + tokenClaim bytes + text.length ≤ cap) {paths : List Uri.Entry}
    (hpf : ParentsFirst paths) {id : Int} (hid : id ≠ -1) (jt : List UInt8) (hjt : jt.length = 8) (jv : List UInt8) :
    ∃ N, ∀ fuel, N ≤ fuel →
      (Denotes paths (-1) (pathSeen (cur :: more)) id → serveWith (SCtx.boilerEvent cap id text jv) k paths junk jt fuel ⟨cur, more⟩ =
        .ok [ackHead bytes 0x45 ++ tokenOf bytes ++ 0xC0 :: 0xFF :: text]) ∧
      (¬Denotes paths (-1) (pathSeen (cur :: more)) id → serveWith (SCtx.boilerEvent cap id text jv) k paths junk jt fuel ⟨cur, more⟩ =
        .ok [ackHead bytes 0x84 ++ tokenOf bytes]) := by
  have hl := h.1
  have h8 := h.2
  have hfl : (cur :: more).flatten = bytes := by simpa using hcut
  have htl := token_empty h
  obtain ⟨b0, b1, b2, b3, t, hbs⟩ := four_bytes bytes (by omega)
  have hk1 : (b0 &&& 0x0F).toNat = tokenClaim bytes := by rw [tkl_toNat, hbs]; rfl
  have ht : tokenOf bytes = t.take (tokenClaim bytes) := by rw [tokenOf, hbs]; rfl
  have hb : behindToken bytes = t.drop (tokenClaim bytes) := by
    unfold behindToken
    generalize tokenClaim bytes = n
    rw [hbs, Nat.add_comm]; rfl
  have hsplit : [b0, b1, b2, b3] ++ tokenOf bytes ++ behindToken bytes = bytes := by
    rw [ht, hb, List.append_assoc, List.take_append_drop, hbs]; rfl
  have htake : bytes.take (4 + tokenClaim bytes) = [b0, b1, b2, b3] ++ tokenOf bytes := by
    conv => lhs; arg 2; rw [← hsplit]
    exact List.take_left' (by rw [List.length_append, htl]; rfl)
  have hh : sentHeader bytes = ⟨b0, b1, b2, b3⟩ := by rw [hbs]; rfl
  obtain ⟨N, d', -, hall⟩ := stream_any_exact_partial k junk hj b0 b1 b2 b3 (tokenOf bytes) (behindToken bytes) (by rw [htl, hk1])
    (by rw [htl]; exact h8) (by
      rcases hst with h | h
      · exact Or.inl h
      · refine Or.inr ?_
        refine Classical.byContradiction fun hn => ?_
        have h1 : tokenOf bytes = [] := Classical.byContradiction fun g => hn (Or.inl g)
        have h2 : behindToken bytes = [] := Classical.byContradiction fun g => hn (Or.inr g)
        rw [h1, h2] at hsplit
        rw [← hsplit] at h
        simp at h) (by rw [← htake]; exact hc) hk cur more (by rw [hcut, hsplit])
  refine ⟨N, fun fuel hf => ?_⟩
  obtain ⟨pay, hpay, hrep⟩ : ∃ pay, (∀ e ∈ pay, ∃ p l, e = Event.payload p l) ∧
      anyStreamReport b0 b1 b2 b3 (tokenOf bytes) (behindToken bytes) (cur :: more) =
        ([.header (sentHeader bytes), .token (tokenOf bytes), .optionStart] ++
          itemEvents (cutRest (cur :: more) (4 + tokenClaim bytes) 0 0 (behindToken bytes))) ++ .optionsCompleted :: (pay ++ [.completed]) := by
    rw [hh]
    refine ⟨match (readRest 0 0 (behindToken bytes)).2 with
      | none => []
      | some p => payloadPieces (4 + (tokenOf bytes).length + (behindToken bytes).length - p.length) (cur :: more), ?_, ?_⟩
    · intro e he
      cases hp : (readRest 0 0 (behindToken bytes)).2 with
      | none => rw [hp] at he; simp at he
      | some p =>
        rw [hp] at he
        simp only [payloadPieces] at he
        split at he
        · exact ⟨_, _, List.mem_singleton.1 he⟩
        · exact pieceEvents_payload _ e he
    · simp only [anyStreamReport, itemEvents, htl, List.append_assoc, List.cons_append, List.nil_append]
      cases (readRest 0 0 (behindToken bytes)).2 <;> rfl
  simp only [serveWith, hall fuel hf, hrep]
  have hup : (SCtx.init paths jt).onEvents cap ([.header (sentHeader bytes), .token (tokenOf bytes), .optionStart] ++
      itemEvents (cutRest (cur :: more) (4 + tokenClaim bytes) 0 0 (behindToken bytes))) =
      .ok ⟨sentHeader bytes, tokenOf bytes ++ jt.drop (tokenClaim bytes), (Uri.Matcher.init paths).feed (pathSeen (cur :: more)), []⟩ := by
    rw [onEvents_append]
    simp only [SCtx.onEvents, SCtx.onEvent, SCtx.setToken, SCtx.setHeader, SCtx.init, hjt, htl, h8, if_true]
    rw [onEvents_items, pathSeen, hfl]
  rw [boiler_before _ _ _ _ _ _ (by simp [itemEvents]) (by simp [itemEvents]), hup]
  simp only
  have hskip := fun x => boiler_skips cap id text jv [.completed] (.optionsCompleted :: pay) x (by
    intro e he
    rcases List.mem_cons.1 he with rfl | he
    · exact Or.inl rfl
    · exact Or.inr (hpay e he))
  rw [← List.cons_append, hskip]
  simp only [SCtx.runEvents, SCtx.boilerEvent, SCtx.foundNode, any_reply h, any_versionReply h]
  have t1 : (ackHead bytes 0x45 ++ tokenOf bytes ++ 0xC0 :: 0xFF :: text).take cap = ackHead bytes 0x45 ++ tokenOf bytes ++ 0xC0 :: 0xFF :: text :=
    List.take_of_length_le (by simp only [ackHead, List.length_append, List.length_cons, List.length_nil]; omega)
  have t2 : (ackHead bytes 0x84 ++ tokenOf bytes).take cap = ackHead bytes 0x84 ++ tokenOf bytes :=
    List.take_of_length_le (by simp only [ackHead, List.length_append, List.length_cons, List.length_nil]; omega)
  rw [t1, t2]
  refine ⟨fun hd => ?_, fun hd => ?_⟩
  · rw [if_pos (uri_path_found hpf hd)]
    rfl
  · rw [if_neg (fun he => hd ((uri_path_iff hpf _ (by rw [he]; exact hid)).mp rfl |> fun g => by rwa [he] at g))]
    rfl

-- the path is `v`, a reserved length follows, and the name is whole in the second segment; then cut behind its first byte
example : pathSeen [[0x40, 1, 0, 7], [0xB2, 0x76, 0x77, 0x1F, 0]] = ["vw".toList] ∧
    pathSeen [[0x40, 1, 0, 7, 0xB2, 0x76], [0x77, 0x1F, 0]] = ["v".toList] := by
  constructor <;> simp [pathSeen, cutRest, readExt, restOfBuffer, tokenClaim, behindToken]
example : serveWith (SCtx.boilerEvent 64 4 [0x31] [0, 0, 0, 0]) ⟨true, true⟩ [⟨"v".toList, 4, -1⟩] Dec.zero (List.replicate 8 0) 60
    ⟨[0x40, 1, 0, 7, 0xB2, 0x76], [[0x77, 0x1F, 0, 0xFF, 1]]⟩ = .ok [[0x60, 0x45, 0, 7, 0xC0, 0xFF, 0x31]] := by decide +kernel

end Verif.Props
