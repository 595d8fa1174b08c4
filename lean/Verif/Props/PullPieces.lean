import Verif.Props.PullAny
import Verif.Props.ExamplesAny

/-! # C79, C80: what the pull-style decoder shows of any datagram are pieces of the datagram -/
namespace Verif.Props
open Verif.Model Header Dec OptDec Spec Pull Proofs Observable

/-- No call of `process_iterate` moves to another buffer. -/
theorem step_chunk {d d' : Dec} {c c' : Ctx} (e : d.step c = .ok (d', c')) : c'.chunk = c.chunk := by
  simp only [Dec.step] at e
  repeat' split at e
  all_goals first
    | cases e; done
    | (cases e; rfl)

theorem iterate_chunk {p q : Pull} (e : p.iterate = .ok q) : q.c.chunk = p.c.chunk := by
  simp only [iterate] at e
  split at e
  · cases e
  · rename_i d c hs
    cases e
    exact step_chunk hs

theorem until_chunk (s : DState) : ∀ (n : Nat) (p : Pull) (b : Bool) (q : Pull), processUntil s n p = .ok (b, q) → q.c.chunk = p.c.chunk
  | 0, p, b, q, e => by simp only [processUntil] at e; cases e; rfl
  | n + 1, p, b, q, e => by
    simp only [processUntil] at e
    split at e
    · split at e
      · cases e
      · rename_i p1 h1
        rw [until_chunk s n p1 b q e, iterate_chunk h1]
    · cases e; rfl

theorem header_chunk {p q : Pull} {h : Header} (e : p.header = .ok (h, q)) : q.c.chunk = p.c.chunk := by
  simp only [Pull.header] at e
  split at e
  · cases e
  · rename_i p1 h1
    split at e
    · cases e
    · rename_i p2 h2
      split at e
      · split at e
        · cases e
        · rename_i p3 h3
          cases e
          rw [iterate_chunk h3, iterate_chunk h2, until_chunk _ _ _ _ _ h1]
      · cases e
        rw [iterate_chunk h2, until_chunk _ _ _ _ _ h1]

theorem token_chunk {p q : Pull} {t : List UInt8} {b : Bool} (e : p.token = .ok (t, b, q)) : q.c.chunk = p.c.chunk := by
  simp only [Pull.token] at e
  split at e
  · cases e
  · rename_i tkl p1 h1
    have hp : p1.c.chunk = p.c.chunk := by
      simp only [preprocessToken] at h1
      split at h1
      · cases h1; rfl
      · split at h1
        · cases h1; rfl
        · split at h1
          · cases h1
          · rename_i p2 h2
            split at h1
            · cases h1
            · rename_i p3 h3
              cases h1
              rw [until_chunk _ _ _ _ _ h3, iterate_chunk h2]
            · rename_i p3 h3
              split at h1
              · cases h1
              · rename_i p4 h4
                cases h1
                rw [iterate_chunk h4, until_chunk _ _ _ _ _ h3, iterate_chunk h2]
    split at e
    · cases e; exact hp
    · cases e

theorem begin_chunk {p q : Pull} {b : Bool} (e : p.beginOption = .ok (b, q)) : q.c.chunk = p.c.chunk := by
  simp only [beginOption] at e
  split at e
  · cases e
  · rename_i p1 h1
    split at e
    · split at e
      · cases e
      · rename_i p2 h2
        cases e
        rw [iterate_chunk h2, iterate_chunk h1]
    · cases e
      exact iterate_chunk h1

theorem next_chunk {p q : Pull} {b : Bool} (e : p.optionNext = .ok (b, q)) : q.c.chunk = p.c.chunk := by
  simp only [optionNext] at e
  split at e
  · cases e
  · rename_i p1 h1
    split at e
    · cases e
    · rename_i p2 h2
      split at e
      · split at e
        · cases e
        · rename_i p3 h3
          cases e
          rw [iterate_chunk h3, iterate_chunk h2, iterate_chunk h1]
      · cases e
        rw [iterate_chunk h2, iterate_chunk h1]

theorem iterNew_chunk {p q : Pull} (e : p.iterNew = .ok q) : q.c.chunk = p.c.chunk := by
  simp only [iterNew] at e
  split at e
  · cases e
  · rename_i p1 h1
    rw [iterate_chunk e, begin_chunk h1]
  · rename_i p1 h1
    cases e
    exact begin_chunk h1

theorem iterNext_chunk {p q : Pull} (e : p.iterNext = .ok q) : q.c.chunk = p.c.chunk := by
  simp only [iterNext] at e
  split at e
  · cases e
  · rename_i p1 h1
    rw [iterate_chunk e, next_chunk h1]
  · rename_i p1 h1
    cases e
    exact next_chunk h1

theorem remainder_piece (p : Pull) : p.c.remainder <:+ p.c.chunk := by
  rw [Ctx.remainder]; exact List.drop_suffix _ _

theorem current_piece (p : Pull) : p.current.2 <:+: p.c.chunk := by
  simp only [current, optionValue]
  split
  · exact (List.take_prefix _ _).isInfix.trans (remainder_piece p).isInfix
  · exact (remainder_piece p).isInfix

theorem iterLoop_pieces : ∀ (f : Nat) (p q : Pull) (l : List (UInt16 × List UInt8)), iterLoop f p = .ok (l, q) →
    q.c.chunk = p.c.chunk ∧ ∀ o ∈ l, o.2 <:+: p.c.chunk
  | 0, p, q, l, e => by simp [iterLoop] at e
  | f + 1, p, q, l, e => by
    simp only [iterLoop] at e
    split at e
    · split at e
      · cases e
      · rename_i q1 h1
        split at e
        · cases e
        · rename_i l1 q2 h2
          cases e
          obtain ⟨g1, g2⟩ := iterLoop_pieces f q1 q l1 h2
          rw [iterNext_chunk h1] at g1 g2
          refine ⟨g1, fun o ho => ?_⟩
          rcases List.mem_cons.1 ho with rfl | ho
          · exact current_piece p
          · exact g2 o ho
    · cases e
      exact ⟨rfl, by simp⟩

theorem nextLoop_pieces : ∀ (f : Nat) (b : Bool) (p q : Pull) (l : List (UInt16 × List UInt8)), nextLoop f b p = .ok (l, q) →
    q.c.chunk = p.c.chunk ∧ ∀ o ∈ l, o.2 <:+: p.c.chunk
  | 0, b, p, q, l, e => by simp [nextLoop] at e
  | f + 1, false, p, q, l, e => by simp only [nextLoop] at e; cases e; exact ⟨rfl, by simp⟩
  | f + 1, true, p, q, l, e => by
    simp only [nextLoop] at e
    split at e
    · cases e
    · rename_i more q1 h1
      split at e
      · cases e
      · rename_i l1 q2 h2
        cases e
        obtain ⟨g1, g2⟩ := nextLoop_pieces f more q1 q l1 h2
        rw [next_chunk h1] at g1 g2
        refine ⟨g1, fun o ho => ?_⟩
        rcases List.mem_cons.1 ho with rfl | ho
        · exact current_piece p
        · exact g2 o ho

/-- C79 (partial: option numbers may be made up, see `cut_option_made_up`, and options may be shown twice): whatever the
datagram, whatever memory held and however the options are read, every option value shown is a piece of the datagram
and the payload shown is the end of the datagram. -/
theorem pull_values_are_pieces_partial (junk : Dec) (bytes : List UInt8) (fuel : Nat) (r : Reading)
    (e : readWith (iterAll fuel) (make junk bytes) = .ok r ∨ readWith (nextAll fuel) (make junk bytes) = .ok r) :
    (∀ o ∈ r.options, o.2 <:+: bytes) ∧ r.payload <:+ bytes := by
  have key : ∀ F : Pull → Except Fault (List (UInt16 × List UInt8) × Pull),
      (∀ p q l, F p = .ok (l, q) → q.c.chunk = p.c.chunk ∧ ∀ o ∈ l, o.2 <:+: p.c.chunk) →
      readWith F (make junk bytes) = .ok r → (∀ o ∈ r.options, o.2 <:+: bytes) ∧ r.payload <:+ bytes := by
    intro F hF e
    simp only [readWith] at e
    split at e
    · cases e
    · rename_i p1 h1
      split at e
      · cases e
      · rename_i p2 h2
        split at e
        · cases e
        · rename_i l p3 h3
          cases e
          obtain ⟨g1, g2⟩ := hF _ _ _ h3
          have hc : p2.c.chunk = bytes := by rw [token_chunk h2, header_chunk h1]; rfl
          rw [hc] at g1 g2
          exact ⟨g2, g1 ▸ remainder_piece p3⟩
  rcases e with e | e
  · refine key _ (fun p q l h => ?_) e
    simp only [iterAll] at h
    split at h
    · cases h
    · rename_i p1 h1
      have := iterLoop_pieces fuel p1 q l h
      rwa [iterNew_chunk h1] at this
  · refine key _ (fun p q l h => ?_) e
    simp only [nextAll] at h
    split at h
    · cases h
    · rename_i more p1 h1
      have := nextLoop_pieces fuel more p1 q l h
      rwa [begin_chunk h1] at this

theorem uriLoop_pieces (cap : Nat) (bytes : List UInt8) : ∀ (os : List (UInt16 × List UInt8)) (uri text : List UInt8),
    (∀ o ∈ os, o.2 <:+: bytes) → uriLoop cap uri os = .ok text →
    ∃ segs : List (List UInt8), (∀ v ∈ segs, v <:+: bytes) ∧ text = uri ++ (segs.map (· ++ [47])).flatten
  | [], uri, text, _, e => by simp only [uriLoop] at e; cases e; exact ⟨[], by simp, by simp⟩
  | (n, v) :: os, uri, text, h, e => by
    have ht : ∀ o ∈ os, o.2 <:+: bytes := fun o ho => h o (List.mem_cons_of_mem _ ho)
    simp only [uriLoop] at e
    split at e
    · split at e
      · cases e
      · rename_i u hu
        obtain ⟨segs, h1, h2⟩ := uriLoop_pieces cap bytes os u text ht e
        simp only [addSegment] at hu
        split at hu
        · cases hu
          refine ⟨v :: segs, ?_, by simp [h2]⟩
          intro w hw
          rcases List.mem_cons.1 hw with rfl | hw
          · exact h (n, w) (by simp)
          · exact h1 w hw
        · cases hu
    · exact uriLoop_pieces cap bytes os uri text ht e

theorem observeLoop_pieces {A : Type} (cap regCap : Nat) (addr : A) (token bytes : List UInt8) :
    ∀ (os : List (UInt16 × List UInt8)) (reg reg' : Registrar A) (uri text : List UInt8) (c c' : UInt8),
    (∀ o ∈ os, o.2 <:+: bytes) → observeLoop cap regCap addr token reg uri c os = .ok (reg', text, c') →
    ∃ segs : List (List UInt8), (∀ v ∈ segs, v <:+: bytes) ∧ text = uri ++ (segs.map (· ++ [47])).flatten
  | [], reg, reg', uri, text, c, c', _, e => by simp only [observeLoop] at e; cases e; exact ⟨[], by simp, by simp⟩
  | (n, v) :: os, reg, reg', uri, text, c, c', h, e => by
    have ht : ∀ o ∈ os, o.2 <:+: bytes := fun o ho => h o (List.mem_cons_of_mem _ ho)
    simp only [observeLoop] at e
    split at e
    · split at e
      · cases e
      · rename_i u hu
        obtain ⟨segs, h1, h2⟩ := observeLoop_pieces cap regCap addr token bytes os reg reg' u text c c' ht e
        simp only [addSegment] at hu
        split at hu
        · cases hu
          refine ⟨v :: segs, ?_, by simp [h2]⟩
          intro w hw
          rcases List.mem_cons.1 hw with rfl | hw
          · exact h (n, w) (by simp)
          · exact h1 w hw
        · cases hu
    · split at e
      · split at e
        · cases e
        · exact observeLoop_pieces cap regCap addr token bytes os _ reg' uri text _ c' ht e
      · exact observeLoop_pieces cap regCap addr token bytes os reg reg' uri text c c' ht e

/-- What the encoder puts behind header and token when it is given a text: the marker and the text, cut off where the
room ends. -/
theorem payload_prefix (out text : List UInt8) (room : Nat) :
    ((⟨OptEnc.init, out, room, false⟩ : NEnc).payload text).1.out = out ++ (0xFF :: text).take room := by
  cases room with
  | zero => simp [NEnc.payload, NEnc.payloadHeader]
  | succ n => simp [NEnc.payload, NEnc.payloadHeader, NEnc.write]

/-- C80 (partial: the datagram has a whole header and a whole token of at most eight bytes): the answer of the path
example is the header and the token of the datagram, and then the marker and pieces of the datagram, each followed by a
slash, cut off where the room ends; the code is 2.03 if the text is "test/", and 4.04 otherwise. -/
theorem uri_any_text_partial (bytes : List UInt8) (h : HasToken bytes) (junk : Dec) (hj : junk.tbuf.length = 8)
    (junkToken : List UInt8) (hjt : junkToken.length = 8) (junkHeader : Header) (cap room : Nat) (hroom : 12 ≤ room)
    (fuel : Nat) (out : List UInt8) (e : uriReply cap room fuel junk junkToken junkHeader bytes = .ok out) :
    ∃ (segs : List (List UInt8)), (∀ v ∈ segs, v <:+: bytes) ∧ ((segs.map (· ++ [47])).flatten).length ≤ cap ∧
      out = replyHead bytes (if (segs.map (· ++ [47])).flatten = [116, 101, 115, 116, 47] then 0x43 else 0x84) ++ tokenOf bytes ++
        (0xFF :: (segs.map (· ++ [47])).flatten).take (room - 4 - tokenClaim bytes) := by
  simp only [uriReply] at e
  cases hr : readWith (iterAll fuel) (make junk bytes) with
  | error x => simp [hr] at e
  | ok r =>
    obtain ⟨x, e1, -, -, e2⟩ := echo_any h hj hjt hr []
    simp only [hr, e1] at e
    cases hu : uriLoop cap [] r.options with
    | error er => simp [hu] at e
    | ok text =>
      obtain ⟨segs, h1, h2⟩ := uriLoop_pieces cap bytes r.options [] text (pull_values_are_pieces_partial junk bytes fuel r (Or.inl hr)).1 hu
      rw [List.nil_append] at h2
      have hl : ∀ (os : List (UInt16 × List UInt8)) (u t : List UInt8), u.length ≤ cap → uriLoop cap u os = .ok t → t.length ≤ cap := by
        intro os
        induction os with
        | nil => intro u t hu e; simp only [uriLoop] at e; cases e; exact hu
        | cons o os ih =>
          intro u t hu e
          obtain ⟨n, v⟩ := o
          simp only [uriLoop] at e
          split at e
          · split at e
            · cases e
            · rename_i ha
              simp only [addSegment] at ha
              split at ha
              · rename_i hle
                cases ha
                exact ih _ _ hle e
              · cases ha
          · exact ih _ _ hu e
      simp only [hu, answer, e2 room _ junkHeader hroom, payload_prefix] at e
      cases e
      refine ⟨segs, h1, h2 ▸ hl _ _ _ (by simp) hu, ?_⟩
      rw [← h2]
      by_cases ht : text = [116, 101, 115, 116, 47] <;> simp [ht, codeValid]

/-- C80 (partial: as before): so is the answer of the observe example, with some code. -/
theorem observe_any_text_partial {A : Type} (bytes : List UInt8) (h : HasToken bytes) (junk : Dec) (hj : junk.tbuf.length = 8)
    (junkToken : List UInt8) (hjt : junkToken.length = 8) (junkHeader : Header) (cap regCap room : Nat) (hroom : 12 ≤ room)
    (reg reg' : Registrar A) (addr : A) (fuel : Nat) (out : List UInt8)
    (e : observeReply cap regCap room fuel junk junkToken junkHeader reg addr bytes = .ok (reg', out)) :
    ∃ (code : UInt8) (segs : List (List UInt8)), (∀ v ∈ segs, v <:+: bytes) ∧
      out = replyHead bytes code ++ tokenOf bytes ++
        (0xFF :: (segs.map (· ++ [47])).flatten).take (room - 4 - tokenClaim bytes) := by
  simp only [observeReply] at e
  cases hr : readWith (iterAll fuel) (make junk bytes) with
  | error x => simp [hr] at e
  | ok r =>
    obtain ⟨x, e1, -, eg, e2⟩ := echo_any h hj hjt hr []
    simp only [hr, e1, eg] at e
    cases hu : observeLoop cap regCap addr (tokenOf bytes) reg [] 0x84 r.options with
    | error er => simp [hu] at e
    | ok y =>
      obtain ⟨reg1, text, code⟩ := y
      obtain ⟨segs, h1, h2⟩ := observeLoop_pieces cap regCap addr (tokenOf bytes) bytes r.options reg reg1 [] text 0x84 code
        (pull_values_are_pieces_partial junk bytes fuel r (Or.inl hr)).1 hu
      rw [List.nil_append] at h2
      simp only [hu, answer, e2 room _ junkHeader hroom, payload_prefix] at e
      cases e
      exact ⟨code, segs, h1, by rw [← h2]⟩

/-- C80 (partial: as before): the answer of the listing example is the header and the token of the datagram and a payload
marker, and behind it nothing or the listing, which does not depend on the datagram. -/
theorem discover_any_text_partial (bytes : List UInt8) (h : HasToken bytes) (junk : Dec) (hj : junk.tbuf.length = 8)
    (junkToken : List UInt8) (hjt : junkToken.length = 8) (junkHeader : Header) (room : Nat) (hroom : 13 ≤ room)
    (paths : List Uri.Entry) (coredata : List Uri.CoREData) (title : Int → Option (List Char)) (idCore : Int) (fuel : Nat)
    (out : List UInt8) (e : discoverReply room fuel paths coredata title idCore junk junkToken junkHeader bytes = .ok out) :
    ∃ (code : UInt8), (code = 0x45 ∨ code = 0x84) ∧
      (out = replyHead bytes code ++ tokenOf bytes ++ [0xFF] ∨
       ∃ text, Uri.discover coredata title paths = some text ∧
         out = replyHead bytes code ++ tokenOf bytes ++ 0xFF :: text.map fun c => UInt8.ofNat c.toNat) := by
  simp only [discoverReply] at e
  cases hr : readWith (iterAll fuel) (make junk bytes) with
  | error x => simp [hr] at e
  | ok r =>
    obtain ⟨x, e1, -, -, e2⟩ := echo_any h hj hjt hr paths
    simp only [hr, e1, e2 room _ junkHeader (by omega)] at e
    have h8 := h.2
    have hz : (room - 4 - tokenClaim bytes == 0) = false := by simp; omega
    have hcode : ∀ b : Bool, (if b then codeContent else 0x84) = 0x45 ∨ (if b then codeContent else 0x84) = 0x84 := by decide
    have hc := hcode ((discoverOptions x.uri r.options).lastFound != Uri.none_)
    generalize (if ((discoverOptions x.uri r.options).lastFound != Uri.none_) = true then codeContent else 0x84) = code at e hc
    refine ⟨code, hc, ?_⟩
    split at e
    · split at e
      · cases e
      · rename_i text ht
        split at e
        · cases e
          refine Or.inr ⟨text, ht, ?_⟩
          simp [NEnc.payloadHeader, hz]
        · cases e
    · cases e
      left
      simp [NEnc.payloadHeader, hz]

/-- The path example on a GET for "a/b/c" with rubbish behind the path: the iterator shows an empty piece, the piece "c"
and two more empty pieces. -/
example : uriReply 30 100 70000 Dec.zero [1, 2, 3, 4, 5, 6, 7, 8] ⟨0, 0, 0, 0⟩
    [0x41, 0x01, 0x12, 0x34, 0xAA, 0xB1, 97, 0x01, 98, 0x01, 99, 0x05, 100] = .ok [0x61, 0x84, 0x12, 0x34, 0xAA, 0xFF, 47, 99, 47, 47, 47] := by
  decide +kernel

/-- A value of which three bytes are missing: values shown by the two walks. -/
example : ((readWith (nextAll 20) (make Dec.zero [0x40, 0x01, 0x12, 0x34, 0xB5, 97, 98])).map (·.options)) =
    .ok [(11, [97, 98]), (11, [])] := by decide +kernel

end Verif.Props
