import Verif.Model.CborDoc
import Verif.Props.Cbor

/-! # CBOR documents (C48) -/
namespace Verif.Props
open Verif.Model Verif.Model.Cbor Verif.Spec Verif.Proofs Verif.Proofs.Cbor

/-- What a user means by a call: one item, or an array with its elements. -/
def meant : WCall → List CborAtom
  | .integer v => [.int v]
  | .string s => [.text s]
  | .boolean b => [.bool b]
  | .null => [.null]
  | .map n => [.map n]
  | .array l => [.bytes l]
  | .items l => .array l.length :: l.map fun b => .int b.toNat

/-- The calls for which the encoder works: not the number 24 and not the length 24, and array elements below
24. -/
def Writable : WCall → Prop
  | .integer v => -(2 : Int) ^ 31 < v ∧ v < 2 ^ 31 ∧ v ≠ 24 ∧ v ≠ -25
  | .string s => s.length < 2 ^ 31 ∧ s.length ≠ 24
  | .boolean _ => True
  | .null => True
  | .map n => n < 2 ^ 31 ∧ n ≠ 24
  | .array l => l.length < 2 ^ 31 ∧ l.length ≠ 24
  | .items l => l.length < 2 ^ 31 ∧ l.length ≠ 24 ∧ ∀ b ∈ l, b.toNat < 24

theorem cborSeq_append {a b : List UInt8} {x y : List CborAtom} (ha : CborSeq a x) (hb : CborSeq b y) :
    CborSeq (a ++ b) (x ++ y) := by
  induction ha with
  | nil => simpa using hb
  | cons h1 h2 h3 ih =>
    have := CborSeq.cons h1 h2 ih
    simpa using this

theorem cborSeq_one {h c : List UInt8} {x : CborAtom} (hi : CborItem h c x) (h5 : h.length ≤ 5) : CborSeq (h ++ c) [x] := by
  simpa using CborSeq.cons hi h5 .nil

theorem cborSeq_elements (l : List UInt8) (hl : ∀ b ∈ l, b.toNat < 24) : CborSeq l (l.map fun b => .int b.toNat) := by
  induction l with
  | nil => exact .nil
  | cons b l ih =>
    have hh : CborHead [b] 0 b.toNat := by
      have := CborHead.tiny (m := 0) (a := b.toNat) (by omega) (hl b (by simp))
      simpa using this
    have := CborSeq.cons (CborItem.int hh (by omega)) (by simp) (ih fun x hx => hl x (by simp [hx]))
    simpa [cborInt] using this

/-- One call writes exactly the bytes of what is meant, or does not report success. -/
theorem wcall_run (c : WCall) (hc : Writable c) :
    ∃ b, CborSeq b (meant c) ∧ ∀ buf,
      (b.length ≤ buf.length → c.run buf = some (b ++ buf.drop b.length, b.length, true)) ∧
      (buf.length < b.length → c.run buf = none ∨ ∃ r n, c.run buf = some (r, n, false)) := by
  have short : ∀ (x : UInt8) (at' : CborAtom), CborItem [x] [] at' → CborSeq [x] [at'] ∧ ∀ buf,
      ([x].length ≤ buf.length → (writeAt buf 0 x).map (·, 1, true) = some ([x] ++ buf.drop 1, 1, true)) ∧
      (buf.length < [x].length → (writeAt buf 0 x).map (·, 1, true) = none ∨
        ∃ (r : List UInt8) (n : Nat), (writeAt buf 0 x).map (·, 1, true) = some (r, n, false)) := by
    intro x at' h
    refine ⟨by simpa using cborSeq_one h (by simp), fun buf => ?_⟩
    cases buf <;> simp [writeAt]
  cases c with
  | integer v =>
    obtain ⟨h1, h2, h3, h4⟩ := hc
    obtain ⟨b, m, a, g1, g2, g3, g4, g5⟩ := cbor_integer_written_partial v h1 h2 h3 h4
    refine ⟨b, ?_, fun buf => ⟨fun h => ?_, fun h => Or.inl ?_⟩⟩
    · have := cborSeq_one (CborItem.int g1 (by omega)) g4
      rw [g3] at this; simpa [meant] using this
    · simp [WCall.run, g5, h]
    · simp [WCall.run, g5, Nat.not_le.2 h]
  | boolean v =>
    cases v
    · obtain ⟨h1, h2⟩ := short 0xF4 _ .false
      exact ⟨_, h1, h2⟩
    · obtain ⟨h1, h2⟩ := short 0xF5 _ .true
      exact ⟨_, h1, h2⟩
  | null =>
    obtain ⟨h1, h2⟩ := short 0xF6 _ .null
    exact ⟨_, h1, h2⟩
  | map n =>
    obtain ⟨b, h1, h2, h3, h4⟩ := major_eq 5 (by decide) n (by have := hc.1; omega) hc.2
    refine ⟨b, by simpa [meant] using cborSeq_one (.map h1) (h3 (by have := hc.1; omega)), fun buf => ⟨fun h => ?_, fun h => Or.inl ?_⟩⟩
    · simp [WCall.run, h4, h]
    · simp [WCall.run, h4, Nat.not_le.2 h]
  | string s =>
    obtain ⟨b, h1, h2, h3, h4⟩ := major_eq 3 (by decide) s.length (by have := hc.1; omega) hc.2
    refine ⟨b ++ s, cborSeq_one (.text h1) (h3 (by have := hc.1; omega)), fun buf => ⟨fun h => ?_, fun h => ?_⟩⟩
    · simp only [List.length_append] at h
      have hk : min s.length (buf.length - b.length) = s.length := by omega
      simp [WCall.run, stringNet, h4, show b.length ≤ buf.length by omega, hk, List.drop_append]
    · simp only [List.length_append] at h
      by_cases hb : b.length ≤ buf.length
      · right
        have hk : (min s.length ((b ++ buf.drop b.length).length - b.length) == s.length) = false := by simp; omega
        simp only [WCall.run, stringNet, h4, if_pos hb, hk]
        exact ⟨_, _, rfl⟩
      · left; simp [WCall.run, stringNet, h4, hb]
  | array l =>
    obtain ⟨b, h1, h2, h3, h4⟩ := major_eq 2 (by decide) l.length (by have := hc.1; omega) hc.2
    refine ⟨b ++ l, cborSeq_one (.bytes h1) (h3 (by have := hc.1; omega)), fun buf => ⟨fun h => ?_, fun h => Or.inl ?_⟩⟩
    · simp only [List.length_append] at h
      simp [WCall.run, listNet, h4, show b.length ≤ buf.length by omega, List.drop_append, h]
    · simp only [List.length_append] at h
      by_cases hb : b.length ≤ buf.length
      · simp [WCall.run, listNet, h4, hb]
        omega
      · simp [WCall.run, listNet, h4, hb]
  | items l =>
    obtain ⟨hc1, hc2, hc3⟩ := hc
    obtain ⟨b, h1, h2, h3, h4⟩ := major_eq 4 (by decide) l.length (by omega) hc2
    refine ⟨b ++ l, ?_, fun buf => ⟨fun h => ?_, fun h => Or.inl ?_⟩⟩
    · have := cborSeq_append (cborSeq_one (.array h1) (h3 (by omega))) (cborSeq_elements l hc3)
      simpa [meant] using this
    · simp only [List.length_append] at h
      simp [WCall.run, listNet, h4, show b.length ≤ buf.length by omega, List.drop_append, h]
    · simp only [List.length_append] at h
      by_cases hb : b.length ≤ buf.length
      · simp [WCall.run, listNet, h4, hb]
        omega
      · simp [WCall.run, listNet, h4, hb]

/-- C48 (first half, partial: not the number 24 or -25, not the length 24, array elements below 24): any
sequence of calls writes, after what is there already, exactly the bytes of the items meant, and nothing else
in the buffer changes; if they do not fit, the calls do not all report success. -/
theorem cbor_document_written_partial (cs : List WCall) (hc : ∀ c ∈ cs, Writable c) :
    ∃ b, CborSeq b (cs.flatMap meant) ∧ ∀ buf pos, pos ≤ buf.length →
      (pos + b.length ≤ buf.length →
        writeAll buf pos cs = some (buf.take pos ++ b ++ buf.drop (pos + b.length), pos + b.length, true)) ∧
      (buf.length < pos + b.length → writeAll buf pos cs = none ∨ ∃ r n, writeAll buf pos cs = some (r, n, false)) := by
  induction cs with
  | nil =>
    refine ⟨[], .nil, fun buf pos hp => ⟨fun _ => by simp [writeAll], fun h => ?_⟩⟩
    simp at h; omega
  | cons c cs ih =>
    obtain ⟨b1, s1, w1⟩ := wcall_run c (hc c (by simp))
    obtain ⟨b2, s2, w2⟩ := ih fun x hx => hc x (by simp [hx])
    refine ⟨b1 ++ b2, by simpa using cborSeq_append s1 s2, fun buf pos hp => ⟨fun h => ?_, fun h => ?_⟩⟩
    · simp only [List.length_append] at h
      have e1 := (w1 (buf.drop pos)).1 (by simp; omega)
      have e2 := (w2 (buf.take pos ++ (b1 ++ (buf.drop pos).drop b1.length)) (pos + b1.length) (by simp; omega)).1
        (by simp; omega)
      simp only [writeAll, e1, e2]
      have t1 : List.take (pos + b1.length) (buf.take pos ++ (b1 ++ (buf.drop pos).drop b1.length)) = buf.take pos ++ b1 := by
        rw [← List.append_assoc, List.take_left' (by simp; omega)]
      have t2 : List.drop (pos + b1.length + b2.length) (buf.take pos ++ (b1 ++ (buf.drop pos).drop b1.length)) =
          buf.drop (pos + (b1.length + b2.length)) := by
        rw [← List.append_assoc, show pos + b1.length + b2.length = (buf.take pos ++ b1).length + b2.length by simp; omega,
          List.drop_append, List.drop_of_length_le (by omega)]
        simp [Nat.add_assoc]
        omega
      simp only [Option.some.injEq, Prod.mk.injEq, Bool.and_self, and_true]
      refine ⟨?_, by simp; omega⟩
      rw [t1, t2]; simp
    · simp only [List.length_append] at h
      by_cases h1 : b1.length ≤ (buf.drop pos).length
      · have e1 := (w1 (buf.drop pos)).1 h1
        simp only [List.length_drop] at h1
        rcases (w2 (buf.take pos ++ (b1 ++ (buf.drop pos).drop b1.length)) (pos + b1.length) (by simp; omega)).2
          (by simp; omega) with e2 | ⟨r, n, e2⟩
        · left; simp only [writeAll, e1, e2]
        · right; exact ⟨r, n, by simp only [writeAll, e1, e2, Bool.and_false]⟩
      · rcases (w1 (buf.drop pos)).2 (by omega) with e1 | ⟨r, n, e1⟩
        · left; simp only [writeAll, e1]
        · simp only [writeAll, e1]
          cases hw : writeAll (buf.take pos ++ r) (pos + n) cs with
          | none => left; rfl
          | some t => right; exact ⟨t.1, t.2.1, by simp⟩

/-- How an item is reported. -/
def reported : CborAtom → RItem
  | .int v => .integer v
  | .text s => .string s
  | .bytes s => .bytes s
  | .array n => .items n
  | .map n => .map n
  | .bool b => if b then .true else .false
  | .null => .null

/-- The numbers an `int` holds, except -1 to -24. -/
def Readable : CborAtom → Prop
  | .int v => 0 ≤ v ∧ v < 2 ^ 31 ∨ -(2 : Int) ^ 31 ≤ v ∧ v < -24
  | _ => True

theorem type_eq {d : CDec} {m : Nat} (h : d.type.toNat = m) (k : UInt8) : (d.type == k) = decide (m = k.toNat) := by
  subst h
  by_cases hc : d.type = k
  · simp [hc]
  · simp [hc, UInt8.toNat_inj]

/-- An item in the middle of any bytes: the decoder stops after its head, reports it, and goes on behind its
content. -/
theorem item_read (junk : UInt8) (before head content rest : List UInt8) (x : CborAtom) (hx : CborItem head content x)
    (h5 : head.length ≤ 5) (hr : Readable x) (d : CDec) (hst : d.st = .headerStart ∨ d.st = .itemDone) (hb : 4 ≤ d.buf.length)
    (hsz : before.length + (head.length + content.length) < 2 ^ 31) :
    ∃ d' d'', (∀ fuel, 11 ≤ fuel → process junk (before ++ (head ++ content ++ rest)) fuel d before.length =
        some (some (d', before.length + head.length, false))) ∧
      look (before ++ (head ++ content ++ rest)) d' (before.length + head.length) = reported x ∧
      (d''.st = .headerStart ∨ d''.st = .itemDone) ∧ 4 ≤ d''.buf.length ∧
      ∀ fuel, next junk (before ++ (head ++ content ++ rest)) fuel d' (before.length + head.length) =
        process junk (before ++ (head ++ content ++ rest)) fuel d'' (before ++ (head ++ content)).length := by
  have key : ∀ m a, CborHead head m a → ∃ d', (∀ fuel, 11 ≤ fuel → process junk (before ++ (head ++ content ++ rest)) fuel d before.length =
        some (some (d', before.length + head.length, false))) ∧
      d'.type.toNat = m ∧ d'.unsigned 32 = a ∧ d'.buf.length = d.buf.length ∧
      d'.st = (if m = 0 ∨ m = 1 ∨ m = 6 ∨ m = 7 then .itemDone else .longStart) ∧
      (m = 1 → d'.isTiny = true → a < 24 ∧ d'.integer 32 = a) ∧
      (m ≠ 1 ∨ d'.isTiny = false → a < 2 ^ 31 → d'.integer 32 = cborInt m a) ∧
      (d'.isTiny = true ↔ head.length = 1) := by
    intro m a hh
    have := cbor_head_decoded_partial junk before head (content ++ rest) m a hh h5 d hst hb
    simpa using this
  cases hx with
  | @int b m a hh hm =>
    obtain ⟨d', g1, g2, g3, g4, g5, g6, g7, g8⟩ := key m a hh
    have hs : d'.st = .itemDone := by rw [g5, if_pos (by omega)]
    refine ⟨d', d', g1, ?_, Or.inr hs, by omega, fun fuel => by simp [next, hs]⟩
    have hv : d'.integer 32 = cborInt m a := by
      have hm' : m = 0 ∨ m = 1 := by omega
      rcases hm' with rfl | rfl
      · apply g7 (Or.inl (by omega))
        simp [Readable, cborInt] at hr; omega
      · have ha : 24 ≤ a ∧ a < 2 ^ 31 := by simp [Readable, cborInt] at hr; omega
        apply g7 _ ha.2
        right
        cases ht : d'.isTiny with
        | false => rfl
        | true => have := (g6 rfl ht).1; omega
    have hm' : m = 0 ∨ m = 1 := by omega
    rcases hm' with rfl | rfl <;> simp [look, hs, type_eq g2, hv, reported]
  | @bytes b s hh =>
    obtain ⟨d', g1, g2, g3, g4, g5, -⟩ := key 2 _ hh
    have hs : d'.st = .longStart := by rw [g5, if_neg (by omega)]
    refine ⟨d', d'.fastForward, g1, ?_, Or.inl rfl, by rw [← g4] at hb; exact hb, fun fuel => ?_⟩
    · simp [look, hs, type_eq g2, g3, reported]
    · have ea := advance_in (before.length + head.length) content.length (by omega)
      simp [next, hs, streamFastForward, CDec.isIndeterminate, type_eq g2, g3, ea, Nat.add_assoc]
  | @text b s hh =>
    obtain ⟨d', g1, g2, g3, g4, g5, -⟩ := key 3 _ hh
    have hs : d'.st = .longStart := by rw [g5, if_neg (by omega)]
    refine ⟨d', d'.fastForward, g1, ?_, Or.inl rfl, by rw [← g4] at hb; exact hb, fun fuel => ?_⟩
    · simp [look, hs, type_eq g2, g3, reported]
    · have ea := advance_in (before.length + head.length) content.length (by omega)
      simp [next, hs, streamFastForward, CDec.isIndeterminate, type_eq g2, g3, ea, Nat.add_assoc]
  | @array b n hh =>
    obtain ⟨d', g1, g2, g3, g4, g5, -⟩ := key 4 _ hh
    have hs : d'.st = .longStart := by rw [g5, if_neg (by omega)]
    refine ⟨d', d'.fastForward, g1, ?_, Or.inl rfl, by rw [← g4] at hb; exact hb, fun fuel => ?_⟩
    · simp [look, hs, type_eq g2, g3, reported]
    · simp [next, hs, streamFastForward, CDec.isIndeterminate, type_eq g2]
  | @map b n hh =>
    obtain ⟨d', g1, g2, g3, g4, g5, -⟩ := key 5 _ hh
    have hs : d'.st = .longStart := by rw [g5, if_neg (by omega)]
    refine ⟨d', d'.fastForward, g1, ?_, Or.inl rfl, by rw [← g4] at hb; exact hb, fun fuel => ?_⟩
    · simp [look, hs, type_eq g2, g3, reported]
    · simp [next, hs, streamFastForward, CDec.isIndeterminate, type_eq g2]
  | false =>
    obtain ⟨d', g1, g2, g3, g4, g5, g6, g7, g8⟩ := key 7 20 (CborHead.tiny (m := 7) (a := 20) (by omega) (by omega))
    have hs : d'.st = .itemDone := by rw [g5, if_pos (by omega)]
    have hra : d'.additionalRaw = 20 := by
      rw [CDec.unsigned, if_pos (g8.2 rfl)] at g3; exact UInt8.toNat_inj.1 g3
    refine ⟨d', d', g1, ?_, Or.inr hs, by omega, fun fuel => by simp [next, hs]⟩
    simp [look, hs, type_eq g2, hra, reported]
  | true =>
    obtain ⟨d', g1, g2, g3, g4, g5, g6, g7, g8⟩ := key 7 21 (CborHead.tiny (m := 7) (a := 21) (by omega) (by omega))
    have hs : d'.st = .itemDone := by rw [g5, if_pos (by omega)]
    have hra : d'.additionalRaw = 21 := by
      rw [CDec.unsigned, if_pos (g8.2 rfl)] at g3; exact UInt8.toNat_inj.1 g3
    refine ⟨d', d', g1, ?_, Or.inr hs, by omega, fun fuel => by simp [next, hs]⟩
    simp [look, hs, type_eq g2, hra, reported]
  | null =>
    obtain ⟨d', g1, g2, g3, g4, g5, g6, g7, g8⟩ := key 7 22 (CborHead.tiny (m := 7) (a := 22) (by omega) (by omega))
    have hs : d'.st = .itemDone := by rw [g5, if_pos (by omega)]
    have hra : d'.additionalRaw = 22 := by
      rw [CDec.unsigned, if_pos (g8.2 rfl)] at g3; exact UInt8.toNat_inj.1 g3
    refine ⟨d', d', g1, ?_, Or.inr hs, by omega, fun fuel => by simp [next, hs]⟩
    simp [look, hs, type_eq g2, hra, reported]

/-- C48: of tags and of the items of major type 7 (simple values and floating-point numbers with up to four bytes), at any place in
any bytes, exactly the bytes 0xF4, 0xF5 and 0xF6 are reported as false, true and null.  Everything else is reported as none of the kinds
of items, and reading goes on right behind the head: a floating-point number is passed over, a tag is passed over and the item it belongs to is
the next one. -/
theorem cbor_simple_seen_partial (junk : UInt8) (before head rest : List UInt8) (m a : Nat) (hm : m = 6 ∨ m = 7) (hh : CborHead head m a)
    (h5 : head.length ≤ 5) (d : CDec) (hst : d.st = .headerStart ∨ d.st = .itemDone) (hb : 4 ≤ d.buf.length) :
    ∃ d', (∀ fuel, 11 ≤ fuel → process junk (before ++ head ++ rest) fuel d before.length =
        some (some (d', before.length + head.length, false))) ∧
      (head = [0xF4] → look (before ++ head ++ rest) d' (before.length + head.length) = .false) ∧
      (head = [0xF5] → look (before ++ head ++ rest) d' (before.length + head.length) = .true) ∧
      (head = [0xF6] → look (before ++ head ++ rest) d' (before.length + head.length) = .null) ∧
      (head ≠ [0xF4] → head ≠ [0xF5] → head ≠ [0xF6] →
        look (before ++ head ++ rest) d' (before.length + head.length) = .other) ∧
      (d'.st = .headerStart ∨ d'.st = .itemDone) ∧ 4 ≤ d'.buf.length ∧
      ∀ fuel, next junk (before ++ head ++ rest) fuel d' (before.length + head.length) =
        process junk (before ++ head ++ rest) fuel d' (before ++ head).length := by
  obtain ⟨d', g1, g2, g3, g4, g5, g6, g7, g8⟩ := cbor_head_decoded_partial junk before head rest m a hh h5 d hst hb
  have hs : d'.st = .itemDone := by rw [g5, if_pos (by omega)]
  have hlook : ∀ c p, look c d' p = if m = 7 then (if d'.additionalRaw == 21 then .true else if d'.additionalRaw == 20 then .false
      else if d'.additionalRaw == 22 then .null else .other) else .other := by
    intro c p
    rcases hm with rfl | rfl <;> simp [look, hs, type_eq g2]
  have hraw : head.length = 1 → d'.additionalRaw.toNat = a := fun h => by
    rw [CDec.unsigned, if_pos (g8.2 h)] at g3; exact g3
  have hbig : head.length ≠ 1 → 24 ≤ d'.additionalRaw.toNat := fun h => by
    have : d'.isTiny = false := by
      cases ht : d'.isTiny with
      | false => rfl
      | true => exact absurd (g8.1 ht) h
    simpa [CDec.isTiny, UInt8.lt_iff_toNat_lt] using this
  have hone : ∀ x : UInt8, head = [x] → x.toNat = m * 32 + a := by
    intro x hx
    cases hh with
    | tiny h1 h2 =>
      injection hx with hx _
      rw [← hx]; simp; omega
    | @ext _ i bs h1 h2 h3 =>
      injection hx with hx hy
      subst hy
      exact absurd h3.symm (Nat.ne_of_gt (Nat.two_pow_pos i))
  have key : ∀ k : UInt8, k.toNat < 24 → ((m = 7 ∧ d'.additionalRaw = k) ↔ head = [UInt8.ofNat (224 + k.toNat)]) := by
    intro k hk
    constructor
    · rintro ⟨rfl, h⟩
      cases hh with
      | tiny h1 h2 =>
        have := hraw rfl
        rw [h] at this
        rw [this]
      | @ext _ i bs h1 h2 h3 =>
        have h0 : 0 < 2 ^ i := Nat.two_pow_pos i
        have := hbig (by simp only [List.length_cons]; omega)
        rw [h] at this
        omega
    · intro h
      have h1 := hone _ h
      have h2 := hraw (by rw [h]; rfl)
      have h3 : (UInt8.ofNat (224 + k.toNat)).toNat = 224 + k.toNat := by simp; omega
      have ha : a < 24 := by
        cases hh with
        | tiny _ h2 => exact h2
        | @ext _ i bs _ _ h3 =>
          injection h with hx hy
          subst hy
          exact absurd h3.symm (Nat.ne_of_gt (Nat.two_pow_pos i))
      rw [h3] at h1
      refine ⟨by omega, UInt8.toNat_inj.1 (by omega)⟩
  have k0 := key 20 (by decide)
  have k1 := key 21 (by decide)
  have k2 := key 22 (by decide)
  refine ⟨d', g1, fun h => ?_, fun h => ?_, fun h => ?_, fun h4 h5 h6 => ?_, Or.inr hs, by omega, fun fuel => by simp [next, hs]⟩
  · rw [hlook, if_pos (k0.2 h).1, (k0.2 h).2]; rfl
  · rw [hlook, if_pos (k1.2 h).1, (k1.2 h).2]; rfl
  · rw [hlook, if_pos (k2.2 h).1, (k2.2 h).2]; rfl
  · rw [hlook]
    by_cases h7 : m = 7
    · have n0 : d'.additionalRaw ≠ 20 := fun h => h4 (k0.1 ⟨h7, h⟩)
      have n1 : d'.additionalRaw ≠ 21 := fun h => h5 (k1.1 ⟨h7, h⟩)
      have n2 : d'.additionalRaw ≠ 22 := fun h => h6 (k2.1 ⟨h7, h⟩)
      simp [n0, n1, n2]
    · rw [if_neg h7]

/-- The half-precision number 1.0, undefined and a tagged number: three times none of the kinds, then the number. -/
example : readDoc 0 [0xF9, 0x3C, 0x00, 0xF7, 0xC1, 0x18, 0x2A, 0xF6] 20 5 ⟨[9, 9, 9, 9], 0, 0, .headerStart⟩ =
    some (some [.other, .other, .other, .integer 42, .null]) := by decide +kernel

/-- At the end of the bytes the decoder stops. -/
theorem process_end (junk : UInt8) (chunk : List UInt8) (d : CDec) (hst : d.st = .headerStart ∨ d.st = .itemDone) (fuel : Nat)
    (hf : 3 ≤ fuel) : ∃ r, process junk chunk fuel d chunk.length = some (some r) := by
  obtain ⟨f, rfl⟩ : ∃ f, fuel = f + 3 := ⟨fuel - 3, by omega⟩
  obtain ⟨buf, hdr, p, st⟩ := d
  rcases hst with h | h <;> simp only at h <;> subst h
  · have h0 : ¬(chunk.length + 1 < chunk.length) := by omega
    rw [process]; simp [CDec.iterate]
    rw [process]; simp [CDec.iterate]
    rw [process]; simp
    split
    · rename_i h; exact absurd h h0
    · exact ⟨_, _, Or.inr rfl⟩
  · rw [process]; simp

theorem readMore_seq (junk : UInt8) (fuel : Nat) (hf : 11 ≤ fuel) (bs : List UInt8) (xs : List CborAtom) (hs : CborSeq bs xs)
    (hr : ∀ x ∈ xs, Readable x) (before : List UInt8) (d : CDec) (hst : d.st = .headerStart ∨ d.st = .itemDone)
    (hb : 4 ≤ d.buf.length) (hsz : before.length + bs.length < 2 ^ 31) :
    ∃ r, process junk (before ++ bs) fuel d before.length = some (some r) ∧
      readMore junk (before ++ bs) fuel xs.length r.1 r.2.1 = some (some (xs.map reported)) := by
  induction hs generalizing before d with
  | nil =>
    obtain ⟨r, h⟩ := process_end junk before d hst fuel (by omega)
    exact ⟨r, by simpa using h, rfl⟩
  | @cons head content x bs xs h1 h2 h3 ih =>
    obtain ⟨d', d'', g1, g2, g3, g4, g5⟩ := item_read junk before head content bs x h1 h2 (hr x (by simp)) d hst hb
      (by simp at hsz; omega)
    obtain ⟨r, e1, e2⟩ := ih (fun y hy => hr y (by simp [hy])) (before ++ (head ++ content)) d'' g3 g4 (by simp at hsz ⊢; omega)
    have ea : before ++ (head ++ content) ++ bs = before ++ (head ++ content ++ bs) := by simp
    rw [ea] at e1 e2
    refine ⟨_, g1 fuel hf, ?_⟩
    simp only [List.length_cons, readMore, g5, e1, e2, g2]
    simp

/-- C48 (second half, partial: heads of at most five bytes, no number from -1 to -24): from any sequence of
items a user reads, with a new decoder, exactly these items in this order. -/
theorem cbor_document_read_partial (junk : UInt8) (bs : List UInt8) (xs : List CborAtom) (hs : CborSeq bs xs)
    (hr : ∀ x ∈ xs, Readable x) (d : CDec) (hb : 4 ≤ d.buf.length) (hsz : bs.length < 2 ^ 31) (fuel : Nat)
    (hf : 11 ≤ fuel) :
    readDoc junk bs fuel xs.length d = some (some (xs.map reported)) := by
  obtain ⟨r, h1, h2⟩ := readMore_seq junk fuel hf bs xs hs hr [] d.fresh (Or.inl rfl) hb (by simpa using hsz)
  simp only [List.nil_append, List.length_nil] at h1 h2
  simp only [readDoc, h1, h2]

/-- C48 (partial, as above): what was written is read back. -/
theorem cbor_document_round_trip_partial (cs : List WCall) (hc : ∀ c ∈ cs, Writable c)
    (hr : ∀ v, .integer v ∈ cs → 0 ≤ v ∨ v < -24) (buf out : List UInt8) (n : Nat)
    (hw : writeAll buf 0 cs = some (out, n, true)) (junk : UInt8) (d : CDec) (hb : 4 ≤ d.buf.length) (hsz : buf.length < 2 ^ 31)
    (fuel : Nat) (hf : 11 ≤ fuel) :
    n ≤ buf.length ∧ out.drop n = buf.drop n ∧
    readDoc junk (out.take n) fuel (cs.flatMap meant).length d = some (some ((cs.flatMap meant).map reported)) := by
  obtain ⟨b, h1, h2⟩ := cbor_document_written_partial cs hc
  have hfit : b.length ≤ buf.length := by
    by_cases h : b.length ≤ buf.length
    · exact h
    · rcases (h2 buf 0 (by omega)).2 (by omega) with e | ⟨r, k, e⟩ <;> rw [hw] at e <;> simp at e
  have he := (h2 buf 0 (by omega)).1 (by omega)
  rw [hw] at he
  simp only [List.take_zero, List.nil_append, Nat.zero_add, Option.some.injEq, Prod.mk.injEq, and_true] at he
  obtain ⟨rfl, rfl⟩ := he
  refine ⟨hfit, by simp, ?_⟩
  rw [List.take_left]
  apply cbor_document_read_partial junk b _ h1 _ d hb (by omega) fuel hf
  intro x hx
  obtain ⟨c, hc1, hc2⟩ := List.mem_flatMap.1 hx
  have hw := hc c hc1
  cases c with
  | integer v =>
    simp only [meant, List.mem_singleton] at hc2; subst hc2
    have := hr v hc1
    simp only [Writable] at hw
    simp only [Readable]; omega
  | items l =>
    simp only [meant, List.mem_cons, List.mem_map] at hc2
    rcases hc2 with rfl | ⟨b, -, rfl⟩
    · trivial
    · have := b.toNat_lt
      simp only [Readable]; omega
  | string s => simp only [meant, List.mem_singleton] at hc2; subst hc2; trivial
  | boolean s => simp only [meant, List.mem_singleton] at hc2; subst hc2; trivial
  | null => simp only [meant, List.mem_singleton] at hc2; subst hc2; trivial
  | map s => simp only [meant, List.mem_singleton] at hc2; subst hc2; trivial
  | array s => simp only [meant, List.mem_singleton] at hc2; subst hc2; trivial

/-- A map from a string to an array and to a negative number. -/
example : (writeAll (List.replicate 20 7) 0 [.map 2, .string [97, 98], .items [1, 2], .boolean true, .integer (-500)]).map
    (fun r => (r.1.take r.2.1, r.2.2)) = some ([0xA2, 0x62, 97, 98, 0x82, 1, 2, 0xF5, 0x39, 1, 0xF3], true) := by decide +kernel
example : readDoc 0x9F [0xA2, 0x62, 97, 98, 0x82, 1, 2, 0xF5, 0x39, 1, 0xF3] 11 7 ⟨[0, 0, 0, 0], 0, 0, .long⟩ =
    some (some [.map 2, .string [97, 98], .items 2, .integer 1, .integer 2, .true, .integer (-500)]) := by decide +kernel
/-- A string that does not fit: the result tells. -/
example : (writeAll (List.replicate 3 7) 0 [.string [97, 98, 99]]) = some ([0x63, 97, 98], 3, false) := by decide +kernel

/-- A head of one byte with its low five bits at 24 does not exist. -/
theorem no_head_24 {c : UInt8} {m a : Nat} (hc : c.toNat % 32 = 24) (h : CborHead [c] m a) : False := by
  generalize hl : [c] = l at h
  cases h with
  | @tiny m a hm ha =>
    simp only [List.cons.injEq, and_true] at hl
    rw [hl] at hc; simp at hc; omega
  | @ext m i bs hm hi hb =>
    simp only [List.cons.injEq] at hl
    rw [← hl.2] at hb
    have := Nat.two_pow_pos i
    simp at hb; omega

/-- A sequence of one item. -/
theorem cborSeq_single {bs : List UInt8} {x : CborAtom} (h : CborSeq bs [x]) :
    ∃ head content, bs = head ++ content ∧ CborItem head content x := by
  generalize hx : [x] = xs at h
  cases h with
  | nil => simp at hx
  | cons h1 h2 h3 =>
    simp only [List.cons.injEq] at hx
    obtain ⟨rfl, rfl⟩ := hx
    cases h3
    exact ⟨_, _, by simp, h1⟩

/-- C48 fails for every string of 24 characters: success is reported, but what is written is not this string. -/
theorem cbor_24_string_invalid (s : List UInt8) (hs : s.length = 24) (buf : List UInt8) (hb : 25 ≤ buf.length) :
    WCall.run buf (.string s) = some (0x78 :: s ++ buf.drop 25, 25, true) ∧ ¬CborSeq (0x78 :: s) [.text s] := by
  constructor
  · match buf, hb with
    | x :: buf, hb =>
      simp at hb
      simp [WCall.run, stringNet, majorTypeAndInteger, hs, writeAt, show min 24 buf.length = 24 by omega]
      exact ⟨by decide, List.take_of_length_le (by omega)⟩
  · intro h
    obtain ⟨head, content, e, hi⟩ := cborSeq_single h
    cases hi with
    | text hh =>
      have hl : head = [0x78] := by
        have h1 := congrArg List.length e
        simp only [List.length_cons, List.length_append] at h1
        match head, h1, e with
        | [c], _, e => simp at e; simp [e]
        | [], h1, _ => simp at h1
        | _ :: _ :: _, h1, _ => simp at h1; omega
      rw [hl] at hh
      exact no_head_24 (by decide) hh

example : ∃ s : List UInt8, s.length = 24 := ⟨List.replicate 24 97, by simp⟩

/-- A user who reads such a string back gets a different one: its first character was taken as the length. -/
theorem cbor_24_string_misread (s : List UInt8) (hs : s.length = 24) (junk : UInt8) (d : CDec) (hb : 4 ≤ d.buf.length) :
    ∃ t, readDoc junk (0x78 :: s) 11 1 d ≠ some (some [.string s]) ∧
      ∃ d', process junk (0x78 :: s) 11 d.fresh 0 = some (some (d', 2, false)) ∧ look (0x78 :: s) d' 2 = .string t ∧
        t.length < 24 := by
  match s, hs with
  | c :: s, hs =>
    simp only [List.length_cons] at hs
    have hh : CborHead [0x78, c] 3 (beValue [c]) := CborHead.ext (m := 3) (i := 0) (bs := [c]) (by omega) (by omega) (by simp)
    obtain ⟨d', g1, g2, g3, g4, g5, -⟩ := cbor_head_decoded_partial junk [] [0x78, c] s 3 _ hh (by simp) d.fresh (Or.inl rfl) hb
    have e1 := g1 11 (by omega)
    simp only [List.nil_append, List.cons_append, List.length_cons, List.length_nil] at e1
    have hl : look (0x78 :: c :: s) d' 2 = .string (s.take (beValue [c])) := by
      simp [look, g5, type_eq g2, g3]
    have ht : (s.take (beValue [c])).length < 24 := by simp; omega
    refine ⟨s.take (beValue [c]), ?_, d', e1, hl, ht⟩
    simp only [readDoc, e1, readMore]
    have hl' : look (0x78 :: c :: s) d' (0 + (0 + 1 + 1)) = .string (s.take (beValue [c])) := hl
    rw [hl']
    cases hn : next junk (0x78 :: c :: s) 11 d' (0 + (0 + 1 + 1)) with
    | none => simp
    | some r =>
      cases r with
      | none => simp
      | some r =>
        simp only [Option.map_some, ne_eq, Option.some.injEq, List.cons.injEq, RItem.string.injEq, and_true]
        intro h
        rw [h] at ht; simp at ht; omega

/-- A length of `2 ^ 32 - back` takes the position back. -/
theorem advance_back (pos back : Nat) (h0 : 0 < back) (h1 : back ≤ 2 ^ 31) (hp : pos < 2 ^ 31) :
    advance pos (2 ^ 32 - back) = if back ≤ pos then some (pos - back) else none := by
  have e : CDec.toSigned 32 (2 ^ 32 - back) = -(back : Int) := by
    rw [CDec.toSigned, if_neg (by omega)]; omega
  rw [advance, e]
  by_cases hb : back ≤ pos
  · rw [if_pos ⟨by omega, by omega⟩, if_pos hb]
    congr 1; omega
  · rw [if_neg (by omega), if_neg hb]

/-- C41, C48 fail for every string or byte string, anywhere in any bytes, that announces `2 ^ 31` or more bytes: going on from it the decoder
does not stop at the end of the bytes but goes back, by as many bytes as the announced length lacks to `2 ^ 32`, and takes what is there
for the next item; if that would be before the beginning, it reads memory that is not part of the bytes. -/
theorem cbor_length_turns_back (junk : UInt8) (before head rest : List UInt8) (m back : Nat) (hm : m = 2 ∨ m = 3) (h0 : 0 < back)
    (h1 : back ≤ 2 ^ 31) (hh : CborHead head m (2 ^ 32 - back)) (h5 : head.length ≤ 5) (d : CDec)
    (hst : d.st = .headerStart ∨ d.st = .itemDone) (hb : 4 ≤ d.buf.length) (hsz : before.length + head.length < 2 ^ 31) :
    ∃ d', (∀ fuel, 11 ≤ fuel → process junk (before ++ head ++ rest) fuel d before.length =
        some (some (d', before.length + head.length, false))) ∧
      d'.unsigned 32 = 2 ^ 32 - back ∧ d'.buf.length = d.buf.length ∧
      ∀ fuel, next junk (before ++ head ++ rest) fuel d' (before.length + head.length) =
        if back ≤ before.length + head.length then
          process junk (before ++ head ++ rest) fuel d'.fastForward (before.length + head.length - back)
        else none := by
  obtain ⟨d', g1, g2, g3, g4, g5, -⟩ := cbor_head_decoded_partial junk before head rest m _ hh h5 d hst hb
  refine ⟨d', g1, g3, g4, fun fuel => ?_⟩
  have hs : d'.st = .longStart := by rw [g5, if_neg (by omega)]
  have hi : d'.isIndeterminate = false := by
    rcases hm with rfl | rfl <;> simp [CDec.isIndeterminate, type_eq g2]
  simp only [next, hs, beq_self_eq_true, if_true, streamFastForward, hi, Bool.false_eq_true, if_false, g3,
    advance_back _ back h0 h1 hsz]
  by_cases hp : back ≤ before.length + head.length
  · simp only [if_pos hp]
  · simp only [if_neg hp]

/-- C41, C48 fail in between: a string that announces less than `2 ^ 31` bytes, but ends at position `2 ^ 31` or behind it, makes the position,
an `int`, overflow when the user goes on from it; a single string of `2 ^ 31 - 1` bytes at the beginning is enough. -/
theorem cbor_position_overflows (junk : UInt8) (before head rest : List UInt8) (m a : Nat) (hm : m = 2 ∨ m = 3) (hh : CborHead head m a)
    (h5 : head.length ≤ 5) (d : CDec) (hst : d.st = .headerStart ∨ d.st = .itemDone) (hb : 4 ≤ d.buf.length) (ha : a < 2 ^ 31)
    (hsz : 2 ^ 31 ≤ before.length + head.length + a) :
    ∃ d', (∀ fuel, 11 ≤ fuel → process junk (before ++ head ++ rest) fuel d before.length =
        some (some (d', before.length + head.length, false))) ∧
      d'.unsigned 32 = a ∧ ∀ fuel, next junk (before ++ head ++ rest) fuel d' (before.length + head.length) = none := by
  obtain ⟨d', g1, g2, g3, g4, g5, -⟩ := cbor_head_decoded_partial junk before head rest m _ hh h5 d hst hb
  refine ⟨d', g1, g3, fun fuel => ?_⟩
  have hs : d'.st = .longStart := by rw [g5, if_neg (by omega)]
  have hi : d'.isIndeterminate = false := by
    rcases hm with rfl | rfl <;> simp [CDec.isIndeterminate, type_eq g2]
  have e : advance (before.length + head.length) a = none := by
    rw [advance, show CDec.toSigned 32 a = a by rw [CDec.toSigned, if_pos (by omega)], if_neg (by omega)]
  simp only [next, hs, beq_self_eq_true, if_true, streamFastForward, hi, Bool.false_eq_true, if_false, g3, e]

/-- Five bytes that do so. -/
example : CborHead [0x7A, 0x7F, 0xFF, 0xFF, 0xFF] 3 (2 ^ 31 - 1) ∧ 2 ^ 31 ≤ 0 + 5 + (2 ^ 31 - 1) :=
  ⟨CborHead.ext (m := 3) (i := 2) (bs := [0x7F, 0xFF, 0xFF, 0xFF]) (by omega) (by omega) (by simp), by omega⟩

/-- C41, C48: a string that announces more bytes than there are, but less than `2 ^ 31`, ends the walk: nothing is read behind the bytes, and
asking again changes nothing.  (What the user was given as the string does reach behind the bytes.) -/
theorem cbor_truncated_ends (junk : UInt8) (before head rest : List UInt8) (m a : Nat) (hm : m = 2 ∨ m = 3) (hh : CborHead head m a)
    (h5 : head.length ≤ 5) (d : CDec) (hst : d.st = .headerStart ∨ d.st = .itemDone) (hb : 4 ≤ d.buf.length) (ha : rest.length < a)
    (hsz : before.length + head.length + a < 2 ^ 31) :
    ∃ d' d'', (∀ fuel, 11 ≤ fuel → process junk (before ++ head ++ rest) fuel d before.length =
        some (some (d', before.length + head.length, false))) ∧
      d'.unsigned 32 = a ∧
      (∀ fuel, next junk (before ++ head ++ rest) (fuel + 1) d' (before.length + head.length) =
        some (some (d'', before.length + head.length + a, true))) ∧
      ∀ fuel, next junk (before ++ head ++ rest) (fuel + 1) d'' (before.length + head.length + a) =
        some (some (d'', before.length + head.length + a, true)) := by
  obtain ⟨d', g1, g2, g3, g4, g5, -⟩ := cbor_head_decoded_partial junk before head rest m _ hh h5 d hst hb
  have hs : d'.st = .longStart := by rw [g5, if_neg (by omega)]
  have hi : d'.isIndeterminate = false := by
    rcases hm with rfl | rfl <;> simp [CDec.isIndeterminate, type_eq g2]
  have hp : ∀ fuel, process junk (before ++ head ++ rest) (fuel + 1) d'.fastForward (before.length + head.length + a) =
      some (some (d'.fastForward, before.length + head.length + a, true)) := by
    intro fuel
    rw [process, if_neg]
    simp only [List.length_append, Bool.or_eq_true, decide_eq_true_eq, Bool.and_eq_true, beq_iff_eq, not_or, not_and]
    refine ⟨by omega, fun h => ?_⟩
    omega
  refine ⟨d', d'.fastForward, g1, g3, fun fuel => ?_, fun fuel => ?_⟩
  · simp only [next, hs, beq_self_eq_true, if_true, streamFastForward, hi, Bool.false_eq_true, if_false, g3, advance_in _ _ hsz, hp]
  · have h2 : (d'.fastForward.st == CState.longStart) = false := rfl
    simp only [next, h2, Bool.false_eq_true, if_false, hp]

/-- A string of 300 bytes of which two are there. -/
example : CborHead [0x79, 1, 44] 3 300 := CborHead.ext (m := 3) (i := 1) (bs := [1, 44]) (by omega) (by omega) (by simp)

/-- C48 fails without end: after the five bytes that announce a string of `2 ^ 32 - 5` bytes, a user who goes on from item to item is given
this one string again and again, as often as they ask, and never reaches what follows or the end. -/
theorem cbor_walk_never_ends (junk : UInt8) (rest : List UInt8) (d : CDec) (hb : 4 ≤ d.buf.length) (n fuel : Nat) (hf : 11 ≤ fuel) :
    readDoc junk ([0x7A, 0xFF, 0xFF, 0xFF, 0xFB] ++ rest) fuel n d =
      some (some (List.replicate n (.string (rest.take (2 ^ 32 - 5))))) := by
  have hh : CborHead [0x7A, 0xFF, 0xFF, 0xFF, 0xFB] 3 (2 ^ 32 - 5) :=
    CborHead.ext (m := 3) (i := 2) (bs := [0xFF, 0xFF, 0xFF, 0xFB]) (by omega) (by omega) (by simp)
  have key : ∀ (n : Nat) (d : CDec), d.st = .headerStart ∨ d.st = .itemDone → 4 ≤ d.buf.length →
      ∃ r, process junk ([0x7A, 0xFF, 0xFF, 0xFF, 0xFB] ++ rest) fuel d 0 = some (some r) ∧
        readMore junk ([0x7A, 0xFF, 0xFF, 0xFF, 0xFB] ++ rest) fuel n r.1 r.2.1 =
          some (some (List.replicate n (.string (rest.take (2 ^ 32 - 5))))) := by
    intro n
    induction n with
    | zero =>
      intro d hst hb
      obtain ⟨d', g1, -⟩ := cbor_head_decoded_partial junk [] _ rest 3 _ hh (by simp) d hst hb
      exact ⟨_, by simpa using g1 fuel hf, rfl⟩
    | succ n ih =>
      intro d hst hb
      obtain ⟨d', g1, g2, g3, g4, g5, -⟩ := cbor_head_decoded_partial junk [] _ rest 3 _ hh (by simp) d hst hb
      obtain ⟨d'', k1, -, k3, k4⟩ := cbor_length_turns_back junk [] _ rest 3 5 (Or.inr rfl) (by omega) (by omega) hh (by simp) d hst hb (by simp)
      have e : d'' = d' := by
        have a := g1 fuel hf
        rw [k1 fuel hf] at a
        simpa using a
      subst e
      obtain ⟨r, e1, e2⟩ := ih d''.fastForward (Or.inl rfl) (by rw [← g4] at hb; exact hb)
      refine ⟨_, by simpa using g1 fuel hf, ?_⟩
      have hl : look ([0x7A, 0xFF, 0xFF, 0xFF, 0xFB] ++ rest) d'' 5 = .string (rest.take (2 ^ 32 - 5)) := by
        have hs : d''.st = .longStart := by rw [g5, if_neg (by omega)]
        simp only [look, hs, beq_self_eq_true, if_true, type_eq g2, g3]
        simp
      have hn := k4 fuel
      simp only [List.nil_append, List.length_cons, List.length_nil, Nat.zero_add, Nat.reduceAdd, Nat.le_refl, if_true, Nat.sub_self] at hn
      rw [e1] at hn
      simp only [readMore, hn, e2, hl, List.replicate_succ]
      rfl
  obtain ⟨r, e1, e2⟩ := key n d.fresh (Or.inl rfl) hb
  simp only [readDoc, e1, e2]

/-- Two bytes further back than the beginning: the head of a string of `2 ^ 32 - 7` bytes alone. -/
example : (process 0 [0x5A, 0xFF, 0xFF, 0xFF, 0xF9] 11 (CDec.fresh ⟨[0, 0, 0, 0], 0, 0, .long⟩) 0).bind
    (fun r => r.bind fun r => next 0 [0x5A, 0xFF, 0xFF, 0xFF, 0xF9] 11 r.1 r.2.1) = none := by decide +kernel

/-- C48 fails for array elements: an element of 24 or more is written as a bare byte, which is not the item of
that number. -/
theorem cbor_items_element_invalid (b : UInt8) (hb : 24 ≤ b.toNat) (buf : List UInt8) (hl : 2 ≤ buf.length) :
    WCall.run buf (.items [b]) = some ([0x81, b] ++ buf.drop 2, 2, true) ∧ ¬CborSeq [0x81, b] (meant (.items [b])) ∧
    ¬∃ head content, [b] = head ++ content ∧ CborItem head content (.int b.toNat) := by
  have key : ∀ head content, [b] = head ++ content → ¬CborItem head content (.int b.toNat) := by
    intro head content e hi
    generalize hv : CborAtom.int (b.toNat : Int) = v at hi
    cases hi with
    | @int h m a hh hm =>
      simp only [CborAtom.int.injEq, List.append_nil] at hv e
      subst e
      generalize hl : [b] = l at hh
      cases hh with
      | @tiny m a hm ha =>
        have : m = 0 ∨ m = 1 := by omega
        rcases this with rfl | rfl <;> simp [cborInt] at hv <;> omega
      | @ext m i bs hm hi hb =>
        simp only [List.cons.injEq] at hl
        rw [← hl.2] at hb
        have := Nat.two_pow_pos i
        simp at hb; omega
    | _ => simp at hv
  refine ⟨?_, ?_, fun ⟨h, c, e, hi⟩ => key h c e hi⟩
  · match buf, hl with
    | x :: y :: buf, _ => simp [WCall.run, listNet, majorTypeAndInteger, writeAt]; decide
  · intro h
    simp only [meant, List.map_cons, List.map_nil, List.length_cons, List.length_nil] at h
    generalize hbs : [0x81, b] = bs at h
    generalize hxs : [CborAtom.array (0 + 1), CborAtom.int b.toNat] = xs at h
    cases h with
    | nil => simp at hxs
    | @cons head content x bs xs h1 h2 h3 =>
      simp only [List.cons.injEq] at hxs
      obtain ⟨rfl, rfl⟩ := hxs
      obtain ⟨h', c', e, hi⟩ := cborSeq_single h3
      cases h1 with
      | array hh =>
        have hne : head ≠ [] := by rintro rfl; cases hh
        match head, hne, hbs with
        | [c], _, hbs =>
          simp only [List.append_nil, List.cons_append, List.nil_append, List.cons.injEq] at hbs
          exact key h' c' (by rw [hbs.2, e]) hi
        | [c1, c2], _, hbs =>
          simp only [List.append_nil, List.cons_append, List.nil_append, List.cons.injEq] at hbs
          rw [← hbs.2.2] at e
          have : h' = [] := by
            have := congrArg List.length e; simp at this; exact List.length_eq_zero_iff.1 (by omega)
          subst this
          generalize hv : CborAtom.int (b.toNat : Int) = v at hi
          cases hi with
          | int hh => cases hh
          | _ => simp at hv
        | _ :: _ :: _ :: _, _, hbs => simp at hbs

end Verif.Props
