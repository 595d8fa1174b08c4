import Verif.Model.CborHeads
import Verif.Props.CborDoc

/-! # CBOR heads written one at a time, contents from elsewhere (C98) -/
namespace Verif.Props
open Verif.Model Verif.Model.Cbor Verif.Spec Verif.Proofs Verif.Proofs.Cbor

/-- What a call with the contents behind it stands for; nothing if the contents do not have the length told. -/
inductive StandsFor : HCall → List UInt8 → CborAtom → Prop
  | integer (v : Int) : StandsFor (.integer v) [] (.int v)
  | string (s : List UInt8) : StandsFor (.string s.length) s (.text s)
  | array (s : List UInt8) : StandsFor (.array s.length) s (.bytes s)

/-- Numbers from 0 and lengths, of 32 bits, other than 24. -/
def HeadWritable : HCall → Prop
  | .integer v => 0 ≤ v ∧ v < 2 ^ 32 ∧ v ≠ 24
  | .string n => n < 2 ^ 32 ∧ n ≠ 24
  | .array n => n < 2 ^ 32 ∧ n ≠ 24

/-- One call on a buffer of five bytes or more: exactly the head of the item, and the rest of the buffer as it was. -/
theorem cbor_head_alone (w : Nat) (c : HCall) (content : List UInt8) (x : CborAtom) (hs : StandsFor c content x) (hw : HeadWritable c) :
    ∃ b, CborItem b content x ∧ b.length ≤ 5 ∧ ∀ buf, 5 ≤ buf.length → c.run w buf = some (b ++ buf.drop b.length, b.length) := by
  cases hs with
  | integer v =>
    obtain ⟨h0, h1, h2⟩ := hw
    obtain ⟨b, g1, -, g3, g4⟩ := major_eq 0 (by decide) v.toNat (by omega) (by omega)
    have g3 := g3 (by omega)
    refine ⟨b, ?_, g3, fun buf hb => ?_⟩
    · have := CborItem.int g1 (by decide)
      rwa [show cborInt (0 : UInt8).toNat v.toNat = v by simp [cborInt]; omega] at this
    · rw [HCall.run, integerBase, if_pos h0, g4, if_pos (by omega)]
  | string s =>
    obtain ⟨h1, h2⟩ := hw
    obtain ⟨b, g1, -, g3, g4⟩ := major_eq 3 (by decide) _ (Nat.lt_trans h1 (by decide)) h2
    have g3 := g3 h1
    refine ⟨b, .text g1, g3, fun buf hb => ?_⟩
    rw [HCall.run, g4, if_pos (by omega)]
  | array s =>
    obtain ⟨h1, h2⟩ := hw
    obtain ⟨b, g1, -, g3, g4⟩ := major_eq 2 (by decide) _ (Nat.lt_trans h1 (by decide)) h2
    have g3 := g3 h1
    refine ⟨b, .bytes g1, g3, fun buf hb => ?_⟩
    rw [HCall.run, g4, if_pos (by omega)]

/-- The calls with their contents, and the items. -/
inductive AllStandFor : List (HCall × List UInt8) → List CborAtom → Prop
  | nil : AllStandFor [] []
  | cons {c content x cs xs} : StandsFor c content x → AllStandFor cs xs → AllStandFor ((c, content) :: cs) (x :: xs)

/-- C98 (partial: no negative number, not the number or length 24, 32 bits): the heads and the contents behind them are the document; the
five bytes of the encoder are enough and the same five serve for every call. -/
theorem heads_document_partial (w : Nat) (cs : List (HCall × List UInt8)) (xs : List CborAtom) (hs : AllStandFor cs xs)
    (hw : ∀ c ∈ cs, HeadWritable c.1) (buf : List UInt8) (hb : 5 ≤ buf.length) :
    ∃ out, headsDoc w buf cs = some out ∧ CborSeq out xs := by
  induction hs generalizing buf with
  | nil => exact ⟨[], rfl, .nil⟩
  | @cons c content x cs xs h _ ih =>
    obtain ⟨b, g1, g2, g3⟩ := cbor_head_alone w c content x h (hw (c, content) (by simp))
    have e := g3 buf hb
    obtain ⟨out, i1, i2⟩ := ih (fun c hc => hw c (by simp [hc])) (b ++ buf.drop b.length) (by simp; omega)
    refine ⟨b ++ content ++ out, ?_, .cons g1 g2 i2⟩
    simp only [headsDoc, e, i1, Option.map_some, List.take_left]

/-- C98 (partial, as above): the streaming decoder reads the same items in the same order. -/
theorem heads_read_back_partial (w : Nat) (cs : List (HCall × List UInt8)) (xs : List CborAtom) (hs : AllStandFor cs xs)
    (hw : ∀ c ∈ cs, HeadWritable c.1) (h31 : ∀ v, (.integer v, []) ∈ cs → v < 2 ^ 31) (buf : List UInt8) (hb : 5 ≤ buf.length) (out : List UInt8)
    (ho : headsDoc w buf cs = some out) (hsz : out.length < 2 ^ 31) (junk : UInt8) (d : CDec) (hd : 4 ≤ d.buf.length) (fuel : Nat)
    (hf : 11 ≤ fuel) :
    readDoc junk out fuel xs.length d = some (some (xs.map reported)) := by
  obtain ⟨out', e, h⟩ := heads_document_partial w cs xs hs hw buf hb
  rw [ho] at e
  obtain rfl := Option.some.inj e
  apply cbor_document_read_partial junk out xs h _ d hd hsz fuel hf
  clear ho h hsz
  induction hs with
  | nil => simp
  | @cons c content x cs xs h _ ih =>
    intro y hy
    rcases List.mem_cons.1 hy with rfl | hy
    · cases h with
      | integer v =>
        have h1 := hw (.integer v, []) (by simp)
        have h2 := h31 v (by simp)
        simp only [HeadWritable] at h1
        simp only [Readable]; omega
      | string s => trivial
      | array s => trivial
    · exact ih (fun c hc => hw c (by simp [hc])) (fun v hv => h31 v (by simp [hv])) y hy

example : headsDoc 32 [1, 2, 3, 4, 5] [(.integer 70000, []), (.string 3, [97, 98, 99]), (.array 2, [8, 9]), (.integer 5, [])] =
    some [0x1A, 0, 1, 0x11, 0x70, 0x63, 97, 98, 99, 0x42, 8, 9, 5] := by decide +kernel
example : AllStandFor [(.integer 70000, []), (.string 3, [97, 98, 99]), (.array 2, [8, 9]), (.integer 5, [])]
    [.int 70000, .text [97, 98, 99], .bytes [8, 9], .int 5] :=
  .cons (.integer _) <| .cons (.string [97, 98, 99]) <| .cons (.array [8, 9]) <| .cons (.integer _) .nil

/-- The bytes of a head tell what it is. -/
theorem cborHead_unique {b : List UInt8} {m a m' a' : Nat} (h : CborHead b m a) (h' : CborHead b m' a') : m = m' ∧ a = a' := by
  have key : ∀ x y : Nat, x < 256 → y < 256 → UInt8.ofNat x = UInt8.ofNat y → x = y := by
    intro x y hx hy e
    have := congrArg UInt8.toNat e
    simpa [Nat.mod_eq_of_lt hx, Nat.mod_eq_of_lt hy] using this
  generalize hb : b = b' at h'
  cases h with
  | @tiny m a hm ha =>
    cases h' with
    | @tiny m' a' hm' ha' =>
      have := key _ _ (by omega) (by omega) (List.cons.inj hb).1
      omega
    | @ext m' i' bs' hm' hi' hl' =>
      have := (List.cons.inj hb).2
      rw [← this] at hl'
      have := Nat.two_pow_pos i'
      simp at hl'; omega
  | @ext m i bs hm hi hl =>
    cases h' with
    | @tiny m' a' hm' ha' =>
      have := (List.cons.inj hb).2
      rw [this] at hl
      have := Nat.two_pow_pos i
      simp at hl; omega
    | @ext m' i' bs' hm' hi' hl' =>
      have := key _ _ (by omega) (by omega) (List.cons.inj hb).1
      exact ⟨by omega, by rw [(List.cons.inj hb).2]⟩

/-- What is said of one head with nothing behind it. -/
theorem int_of_head {b : List UInt8} {m a : Nat} (h : CborHead b m a) {v : Int} (hs : CborSeq b [.int v]) : cborInt m a = v := by
  obtain ⟨head, content, e, hi⟩ := cborSeq_single hs
  generalize hx : CborAtom.int v = x at hi
  cases hi <;> cases hx
  case int m' a' _ hh =>
    rw [List.append_nil] at e
    subst e
    obtain ⟨rfl, rfl⟩ := cborHead_unique h hh
    rfl

/-- C98 fails: a number of 64 bits is written outside the encoder exactly if it does not fit 32 bits. -/
theorem heads_overflow_iff (v : Int) (h0 : 0 ≤ v) (h1 : v < 2 ^ 63) (h24 : v ≠ 24) (buf : List UInt8) (hb : buf.length = 5) :
    (HCall.integer v).run 64 buf = none ↔ 2 ^ 32 ≤ v := by
  obtain ⟨b, g1, -, g3, g4⟩ := major_eq 0 (by decide) v.toNat (by omega) (by omega)
  rw [HCall.run, integerBase, if_pos h0, g4]
  by_cases h : v < 2 ^ 32
  · have := g3 (by omega)
    rw [if_pos (by omega)]
    simp; omega
  · have hl : ¬b.length ≤ buf.length := fun hl => by
      have := cborHead_lt g1 (by omega)
      omega
    rw [if_neg hl]
    simp; omega

/-- C98 fails: whatever the encoder's memory, after a negative number (above the smallest, other than -24) the item is that of the number below it. -/
theorem heads_negative_wrong (v : Int) (hlo : -(2 : Int) ^ 31 < v) (hv : v < 0) (h24 : v ≠ -24) (buf : List UInt8) (hb : 5 ≤ buf.length) :
    ∃ out, headsDoc 32 buf [(.integer v, [])] = some out ∧ CborSeq out [.int (v - 1)] ∧ ¬CborSeq out [.int v] := by
  obtain ⟨b, g1, g2, g3, g4⟩ := major_eq 1 (by decide) (-v).toNat (by omega) (by omega)
  have g3 := g3 (by omega)
  have e : headsDoc 32 buf [(.integer v, [])] = some b := by
    simp only [headsDoc, HCall.run, integerBase, if_neg (show ¬0 ≤ v by omega), if_neg (show ¬v = -(2 ^ (32 - 1) : Nat) by simp; omega), g4,
      if_pos (show b.length ≤ buf.length by omega), List.take_left, Option.map_some, List.append_nil]
  have hi : CborItem b [] (.int (v - 1)) := by
    have := CborItem.int g1 (by decide)
    rwa [show cborInt (1 : UInt8).toNat (-v).toNat = v - 1 by simp [cborInt]; omega] at this
  have hseq := cborSeq_one hi g3
  rw [List.append_nil] at hseq
  refine ⟨b, e, hseq, fun hc => ?_⟩
  have h1 := int_of_head g1 hc
  have h2 := int_of_head g1 hseq
  omega

example : headsDoc 32 [0, 0, 0, 0, 0] [(.integer (-500), [])] = some [0x39, 1, 0xF4] := by decide +kernel

/-- C98 fails: the bytes for a string or an array of 24 are no head. -/
theorem heads_24_invalid (w : Nat) (buf : List UInt8) (hb : 1 ≤ buf.length) :
    (HCall.string 24).run w buf = some (0x78 :: buf.drop 1, 1) ∧ (HCall.array 24).run w buf = some (0x58 :: buf.drop 1, 1) ∧
    (HCall.integer 24).run w buf = some (0x18 :: buf.drop 1, 1) ∧
    ∀ c ∈ [(0x78 : UInt8), 0x58, 0x18], ¬∃ m a, CborHead [c] m a := by
  match buf, hb with
  | x :: buf, _ =>
    refine ⟨rfl, rfl, rfl, ?_⟩
    rintro c hc ⟨m, a, h⟩
    simp only [List.mem_cons, List.not_mem_nil, or_false] at hc
    rcases hc with rfl | rfl | rfl <;> exact no_head_24 (by decide) h

/-- C98, exactly, for integers of 32 bits: the bytes sent are the item of the integer if and only if it is not negative and not 24. -/
theorem heads_integer_iff (v : Int) (hlo : -(2 : Int) ^ 31 < v) (hhi : v < 2 ^ 31) (buf : List UInt8) (hb : 5 ≤ buf.length) :
    ∃ out, headsDoc 32 buf [(.integer v, [])] = some out ∧ (CborSeq out [.int v] ↔ 0 ≤ v ∧ v ≠ 24) := by
  match buf, hb with
  | y :: buf, hb =>
  by_cases h24 : v = 24 ∨ v = -24
  · have key : ∀ c : UInt8, c.toNat % 32 = 24 → ¬CborSeq [c] [.int v] := by
      intro c hc hs
      obtain ⟨head, content, e, hi⟩ := cborSeq_single hs
      generalize hx : CborAtom.int v = x at hi
      cases hi <;> cases hx
      case int m a _ hh =>
        rw [List.append_nil] at e
        subst e
        exact no_head_24 hc hh
    rcases h24 with rfl | rfl
    · exact ⟨[0x18], rfl, fun h => absurd h (key _ (by decide)), fun h => absurd rfl h.2⟩
    · exact ⟨[0x38], rfl, fun h => absurd h (key _ (by decide)), fun h => absurd h.1 (by decide)⟩
  · by_cases hv : 0 ≤ v
    · obtain ⟨out, e, h⟩ := heads_document_partial 32 [(.integer v, [])] [.int v] (.cons (.integer v) .nil)
        (by simp only [List.mem_singleton, forall_eq, HeadWritable]; omega) (y :: buf) hb
      exact ⟨out, e, fun _ => ⟨hv, by omega⟩, fun _ => h⟩
    · obtain ⟨out, e, -, h⟩ := heads_negative_wrong v hlo (by omega) (by omega) (y :: buf) hb
      exact ⟨out, e, fun hc => absurd hc h, fun hc => absurd hc.1 hv⟩

/-- `array` begins a string of bytes and never an array of items, whatever its length. -/
theorem heads_array_no_items (w : Nat) (n : Nat) (hn : n < 2 ^ 32) (h24 : n ≠ 24) (buf : List UInt8) (hb : 5 ≤ buf.length) :
    ∃ b, (HCall.array n).run w buf = some (b ++ buf.drop b.length, b.length) ∧ (∀ k, ¬CborHead b 4 k) ∧
      ∀ s, s.length = n → CborItem b s (.bytes s) := by
  obtain ⟨b, g1, -, g3, g4⟩ := major_eq 2 (by decide) n (by omega) h24
  have g3 := g3 hn
  refine ⟨b, by rw [HCall.run, g4, if_pos (by omega)], fun k hk => ?_, fun s hs => .bytes (by rw [hs]; exact g1)⟩
  have := (cborHead_unique g1 hk).1
  simp at this

/-- The smallest number is negated, which is undefined. -/
theorem heads_smallest_undefined (buf : List UInt8) (rest : List (HCall × List UInt8)) :
    headsDoc 32 buf ((.integer (-(2 : Int) ^ 31), []) :: rest) = none := by
  simp [headsDoc, HCall.run, integerBase]

end Verif.Props
