import Verif.Proofs.OptionHeader

/-! # The stream encoder writing one option header (C20, C21, C23) -/
namespace Verif.Props
open Verif.Model OptEnc SEnc Spec Proofs

/-- C21: writing an option header returns, for every option number, length, previous state of the encoder
and room left, and it only appends to the stream. -/
theorem option_header_returns (s : SEnc) (number length : UInt16) :
    ∃ s' ok, s.optionHeader number length = .ok (s', ok) ∧ s'.cap = s.cap ∧ s.out <+: s'.out := by
  obtain ⟨s', ok, e1, e2, e3, -⟩ := loop_total s.fuelFor { s with oe := s.oe.next } ⟨number, length, []⟩ trivial
    (by simp only [fuelFor, room, next, erank]; omega)
  exact ⟨s', ok, e1, e2, e3⟩

/-- The number of steps allowed for in the model is not a limit: any larger number gives the same result. -/
theorem option_header_fuel (s : SEnc) (number length : UInt16) (f : Nat) (hf : s.fuelFor ≤ f) :
    optionLoop f { s with oe := s.oe.next } ⟨number, length, []⟩ = s.optionHeader number length := by
  obtain ⟨s', ok, e1, -, -, -, -⟩ := loop_total s.fuelFor { s with oe := s.oe.next } ⟨number, length, []⟩ trivial
    (by simp only [fuelFor, room, next, erank]; omega)
  have key : ∀ g h (s : SEnc) (b : OptBase) x, optionLoop g s b = .ok x → optionLoop (g + h) s b = .ok x := by
    intro g h
    induction g with
    | zero => intro s b x e; simp [optionLoop] at e
    | succ g ih =>
      intro s b x e
      rw [show g + 1 + h = (g + h) + 1 by omega]
      rw [optionLoop] at e ⊢
      split at e
      · exact e
      · rename_i oe r hgen
        cases r with
        | none =>
          simp only at e ⊢
          split at e <;> rename_i hc
          · rw [if_pos hc]; exact e
          · rw [if_neg hc]; exact ih _ _ _ e
        | some b =>
          simp only at e ⊢
          split at e <;> rename_i hc
          · rw [if_pos hc]; exact e
          · rw [if_neg hc]
            split at e <;> rename_i hc2
            · rw [if_pos hc2]; exact e
            · rw [if_neg hc2]; exact ih _ _ _ e
  obtain ⟨k, rfl⟩ := Nat.exists_eq_add_of_le hf
  rw [key _ k _ _ _ e1, optionHeader, e1]

/-- C23: an option header never overruns the stream.  Failure is reported exactly when the bytes do not all
fit, the stream is then full, and what it holds is a prefix of what a larger stream would hold. -/
theorem option_header_room (s : SEnc) (number length : UInt16) (hlen : s.out.length ≤ s.cap) :
    ∃ s' ok, s.optionHeader number length = .ok (s', ok) ∧ s'.out.length ≤ s.cap ∧
      (ok = false → s'.out.length = s.cap) ∧
      ∀ cap, s.cap ≤ cap → ∃ t ok2, ({ s with cap := cap } : SEnc).optionHeader number length = .ok (t, ok2) ∧
        s'.out <+: t.out ∧ (ok = true → ok2 = true ∧ t.out = s'.out) ∧
        (ok = false → ok2 = true → s.cap < t.out.length) := by
  obtain ⟨s', ok, e1, e2, e3, e4, e5⟩ := loop_total s.fuelFor { s with oe := s.oe.next } ⟨number, length, []⟩ trivial
    (by simp only [fuelFor, room, next, erank]; omega)
  have hmax : s'.out.length ≤ s.cap := by simp only [Nat.max_eq_left hlen] at e4; exact e4
  refine ⟨s', ok, e1, hmax, fun h => ?_, fun cap hcap => ?_⟩
  · have := e5 h; simp only at this; omega
  · obtain ⟨t, ok2, g1, g2, g3⟩ := loop_cap s.fuelFor { s with oe := s.oe.next } ⟨number, length, []⟩ trivial cap hcap hlen
      (fuelFor { s with cap := cap }) (by simp only [fuelFor, room, next, erank]; omega) s' ok e1
    refine ⟨t, ok2, g1, ?_, fun h => ⟨(g2 h).1, by rw [(g2 h).2]⟩, fun h => (g3 h).2.2⟩
    cases ok with
    | true => rw [(g2 rfl).2]; exact List.prefix_rfl
    | false => exact (g3 rfl).2.1

-- room for two of the three bytes of this header: reported, and the first two bytes are there
example : (SEnc.init 2).optionHeader 300 1 = .ok (⟨⟨.optionDeltaDone, 0, 2⟩, [0xE1, 0], 2⟩, false) := by decide +kernel
example : (SEnc.init 3).optionHeader 300 1 = .ok (⟨⟨.optionLengthDone, 300, 2⟩, [0xE1, 0, 31], 3⟩, true) := by decide +kernel

theorem sub_ofNat {prev n : Nat} (h : prev ≤ n) (hn : n < 65536) :
    (UInt16.ofNat n - UInt16.ofNat prev).toNat = n - prev := by
  rw [UInt16.toNat_sub]; simp; omega

theorem optHeader_length (d l : Nat) : (optHeader d l).length ≤ 5 := by
  simp only [optHeader, List.length_cons, List.length_append]
  have : ∀ v, (extBytes v).length ≤ 2 := by intro v; unfold extBytes; (repeat' split) <;> simp
  have a := this d; have b := this l; omega

/-- C20 with its exact extent: the header written is the one RFC 7252 prescribes precisely for the deltas
and lengths of `HeaderOk`.  So the property fails for every delta from 242 to 268 and from 65266 up, and
for nearly every value length of 13 or more. -/
theorem option_header_exact_iff (prev n len : Nat) (hn : prev ≤ n) (hn2 : n < 65536) (hl : len < 65536)
    (s : SEnc) (hcur : s.oe.current = UInt16.ofNat prev) (hroom : s.out.length + 5 ≤ s.cap) :
    (∃ s', s.optionHeader (UInt16.ofNat n) (UInt16.ofNat len) = .ok (s', true) ∧
        s'.out = s.out ++ optHeader (n - prev) len) ↔ HeaderOk (n - prev) len := by
  obtain ⟨⟨st, cur, pos⟩, out, cap⟩ := s
  simp only at hcur hroom; subst hcur
  have hi := emits_iff ⟨UInt16.ofNat n, UInt16.ofNat len, []⟩ (UInt16.ofNat prev) pos
  simp only [sub_ofNat hn hn2, UInt16.toNat_ofNat', Nat.mod_eq_of_lt hl] at hi
  rw [← hi]
  constructor
  · rintro ⟨s', e, ho⟩
    obtain ⟨bs, h1, h2⟩ := emits_of_loop _ _ _ _ _ (by exact trivial) _ e
    rw [ho] at h2
    rw [List.append_cancel_left h2]
    exact ⟨_, h1⟩
  · rintro ⟨q, he⟩
    have hl5 := optHeader_length (n - prev) len
    refine ⟨_, loop_of_emits he _ out cap trivial (by omega) ?_, rfl⟩
    simp only [fuelFor, room, erank]; omega

/-- C20 (partial: the range of deltas and lengths): the header of RFC 7252 is written, success is reported
and the encoder is ready for the next option, whose delta counts from this one. -/
theorem option_header_exact_partial (prev n len : Nat) (hn : prev ≤ n) (hn2 : n < 65536) (hl : len < 65536)
    (hok : HeaderOk (n - prev) len)
    (s : SEnc) (hcur : s.oe.current = UInt16.ofNat prev)
    (hroom : s.out.length + (optHeader (n - prev) len).length ≤ s.cap) :
    ∃ oe, oe.current = UInt16.ofNat n ∧ s.optionHeader (UInt16.ofNat n) (UInt16.ofNat len) =
        .ok (⟨oe, s.out ++ optHeader (n - prev) len, s.cap⟩, true) := by
  obtain ⟨⟨st, cur, pos⟩, out, cap⟩ := s
  simp only at hcur hroom; subst hcur
  have hi := emits_iff ⟨UInt16.ofNat n, UInt16.ofNat len, []⟩ (UInt16.ofNat prev) pos
  simp only [sub_ofNat hn hn2, UInt16.toNat_ofNat', Nat.mod_eq_of_lt hl] at hi
  obtain ⟨q, he⟩ := hi.2 hok
  refine ⟨q, (emits_current he (Or.inl trivial) (by simp)).2, ?_⟩
  exact loop_of_emits he _ out cap trivial hroom (by simp only [fuelFor, room, erank]; omega)

example : HeaderOk 11 5 ∧ HeaderOk 200 12 ∧ HeaderOk 5000 0 ∧ HeaderOk 4 26 := by decide
example : ¬ HeaderOk 1 13 ∧ ¬ HeaderOk 250 1 ∧ ¬ HeaderOk 0 300 := by decide

/-- C20 fails: a Uri-Path of 13 characters (an everyday request) gets a header that is not RFC 7252. -/
theorem long_value_header_wrong : ¬ ∃ s', (SEnc.init 1000).optionHeader 11 13 = .ok (s', true) ∧
    s'.out = optHeader 11 13 := by
  intro h
  have := (option_header_exact_iff 0 11 13 (by omega) (by omega) (by omega) (SEnc.init 1000) rfl (by decide)).1
    (by simpa [SEnc.init] using h)
  simp only [HeaderOk] at this
  omega

/-- What is written instead: the length byte, then 0xFF bytes until the position counter has wrapped around. -/
theorem long_value_header_garbage : ∃ s', (SEnc.init 300).optionHeader 11 13 = .ok (s', true) ∧
    s'.out = [0xBD, 0] ++ List.replicate 254 0xFF ++ [13] := by
  exact ⟨⟨⟨.optionLengthDone, 11, 0⟩, [0xBD, 0] ++ List.replicate 254 0xFF ++ [13], 300⟩, by decide +kernel, rfl⟩

/-- An option number that is 65266 or more above the previous one, or below it by at most 270, fills the
whole stream with junk whatever its size. -/
theorem delta_out_of_range_fills (s : SEnc) (number length : UInt16)
    (h : 65266 ≤ (number - s.oe.current).toNat) (hlen : s.out.length ≤ s.cap) :
    ∃ s', s.optionHeader number length = .ok (s', false) ∧ s'.out.length = s.cap := by
  obtain ⟨s', ok, e, -, hf, -⟩ := option_header_room s number length hlen
  cases ok with
  | false => exact ⟨s', e, hf rfl⟩
  | true =>
    exfalso
    obtain ⟨⟨st, cur, pos⟩, out, cap⟩ := s
    obtain ⟨bs, h1, -⟩ := emits_of_loop _ _ _ _ _ (by exact trivial) _ e
    have stay : ∀ o : OptEnc, o.st = .optionDelta → o.current = cur → ∀ bs q, ¬ Emits ⟨number, length, []⟩ o bs q := by
      intro o hs hc bs q he
      induction he with
      | done hd => rw [hs] at hd; cases hd
      | @quiet o o' bs o'' hn hg _ ih => obtain ⟨st, c, p⟩ := o; subst hs; simp [generate] at hg
      | @byte o o' b bs o'' hn hg _ ih =>
        obtain ⟨st, c, p⟩ := o
        simp only at hs hc; subst hs hc
        simp [generate, helper_big h] at hg
        exact ih (by rw [← hg.1]) (by rw [← hg.1])
    obtain ⟨t, -, h2⟩ := h1.inv_byte (by simp [next]) (o' := ⟨.firstByteDone, cur, 0⟩) (by simp [generate, next]; rfl)
    have h3 := h2.inv_quiet (by simp) (o' := ⟨.optionDelta, cur, 0⟩) (by simp [generate, helper_big h])
    exact stay _ rfl rfl _ _ h3

-- writing option 11 after option 12
example : 65266 ≤ ((11 : UInt16) - 12).toNat := by decide

end Verif.Props
