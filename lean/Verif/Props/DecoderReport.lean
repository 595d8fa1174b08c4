import Verif.Proofs.AnyReport
import Verif.Props.DecoderAny

/-! # Everything the decoder reports for arbitrary bytes, and which malformed messages can be told apart (C17) -/
namespace Verif.Props
open Verif.Model Verif.Proofs Verif.Spec Header Dec

/-- What is reported for header, token and arbitrary bytes behind them. -/
def reportOf (b0 b1 b2 b3 : UInt8) (tok rest : List UInt8) : List Event :=
  [.header ⟨b0, b1, b2, b3⟩, .token tok, .optionStart] ++
  (readRest 0 0 rest).1.map (fun i => .option (UInt16.ofNat i.number) i.value i.complete) ++
  [.optionsCompleted] ++
  (match (readRest 0 0 rest).2 with | none => [] | some p => [.payload p true]) ++
  [.completed]

theorem reportOf_eq (b0 b1 b2 b3 : UInt8) (tok rest : List UInt8) :
    reportOf b0 b1 b2 b3 tok rest =
      [.header ⟨b0, b1, b2, b3⟩] ++ ([.token tok] ++ ([.optionStart] ++ restEvents (readRest 0 0 rest))) := by
  simp [reportOf, restEvents]; rfl

theorem any_says (junk : Dec) (hj : junk.tbuf.length = 8) (b0 b1 b2 b3 : UInt8) (tok rest : List UInt8)
    (ht : tok.length = (b0 &&& 0x0F).toNat) (h8 : tok.length ≤ 8)
    (hst : junk.opt.st ≠ .payload ∨ tok ≠ [] ∨ rest ≠ []) :
    Says (fresh junk) (b0 :: b1 :: b2 :: b3 :: (tok ++ rest)) (reportOf b0 b1 b2 b3 tok rest) := by
  rw [reportOf_eq]
  refine Says.pre _ (header_feed true (fresh junk) b0 b1 b2 b3 (tok ++ rest) rfl) ?_
  generalize hd1 : ({ fresh junk with st := .headerDone, hdr := ⟨b0, b1, b2, b3⟩, hpos := 4 } : Dec) = d1
  have hd1t : d1.hdr.tokenLength.toNat = tok.length := by rw [← hd1, ht]; rfl
  have hd1s : d1.st = .headerDone := by rw [← hd1]
  have hd1b : d1.tbuf.length = 8 := by rw [← hd1]; exact hj
  have hd1o : d1.opt = junk.opt := by rw [← hd1]; rfl
  -- after the token
  have after : ∀ d2 : Dec, d2.st = .tokenDone → d2.opt.st ≠ .payload ∨ rest ≠ [] →
      Says d2 rest ([.optionStart] ++ restEvents (readRest 0 0 rest)) := by
    intro d2 hs2 ho
    by_cases hr : rest = []
    · have ho' : d2.opt.st ≠ .payload := by
        rcases ho with h | h
        · exact h
        · exact absurd hr h
      subst hr
      have hce : chunkEnd true ([], d2, []) = ([], d2) := by simp [chunkEnd, finEv, fin, hs2]
      unfold Says
      rw [feed_nil, hce]
      refine ⟨by simp [hs2], 3, _, fun c hc => finish_tokenDone hc hs2 ho', ?_⟩
      simp [readRest_nil, restEvents]
    · exact Says.pre [.optionStart] (start_feed true d2 rest hs2 hr)
        (says_options rest 0 0 _ rfl (Or.inl rfl) rfl rfl (Or.inl hr))
  by_cases hto : tok = []
  · subst hto
    rw [List.nil_append]
    simp only [List.length_nil] at hd1t
    by_cases hr : rest = []
    · have hjo : junk.opt.st ≠ .payload := by
        rcases hst with h | h | h
        · exact h
        · exact absurd rfl h
        · exact absurd hr h
      subst hr
      have hce1 : chunkEnd true ([], d1, []) = ([], d1) := by simp [chunkEnd, finEv, fin, hd1s]
      unfold Says
      rw [feed_nil, hce1]
      refine ⟨by simp [hd1s], 4, _, fun c hc => finish_headerDone hc hd1s hd1t (by rw [hd1o]; exact hjo), ?_⟩
      simp [readRest_nil, restEvents]
    · exact Says.pre [.token []] (token_feed_empty true d1 rest hd1s hd1t hr) (after _ rfl (Or.inr hr))
  · obtain ⟨d2, e1, e2, -, -, e5⟩ := token_feed true tok d1 rest hd1s hto hd1t h8 hd1b
    exact Says.pre [.token tok] e5 (after d2 e1 (Or.inl (by rw [e2]; simp)))

/-- C17, C12, C18: for every final buffer that holds a header and its token, whatever follows, the decoder
reports exactly what `readRest` reads in it.  The only condition on the decoder is the one of C13. -/
theorem any_bytes_reported (junk : Dec) (hj : junk.tbuf.length = 8) (b0 b1 b2 b3 : UInt8) (tok rest : List UInt8)
    (ht : tok.length = (b0 &&& 0x0F).toNat) (h8 : tok.length ≤ 8)
    (hst : junk.opt.st ≠ .payload ∨ tok ≠ [] ∨ rest ≠ []) :
    ∃ N d' c', d'.st = .done ∧
      ∀ fuel, N ≤ fuel →
        processToDone fuel (fresh junk) ⟨b0 :: b1 :: b2 :: b3 :: (tok ++ rest), 0, true⟩ =
          .ok (d', c', reportOf b0 b1 b2 b3 tok rest) := by
  obtain ⟨hnd, k, e, hf, hn⟩ := any_says junk hj b0 b1 b2 b3 tok rest ht h8 hst
  have hh : HOK (fresh junk) (b0 :: b1 :: b2 :: b3 :: (tok ++ rest)) := by
    simp only [HOK, fresh, List.head?_cons, Option.mem_def, Option.some.injEq]
    rintro b rfl; omega
  obtain ⟨N, d', -, hd', hall⟩ := deliver_of_feed (c := ⟨b0 :: b1 :: b2 :: b3 :: (tok ++ rest), 0, true⟩)
    (reach_inv (Reach.init junk _ true hj)) hh (by simp [Ctx.remainder]) (by simp [Going, fresh]) rfl hnd (hf _ ⟨rfl, rfl⟩)
  refine ⟨N, d', ⟨b0 :: b1 :: b2 :: b3 :: (tok ++ rest), (b0 :: b1 :: b2 :: b3 :: (tok ++ rest)).length, true⟩, hd', fun fuel hfu => ?_⟩
  obtain ⟨f, rfl⟩ := Nat.exists_eq_add_of_le hfu
  rw [hall f, show (⟨b0 :: b1 :: b2 :: b3 :: (tok ++ rest), 0, true⟩ : Ctx).remainder =
    b0 :: b1 :: b2 :: b3 :: (tok ++ rest) from rfl, hn]

-- reserved nibbles, a length of 12 with one byte left
example : readRest 0 0 [0xB1, 7, 0x2F, 0, 0xFC, 5, 6] =
    ([⟨11, [7], true⟩, ⟨13, [], true⟩, ⟨13, [6], false⟩], none) := by
  simp [readRest, readExt]
-- a header cut off after an option of one byte, and after an empty one
example : readRest 0 0 [0x11, 7, 0x2D] = ([⟨1, [7], true⟩, ⟨3, [], false⟩], none) := by
  simp [readRest, readExt, cutMark]
example : readRest 0 0 [0x10, 0x2D] = ([⟨1, [], true⟩, ⟨3, [], true⟩], none) := by
  simp [readRest, readExt, cutMark]
example : ∃ d c, processToDone 60 Dec.zero ⟨[0x40, 1, 0, 1, 0x11, 7, 0x2D], 0, true⟩ =
    .ok (d, c, reportOf 0x40 1 0 1 [] [0x11, 7, 0x2D]) := by
  have : readRest 0 0 [0x11, 7, 0x2D] = ([⟨1, [7], true⟩, ⟨3, [], false⟩], none) := by
    simp [readRest, readExt, cutMark]
  simp only [reportOf, this]
  exact ⟨_, _, rfl⟩

theorem optsOk_items (prev : Nat) (is : List Item) (h1 : ∀ i ∈ is, prev ≤ i.number)
    (h2 : (is.map (·.number)).Pairwise (· ≤ ·)) (h3 : ∀ i ∈ is, i.number < 65536) (h4 : ∀ i ∈ is, i.value.length < 65536) :
    OptsOk prev (is.map fun i => ⟨i.number, i.value⟩) := by
  induction is generalizing prev with
  | nil => trivial
  | cons i is ih =>
    rw [List.map_cons, List.pairwise_cons] at h2
    refine ⟨h1 i (by simp), h3 i (by simp), h4 i (by simp), ih _ ?_ h2.2 (fun j hj => h3 j (by simp [hj]))
      (fun j hj => h4 j (by simp [hj]))⟩
    intro j hj
    exact h2.1 _ (List.mem_map_of_mem hj)

/-- C17, exactly: what is reported for a buffer can be told apart from what is reported for every well-formed
message only if an option is marked incomplete or the payload is empty.  All other malformed buffers (reserved
nibbles, headers cut off where `cutMark` says so) are reported like some well-formed message. -/
theorem told_apart_iff (b0 b1 b2 b3 : UInt8) (tok rest : List UInt8)
    (ht : tok.length = (b0 &&& 0x0F).toNat) (h8 : tok.length ≤ 8) (hsum : ∀ n ∈ scan 0 rest, n < 65536) :
    (∀ m : Msg, m.Ok → reportOf b0 b1 b2 b3 tok rest ≠ delivery m) ↔
      (∃ i ∈ (readRest 0 0 rest).1, i.complete = false) ∨ (readRest 0 0 rest).2 = some [] := by
  constructor
  · intro h
    apply Classical.byContradiction
    intro hc
    rw [not_or] at hc
    obtain ⟨hc1, hc2⟩ := hc
    have hall : ∀ i ∈ (readRest 0 0 rest).1, i.complete = true := by
      intro i hi
      cases hb : i.complete with
      | true => rfl
      | false => exact absurd ⟨i, hi, hb⟩ hc1
    have hnum := readRest_numbers 0 0 rest
    have hb0 : UInt8.ofNat (64 * (b0.toNat / 64) + 16 * (b0.toNat / 16 % 4) + tok.length) = b0 := by
      rw [ht, tkl_toNat]
      apply UInt8.toNat_inj.1
      have := u8_lt b0
      simp; omega
    refine h ⟨b0.toNat / 64, b0.toNat / 16 % 4, b1.toNat, b2.toNat * 256 + b3.toNat, tok,
      (readRest 0 0 rest).1.map fun i => ⟨i.number, i.value⟩, (readRest 0 0 rest).2⟩ ?_ ?_
    · have := u8_lt b0
      have := u8_lt b1
      have := u8_lt b2
      have := u8_lt b3
      refine ⟨by simp only; omega, by simp only; omega, by simp only; omega, by simp only; omega, h8, ?_, hc2⟩
      refine optsOk_items 0 _ (fun _ _ => Nat.zero_le _) (by rw [hnum]; exact scan_sorted 0 rest) ?_ (readRest_values 0 0 rest)
      intro i hi
      exact hsum _ (by rw [← hnum]; exact List.mem_map_of_mem hi)
    · have hm : UInt8.ofNat ((b2.toNat * 256 + b3.toNat) / 256) = b2 := by
        apply UInt8.toNat_inj.1
        have := u8_lt b2
        have := u8_lt b3
        simp; omega
      have hm2 : UInt8.ofNat ((b2.toNat * 256 + b3.toNat) % 256) = b3 := by
        apply UInt8.toNat_inj.1
        have := u8_lt b2
        have := u8_lt b3
        simp
      have hmap : (readRest 0 0 rest).1.map (fun i => Event.option (UInt16.ofNat i.number) i.value i.complete) =
          ((readRest 0 0 rest).1.map fun i => (⟨i.number, i.value⟩ : Opt)).map
            (fun o => Event.option (UInt16.ofNat o.number) o.value true) := by
        rw [List.map_map]
        apply List.map_congr_left
        intro i hi
        simp [hall i hi]
      simp only [reportOf, delivery, hb0, hm, hm2, hmap, UInt8.ofNat_toNat]
      cases (readRest 0 0 rest).2 <;> rfl
  · rintro (⟨i, hi, hb⟩ | hp) m hm he
    · have : Event.option (UInt16.ofNat i.number) i.value false ∈ delivery m := by
        rw [← he]
        simp only [reportOf, List.mem_append, List.mem_map]
        exact Or.inl (Or.inl (Or.inl (Or.inr ⟨i, hi, by rw [hb]⟩)))
      cases hp' : m.payload <;> simp [delivery, hp'] at this
    · have : Event.payload [] true ∈ delivery m := by
        rw [← he]; simp [reportOf, hp]
      cases hp' : m.payload with
      | none => simp [delivery, hp'] at this
      | some p =>
        simp [delivery, hp'] at this
        subst this
        exact hm.2.2.2.2.2.2 hp'

end Verif.Props
