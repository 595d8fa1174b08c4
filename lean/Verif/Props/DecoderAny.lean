import Verif.Proofs.AnyOptions
import Verif.Props.DecoderMessage

/-! # Decoding arbitrary bytes: option numbers (C18) and malformed messages (C17) -/
namespace Verif.Props
open Verif.Model Verif.Proofs Verif.Spec Header Dec

/-- Header, token and arbitrary bytes in the place of options: what is reported as option numbers. -/
theorem any_reports (junk : Dec) (hj : junk.tbuf.length = 8) (b0 b1 b2 b3 : UInt8) (tok rest : List UInt8)
    (ht : tok.length = (b0 &&& 0x0F).toNat) (h8 : tok.length ≤ 8) :
    Reports (fresh junk) (b0 :: b1 :: b2 :: b3 :: (tok ++ rest)) ((scan 0 rest).map UInt16.ofNat) := by
  have hf := header_feed true (fresh junk) b0 b1 b2 b3 (tok ++ rest) rfl
  refine Reports.pre [.header ⟨b0, b1, b2, b3⟩] hf ?_
  generalize hd1 : ({ fresh junk with st := .headerDone, hdr := ⟨b0, b1, b2, b3⟩, hpos := 4 } : Dec) = d1
  have hd1t : d1.hdr.tokenLength.toNat = tok.length := by rw [← hd1, ht]; rfl
  have hd1s : d1.st = .headerDone := by rw [← hd1]
  have hd1b : d1.tbuf.length = 8 := by rw [← hd1]; exact hj
  -- after the token
  have after : ∀ d2 : Dec, d2.st = .tokenDone → Reports d2 rest ((scan 0 rest).map UInt16.ofNat) := by
    intro d2 hs2
    by_cases hr : rest = []
    · subst hr
      have hce : chunkEnd true ([], d2, []) = ([], d2) := by simp [chunkEnd, finEv, fin, hs2]
      have hsc : scan 0 [] = [] := by simp [scan]
      unfold Reports
      rw [feed_nil, hce, hsc]
      refine ⟨by simp [hs2], ?_⟩
      by_cases ho : d2.opt.st = .payload
      · refine ⟨5, [.optionStart, .optionsCompleted, .payload [] true, .completed], fun c hc => ?_, rfl⟩
        refine Finish.cons (d1 := { d2 with st := .optionsStart }) (e1 := [.optionStart]) ?_ (by simp)
          (Finish.cons (d1 := { d2 with st := .optionsDone }) (e1 := [.optionsCompleted]) ?_ (by simp)
            (finish_marker hc rfl ho))
        · simp [stepNotify, Dec.step, hs2, notify]
        · simp [stepNotify, Dec.step, notify, hc.rem, hc.1]
      · exact ⟨3, _, fun c hc => finish_tokenDone hc hs2 ho, rfl⟩
    · exact Reports.pre [.optionStart] (start_feed true d2 rest hs2 hr)
        (reports_options rest 0 _ rfl (Or.inl rfl) rfl (Or.inl hr))
  by_cases hto : tok = []
  · subst hto
    rw [List.nil_append]
    simp only [List.length_nil] at hd1t
    by_cases hr : rest = []
    · subst hr
      have := after { d1 with st := .tokenDone } rfl
      obtain ⟨h1, k, e, h2, h3⟩ := this
      have hce : chunkEnd true ([], { d1 with st := .tokenDone }, []) = ([], { d1 with st := .tokenDone }) := by
        simp [chunkEnd, finEv, fin]
      have hce1 : chunkEnd true ([], d1, []) = ([], d1) := by simp [chunkEnd, finEv, fin, hd1s]
      unfold Reports
      rw [feed_nil] at h2 h3 ⊢
      rw [hce] at h2 h3
      rw [hce1]
      refine ⟨by simp [hd1s], k + 1, [.token []] ++ e, fun c hc => Finish.cons ?_ (by simp) (h2 c hc), ?_⟩
      · have hgt : ¬ (d1.hdr.tokenLength > 0) := by
          rw [gt_iff_lt, UInt8.lt_iff_toNat_lt, hd1t]; simp
        simp [stepNotify, Dec.step, hd1s, notify, hgt, hd1t]
      · simpa [nums] using h3
    · exact Reports.pre [.token []] (token_feed_empty true d1 rest hd1s hd1t hr) (after _ rfl)
  · obtain ⟨d2, e1, -, -, -, e5⟩ := token_feed true tok d1 rest hd1s hto hd1t h8 hd1b
    exact Reports.pre [.token tok] e5 (after d2 e1)

/-- The option numbers reported for any final buffer that holds a header and its token are exactly the
sums of the deltas in it, modulo 65536. -/
theorem reported_numbers (junk : Dec) (hj : junk.tbuf.length = 8) (b0 b1 b2 b3 : UInt8) (tok rest : List UInt8)
    (ht : tok.length = (b0 &&& 0x0F).toNat) (h8 : tok.length ≤ 8) :
    ∃ N d' c' evs, d'.st = .done ∧ nums evs = (scan 0 rest).map UInt16.ofNat ∧
      ∀ fuel, N ≤ fuel →
        processToDone fuel (fresh junk) ⟨b0 :: b1 :: b2 :: b3 :: (tok ++ rest), 0, true⟩ = .ok (d', c', evs) := by
  obtain ⟨hnd, k, e, hf, hn⟩ := any_reports junk hj b0 b1 b2 b3 tok rest ht h8
  have hh : HOK (fresh junk) (b0 :: b1 :: b2 :: b3 :: (tok ++ rest)) := by
    simp only [HOK, fresh, List.head?_cons, Option.mem_def, Option.some.injEq]
    rintro b rfl; omega
  obtain ⟨N, d', -, hd', hall⟩ := deliver_of_feed (c := ⟨b0 :: b1 :: b2 :: b3 :: (tok ++ rest), 0, true⟩)
    (reach_inv (Reach.init junk _ true hj)) hh (by simp [Ctx.remainder]) (by simp [Going, fresh]) rfl hnd (hf _ ⟨rfl, rfl⟩)
  refine ⟨N, d', ⟨b0 :: b1 :: b2 :: b3 :: (tok ++ rest), (b0 :: b1 :: b2 :: b3 :: (tok ++ rest)).length, true⟩, _, hd', hn, fun fuel hfu => ?_⟩
  obtain ⟨f, rfl⟩ := Nat.exists_eq_add_of_le hfu
  exact hall f

/-- C18: as long as the running sum of the deltas stays below 65536, the option numbers reported for a
final buffer never decrease, whether the buffer is well formed or not. -/
theorem option_numbers_sorted (junk : Dec) (hj : junk.tbuf.length = 8) (b0 b1 b2 b3 : UInt8) (tok rest : List UInt8)
    (ht : tok.length = (b0 &&& 0x0F).toNat) (h8 : tok.length ≤ 8) (hsum : ∀ n ∈ scan 0 rest, n < 65536) :
    ∃ N d' c' evs, d'.st = .done ∧ (nums evs).Pairwise (· ≤ ·) ∧
      ∀ fuel, N ≤ fuel →
        processToDone fuel (fresh junk) ⟨b0 :: b1 :: b2 :: b3 :: (tok ++ rest), 0, true⟩ = .ok (d', c', evs) := by
  obtain ⟨N, d', c', evs, hd', hn, hall⟩ := reported_numbers junk hj b0 b1 b2 b3 tok rest ht h8
  refine ⟨N, d', c', evs, hd', ?_, hall⟩
  rw [hn, List.pairwise_map]
  refine List.Pairwise.imp_of_mem ?_ (scan_sorted 0 rest)
  intro a b ha hb hab
  have h1 := hsum a ha
  have h2 := hsum b hb
  rw [UInt16.le_iff_toNat_le]; simp; omega

-- two complete options, then one with a reserved length nibble, then one cut off in its header
example : scan 0 [0xB1, 7, 0x01, 8, 0x2F, 0x00, 0x1D] = [11, 11, 13, 14] := by
  simp [scan, readExt]
example : ∃ d, processToDone 60 Dec.zero ⟨[0x40, 1, 0, 1, 0xB1, 7, 0x01, 8, 0x2F, 0x00, 0x1D], 0, true⟩ =
    .ok (d, ⟨[0x40, 1, 0, 1, 0xB1, 7, 0x01, 8, 0x2F, 0x00, 0x1D], 11, true⟩,
      [.header ⟨0x40, 1, 0, 1⟩, .token [], .optionStart, .option 11 [7] true, .option 11 [8] true,
       .option 13 [] true, .option 14 [] true, .optionsCompleted, .completed]) := ⟨_, rfl⟩

/-- Without the bound on the sum the numbers may decrease: 65535 followed by delta 2. -/
theorem option_numbers_wrap :
    ∃ d c, processToDone 60 Dec.zero ⟨[0x40, 1, 0, 1, 0xE0, 0xFE, 0xF2, 0x20, 0xFF, 1], 0, true⟩ =
      .ok (d, c, [.header ⟨0x40, 1, 0, 1⟩, .token [], .optionStart, .option 65535 [] true, .option 1 [] true,
        .optionsCompleted, .payload [1] true, .completed]) := ⟨_, _, rfl⟩

/-! ## C17 -/

theorem nibble_bytes_ne {m : Msg} (hm : m.Ok) {rest : List UInt8}
    (h : encMsg m = 0x40 :: 1 :: 0 :: 1 :: rest) : rest = encOpts 0 m.opts ++ encPayload m.payload := by
  obtain ⟨h1, h2, -, -, h5, -⟩ := hm
  simp only [encMsg, encHeader, List.cons_append, List.nil_append, List.append_assoc, List.cons.injEq] at h
  obtain ⟨ha, -, -, -, hr⟩ := h
  have : (64 * m.version + 16 * m.type + m.token.length) % 256 = 64 := by
    have := congrArg UInt8.toNat ha
    simpa using this
  have ht : m.token = [] := by apply List.length_eq_zero_iff.mp; omega
  rw [ht] at hr
  simpa using hr.symm

/-- C17 is false: a buffer that ends inside an option header is not the encoding of any message, yet the
decoder reports the same as for a complete well-formed message. -/
theorem truncated_option_accepted :
    (∀ m : Msg, m.Ok → encMsg m ≠ [0x40, 1, 0, 1, 0xD0]) ∧
    ∃ m : Msg, m.Ok ∧ ∃ d c, processToDone 60 Dec.zero ⟨[0x40, 1, 0, 1, 0xD0], 0, true⟩ = .ok (d, c, delivery m) := by
  refine ⟨?_, ⟨1, 0, 1, 1, [], [⟨0, []⟩], none⟩, by decide, ⟨_, _, rfl⟩⟩
  intro m hm h
  have hr := nibble_bytes_ne hm h
  cases ho : m.opts with
  | nil => cases hp : m.payload <;> simp [ho, hp, encOpts, encPayload] at hr
  | cons o os =>
    rw [ho] at hr
    simp only [encOpts, optHeader_eq, List.cons_append, List.cons.injEq] at hr
    obtain ⟨hw, hr⟩ := hr
    have h1 := fb_delta (o.number - 0) o.value.length
    rw [← hw] at h1
    have : extBytes (o.number - 0) = [] := by
      have := hr.symm
      simp only [List.append_eq_nil_iff] at this
      exact this.1.1.1.1
    have hlt : o.number - 0 < 13 := by
      by_cases h : o.number - 0 < 13
      · exact h
      · obtain ⟨e, es, hx⟩ := extBytes_ne (v := o.number - 0) (by omega)
        rw [hx] at this; cases this
    simp only [nibble, hlt, if_true] at h1
    have : ((0xD0 : UInt8) >>> 4).toNat = 13 := by decide
    omega

/-- C17 is false: a buffer that uses the reserved nibble 15 is not the encoding of any message, yet the
decoder reports the same as for a complete well-formed message. -/
theorem reserved_nibble_accepted :
    (∀ m : Msg, m.Ok → encMsg m ≠ [0x40, 1, 0, 1, 0xF1, 5, 6]) ∧
    ∃ m : Msg, m.Ok ∧ ∃ d c, processToDone 60 Dec.zero ⟨[0x40, 1, 0, 1, 0xF1, 5, 6], 0, true⟩ = .ok (d, c, delivery m) := by
  refine ⟨?_, ⟨1, 0, 1, 1, [], [⟨0, [6]⟩], none⟩, by decide, ⟨_, _, rfl⟩⟩
  intro m hm h
  have hr := nibble_bytes_ne hm h
  cases ho : m.opts with
  | nil => cases hp : m.payload <;> simp [ho, hp, encOpts, encPayload] at hr
  | cons o os =>
    rw [ho] at hr
    simp only [encOpts, optHeader_eq, List.cons_append, List.cons.injEq] at hr
    have h1 := fb_delta (o.number - 0) o.value.length
    rw [← hr.1] at h1
    have := nibble_le (o.number - 0)
    have : ((0xF1 : UInt8) >>> 4).toNat = 15 := by decide
    omega

/-- What stepping over the rest `r` of a last buffer, and past its end, reports includes `ev`. -/
def Includes (d : Dec) (r : List UInt8) (ev : Event) : Prop :=
  (chunkEnd true (feed true d r)).2.st ≠ .done ∧
  ∃ k e, (∀ c, AtEof c → Finish k (chunkEnd true (feed true d r)).2 c e) ∧
    ev ∈ (chunkEnd true (feed true d r)).1 ++ e

theorem Includes.pre {d d' : Dec} {r r' : List UInt8} {x : Event} (ev : List Event)
    (h : feed true d r = (ev ++ (feed true d' r').1, (feed true d' r').2)) (hr : Includes d' r' x) :
    Includes d r x := by
  unfold Includes
  rw [h, chunkEnd_pre]
  obtain ⟨h1, k, e, h2, h3⟩ := hr
  refine ⟨h1, k, e, h2, ?_⟩
  rw [List.append_assoc, List.mem_append]; exact Or.inr h3

/-- Number of the last option of a list. -/
def lastNum (prev : Nat) : List Opt → Nat
  | [] => prev
  | o :: os => lastNum o.number os

theorem encOpts_snoc (prev : Nat) (os : List Opt) (o : Opt) :
    encOpts prev (os ++ [o]) = encOpts prev os ++ (optHeader (o.number - lastNum prev os) o.value.length ++ o.value) := by
  induction os generalizing prev with
  | nil => simp [encOpts, lastNum]
  | cons x xs ih => simp [encOpts, lastNum, ih]

theorem optsOk_snoc {prev : Nat} {os : List Opt} {o : Opt} (h : OptsOk prev (os ++ [o])) :
    OptsOk prev os ∧ lastNum prev os ≤ o.number ∧ o.number < 65536 ∧ o.value.length < 65536 := by
  induction os generalizing prev with
  | nil => simp only [List.nil_append, OptsOk] at h; simp [OptsOk, lastNum, h]
  | cons x xs ih =>
    obtain ⟨h1, h2, h3, h4⟩ := h
    obtain ⟨i1, i2⟩ := ih h4
    exact ⟨⟨h1, h2, h3, i1⟩, i2⟩

/-- Number of the holder after a list of options. -/
theorem options_feed_num (last : Bool) (os : List Opt) (prev : Nat) (d : Dec) (t : List UInt8)
    (hds : d.st = .options) (hr : Ready d.opt) (hn : d.holder.number = UInt16.ofNat prev)
    (hok : OptsOk prev os) (ht : t ≠ []) :
    ∃ o' h', Ready o' ∧ h'.number = UInt16.ofNat (lastNum prev os) ∧
      feed last d (encOpts prev os ++ t) =
        (optEvents os ++ (feed last { d with opt := o', holder := h' } t).1,
          (feed last { d with opt := o', holder := h' } t).2) := by
  induction os generalizing prev d with
  | nil => exact ⟨d.opt, d.holder, hr, hn, by simp [encOpts, optEvents]⟩
  | cons o os ih =>
    obtain ⟨h1, h2, h3, h4⟩ := hok
    obtain ⟨o1, g1, g2⟩ := option_feed last d (o.number - prev) o.value (encOpts o.number os ++ t) hds hr
      (by omega) h3 (by simp [ht])
    have hnum : d.holder.number + UInt16.ofNat (o.number - prev) = UInt16.ofNat o.number := by
      rw [hn]; apply UInt16.toNat_inj.1; simp [UInt16.toNat_add]; omega
    obtain ⟨o2, hh, g3, g5, g4⟩ := ih o.number
      { d with opt := o1, holder := ⟨d.holder.number + UInt16.ofNat (o.number - prev), UInt16.ofNat o.value.length⟩ }
      hds (Or.inr g1) hnum h4
    refine ⟨o2, hh, g3, g5, ?_⟩
    simp only [encOpts]
    rw [List.append_assoc (_ ++ _), g2, g4, hnum]
    simp [optEvents]

/-- C17 (partial: the message ends inside the value of its last option, at least one byte of which is
there): the option is reported as incomplete, so the caller can tell the message from every complete
message.  Missing: messages cut elsewhere and reserved nibbles, see the counterexamples above. -/
theorem cut_value_flagged_partial (m : Msg) (hm : m.Ok) (hp : m.payload = none) (junk : Dec)
    (hj : junk.tbuf.length = 8) (os : List Opt) (o : Opt) (ho : m.opts = os ++ [o]) (v w bytes : List UInt8)
    (hv : o.value = v ++ w) (hv0 : v ≠ []) (hw0 : w ≠ []) (hb : encMsg m = bytes ++ w) :
    ∃ N d' c' evs, d'.st = .done ∧ .option (UInt16.ofNat o.number) v false ∈ evs ∧
      (∀ m', evs ≠ delivery m') ∧
      ∀ fuel, N ≤ fuel → processToDone fuel (fresh junk) ⟨bytes, 0, true⟩ = .ok (d', c', evs) := by
  obtain ⟨h1, h2, h3, h4, h5, h6, h7⟩ := hm
  rw [ho] at h6
  obtain ⟨g1, g2, g3, g4⟩ := optsOk_snoc h6
  obtain ⟨b0, hb0⟩ : ∃ b0, UInt8.ofNat (64 * m.version + 16 * m.type + m.token.length) = b0 := ⟨_, rfl⟩
  have htk : (b0 &&& 0x0F).toNat = m.token.length := by
    rw [tkl_toNat, ← hb0]; simp; omega
  have hby : bytes = b0 :: UInt8.ofNat m.code :: UInt8.ofNat (m.mid / 256) :: UInt8.ofNat (m.mid % 256) ::
      (m.token ++ (encOpts 0 os ++ (optHeader (o.number - lastNum 0 os) o.value.length ++ v))) := by
    have : bytes ++ w = (b0 :: UInt8.ofNat m.code :: UInt8.ofNat (m.mid / 256) :: UInt8.ofNat (m.mid % 256) ::
      (m.token ++ (encOpts 0 os ++ (optHeader (o.number - lastNum 0 os) o.value.length ++ v)))) ++ w := by
      rw [← hb]
      simp [encMsg, encHeader, hb0, ho, encOpts_snoc, hp, encPayload, hv]
    exact List.append_cancel_right this
  generalize hrest : encOpts 0 os ++ (optHeader (o.number - lastNum 0 os) o.value.length ++ v) = rest at hby
  have hrne : rest ≠ [] := by rw [← hrest]; simp [optHeader]
  have after : ∀ d2 : Dec, d2.st = .tokenDone → Includes d2 rest (.option (UInt16.ofNat o.number) v false) := by
    intro d2 hs2
    refine Includes.pre [.optionStart] (start_feed true d2 rest hs2 hrne) ?_
    generalize hd3 : ({ d2 with st := .options, opt := { d2.opt with st := .firstByte }, holder := ⟨0, 0⟩ } : Dec) = d3
    have hs3 : d3.st = .options := by rw [← hd3]
    have hr3 : Ready d3.opt := by rw [← hd3]; exact Or.inl rfl
    have hn3 : d3.holder.number = UInt16.ofNat 0 := by rw [← hd3]; rfl
    obtain ⟨o', h', i1, i2, i3⟩ := options_feed_num true os 0 d3
      (optHeader (o.number - lastNum 0 os) o.value.length ++ v) hs3 hr3 hn3 g1 (by simp [optHeader])
    rw [hrest] at i3
    refine Includes.pre (optEvents os) i3 ?_
    obtain ⟨o1, q, he⟩ := header_phase' o' h' (o.number - lastNum 0 os) o.value.length v i1 (by omega) g4
    have hnum : h'.number + UInt16.ofNat (o.number - lastNum 0 os) = UInt16.ofNat o.number := by
      rw [i2]; apply UInt16.toNat_inj.1; simp [UInt16.toNat_add]; omega
    obtain ⟨o2, j1, j2⟩ := hend_cut true
      { d3 with opt := o1, holder := ⟨h'.number + UInt16.ofNat (o.number - lastNum 0 os), UInt16.ofNat o.value.length⟩ }
      v o.value.length hs3 he rfl hv0 (by
        have := List.length_pos_iff.mpr hw0
        rw [Nat.mod_eq_of_lt g4, hv]; simp; omega)
    unfold Includes
    rw [q.1 { d3 with opt := o', holder := h' } true hs3 rfl rfl, j2]
    have hce : ∀ ev : List Event, chunkEnd true (ev,
        ({ d3 with opt := o2, holder := ⟨h'.number + UInt16.ofNat (o.number - lastNum 0 os), UInt16.ofNat o.value.length⟩ } : Dec), []) =
        (ev, { d3 with opt := o2, holder := ⟨h'.number + UInt16.ofNat (o.number - lastNum 0 os), UInt16.ofNat o.value.length⟩ }) := by
      intro ev; simp [chunkEnd, finEv, fin, hs3, j1]
    rw [hce]
    obtain ⟨k, e, hf, -⟩ := finish_nums
      (d := { d3 with opt := o2, holder := ⟨h'.number + UInt16.ofNat (o.number - lastNum 0 os), UInt16.ofNat o.value.length⟩ }) hs3
      (by simp [OInv, j1]) (by simp [j1])
    exact ⟨by simp [hs3], k, e, hf, by simp [hnum]⟩
  have hinc : Includes (fresh junk) bytes (.option (UInt16.ofNat o.number) v false) := by
    rw [hby]
    refine Includes.pre [.header ⟨b0, UInt8.ofNat m.code, UInt8.ofNat (m.mid / 256), UInt8.ofNat (m.mid % 256)⟩]
      (header_feed true (fresh junk) b0 _ _ _ _ rfl) ?_
    generalize hd1 : ({ fresh junk with st := .headerDone, hdr := ⟨b0, UInt8.ofNat m.code, UInt8.ofNat (m.mid / 256), UInt8.ofNat (m.mid % 256)⟩, hpos := 4 } : Dec) = d1
    have hd1t : d1.hdr.tokenLength.toNat = m.token.length := by rw [← hd1, ← htk]; rfl
    have hd1s : d1.st = .headerDone := by rw [← hd1]
    have hd1b : d1.tbuf.length = 8 := by rw [← hd1]; exact hj
    by_cases hto : m.token = []
    · rw [hto] at hd1t ⊢
      exact Includes.pre [.token []] (token_feed_empty true d1 rest hd1s hd1t hrne) (after _ rfl)
    · obtain ⟨d2, e1, -, -, -, e5⟩ := token_feed true m.token d1 rest hd1s hto hd1t h5 hd1b
      exact Includes.pre [.token m.token] e5 (after d2 e1)
  obtain ⟨hnd, k, e, hf, hn⟩ := hinc
  have hh : HOK (fresh junk) bytes := by
    rw [hby]
    simp only [HOK, fresh, List.head?_cons, Option.mem_def, Option.some.injEq]
    rintro b rfl; omega
  obtain ⟨N, d', -, hd', hall⟩ := deliver_of_feed (c := ⟨bytes, 0, true⟩)
    (reach_inv (Reach.init junk _ true hj)) hh (by simp [Ctx.remainder, hby]) (by simp [Going, fresh]) rfl hnd (hf _ ⟨rfl, rfl⟩)
  refine ⟨N, d', ⟨bytes, bytes.length, true⟩, _, hd', hn, ?_, fun fuel hfu => ?_⟩
  · intro m' heq
    rw [heq] at hn
    cases hp' : m'.payload <;> simp [delivery, hp'] at hn
  · obtain ⟨f, rfl⟩ := Nat.exists_eq_add_of_le hfu
    exact hall f

-- the second option announces three bytes of which two are there
example : encMsg ⟨1, 0, 1, 1, [9], [⟨3, [1]⟩, ⟨11, [1, 2, 3]⟩], none⟩ = [0x41, 1, 0, 1, 9, 0x31, 1, 0x83, 1, 2] ++ [3] := by
  decide
example : ∃ d, processToDone 60 Dec.zero ⟨[0x41, 1, 0, 1, 9, 0x31, 1, 0x83, 1, 2], 0, true⟩ =
    .ok (d, ⟨[0x41, 1, 0, 1, 9, 0x31, 1, 0x83, 1, 2], 10, true⟩,
      [.header ⟨0x41, 1, 0, 1⟩, .token [9], .optionStart, .option 3 [1] true, .option 11 [1, 2] false,
       .optionsCompleted, .completed]) := ⟨_, rfl⟩

end Verif.Props
