import Verif.Proofs.PullRun
import Verif.Props.DecoderMessage

/-! # C50: the pull-style decoder -/
namespace Verif.Props
open Verif.Model Header Dec OptDec Spec Pull Proofs

/-- What a reader of a message should get from header(), token(), the options and payload(). -/
def reading (m : Msg) (shown : List Opt) (final : DState) : Reading where
  header := ⟨UInt8.ofNat (64 * m.version + 16 * m.type + m.token.length), UInt8.ofNat m.code,
    UInt8.ofNat (m.mid / 256), UInt8.ofNat (m.mid % 256)⟩
  token := m.token
  completed := true
  options := shown.map fun o => (UInt16.ofNat o.number, o.value)
  payload := m.payload.getD []
  final := final

/-- The state in which a reader should find the decoder behind the options. -/
def behindOptions (m : Msg) : DState := if m.payload.isSome then .payload else .done

theorem wire_head (m : Msg) (hm : m.Ok) (ob : List UInt8) (junk : Dec) (hj : junk.tbuf.length = 8)
    (F : Pull → Except Fault (List (UInt16 × List UInt8) × Pull)) :
    ∃ p, p.d.st = .optionsStart ∧ Rem p.c (ob ++ encPayload m.payload) ∧
      (p.d.opt.st = .payload → m.token = [] ∧ junk.opt.st = .payload) ∧
      ∀ l q, F p = .ok (l, q) → readWith F (make junk (wire m ob)) =
        .ok ⟨⟨UInt8.ofNat (64 * m.version + 16 * m.type + m.token.length), UInt8.ofNat m.code,
          UInt8.ofNat (m.mid / 256), UInt8.ofNat (m.mid % 256)⟩, m.token, true, l, q.payload, q.d.st⟩ := by
  obtain ⟨h1, h2, h3, h4, h5, -, -⟩ := hm
  have hw : wire m ob = UInt8.ofNat (64 * m.version + 16 * m.type + m.token.length) :: UInt8.ofNat m.code ::
      UInt8.ofNat (m.mid / 256) :: UInt8.ofNat (m.mid % 256) :: (m.token ++ (ob ++ encPayload m.payload)) := by
    simp [wire, encHeader]
  have ht : (⟨UInt8.ofNat (64 * m.version + 16 * m.type + m.token.length), UInt8.ofNat m.code,
      UInt8.ofNat (m.mid / 256), UInt8.ofNat (m.mid % 256)⟩ : Header).tokenLength.toNat = m.token.length := by
    rw [tokenLength, show (15 : UInt8) = 0x0F from rfl, tkl_toNat]; simp; omega
  rw [hw]
  generalize UInt8.ofNat (64 * m.version + 16 * m.type + m.token.length) = b0 at ht ⊢
  generalize UInt8.ofNat m.code = b1 at ht ⊢
  generalize UInt8.ofNat (m.mid / 256) = b2 at ht ⊢
  generalize UInt8.ofNat (m.mid % 256) = b3 at ht ⊢
  obtain ⟨q1, e1, g1, g2, g3, g4, g5⟩ := header_all junk b0 b1 b2 b3 (m.token ++ (ob ++ encPayload m.payload))
  obtain ⟨q2, e2, k1, k2, k3⟩ := token_all (p := q1) (t := m.token) (r := ob ++ encPayload m.payload)
    (by rw [g1]
        by_cases hz : m.token = []
        · rw [if_neg, if_pos hz]
          rw [gt_iff_lt, UInt8.lt_iff_toNat_lt, ht, hz]; simp
        · rw [if_pos, if_neg hz]
          rw [gt_iff_lt, UInt8.lt_iff_toNat_lt, ht]
          exact List.length_pos_iff.mpr hz)
    (by rw [g2, ht]) h5 (by rw [g4, hj]) g5
  refine ⟨q2, k1, k2, fun h => ⟨(k3 h).1, by rw [← g3]; exact (k3 h).2⟩, fun l q e => ?_⟩
  simp [readWith, e1, e2, e]

/-- C50, the functions themselves: `header`, `token`, `begin_option_experimental` and `option_next` with
`option_number` and `option`, then `payload`, give back every well-formed message in every option
encoding, and the decoder ends at the payload or at the end.  Missing: a header-only message read by a
decoder in memory that happens to hold the option state `Payload`. -/
theorem pull_reads_message_partial (m : Msg) (hm : m.Ok) (ob : List UInt8) (hob : IsOpts 0 m.opts ob) (junk : Dec)
    (hj : junk.tbuf.length = 8) (hst : junk.opt.st ≠ .payload ∨ m.token ≠ [] ∨ m.opts ≠ [] ∨ m.payload ≠ none)
    (fuel : Nat) (hf : m.opts.length < fuel) :
    readWith (nextAll fuel) (make junk (wire m ob)) = .ok (reading m m.opts (behindOptions m)) := by
  obtain ⟨p, h1, h2, h3, h4⟩ := wire_head m hm ob junk hj (nextAll fuel)
  obtain ⟨f, rfl⟩ : ∃ f, fuel = m.opts.length + 1 + f := ⟨fuel - (m.opts.length + 1), by omega⟩
  obtain ⟨q, e, g1, g2⟩ := nextAll_all hob h1 h2 (by
    by_cases hp : p.d.opt.st = .payload
    · obtain ⟨a, b⟩ := h3 hp
      rcases hst with h | h | h
      · exact absurd b h
      · exact absurd a h
      · exact Or.inr h
    · exact Or.inl hp) f
  rw [h4 _ _ e, Pull.payload, g2.1, g1]
  rfl

/-- C50 fails for the option iterator: for every well-formed message it shows exactly the options that
`iteratorShows` lists — the second, fifth, eighth … never, the first, fourth, seventh … without their
values. -/
theorem iterator_shows_partial (m : Msg) (hm : m.Ok) (ob : List UInt8) (hob : IsOpts 0 m.opts ob) (junk : Dec)
    (hj : junk.tbuf.length = 8) (hst : junk.opt.st ≠ .payload ∨ m.token ≠ [] ∨ m.opts ≠ [] ∨ m.payload ≠ none)
    (fuel : Nat) (hf : m.opts.length < fuel) :
    readWith (iterAll fuel) (make junk (wire m ob)) =
      .ok (reading m (iteratorShows m.payload.isSome m.opts)
        (if iteratorArrives m.payload.isSome m.opts then behindOptions m else .optionsDone)) := by
  obtain ⟨p, h1, h2, h3, h4⟩ := wire_head m hm ob junk hj (iterAll fuel)
  obtain ⟨f, rfl⟩ : ∃ f, fuel = m.opts.length + 1 + f := ⟨fuel - (m.opts.length + 1), by omega⟩
  obtain ⟨q, e, g1, g2⟩ := iterAll_all hob h1 h2 (by
    by_cases hp : p.d.opt.st = .payload
    · obtain ⟨a, b⟩ := h3 hp
      rcases hst with h | h | h
      · exact absurd b h
      · exact absurd a h
      · exact Or.inr h
    · exact Or.inl hp) f
  rw [h4 _ _ e, Pull.payload, g2.1, g1]
  rfl

theorem shows_length (marker : Bool) (os : List Opt) : (iteratorShows marker os).length ≤ os.length := by
  fun_induction iteratorShows marker os <;> simp_all <;> omega

/-- The iterator shows the options of a message exactly when there are none, or a single one with an empty
value. -/
theorem iterator_right_iff (m : Msg) (hm : m.Ok) (ob : List UInt8) (hob : IsOpts 0 m.opts ob) (junk : Dec)
    (hj : junk.tbuf.length = 8) (hst : junk.opt.st ≠ .payload ∨ m.token ≠ [] ∨ m.opts ≠ [] ∨ m.payload ≠ none)
    (fuel : Nat) (hf : m.opts.length < fuel) :
    (∃ r, readWith (iterAll fuel) (make junk (wire m ob)) = .ok r ∧
      r.options = m.opts.map fun o => (UInt16.ofNat o.number, o.value)) ↔
    (m.opts = [] ∨ ∃ n, m.opts = [⟨n, []⟩]) := by
  rw [iterator_shows_partial m hm ob hob junk hj hst fuel hf]
  constructor
  · rintro ⟨r, e, h⟩
    cases e
    simp only [reading] at h
    match hos : m.opts with
    | [] => exact Or.inl rfl
    | [o] =>
      right
      rw [hos] at h
      by_cases hc : m.payload.isSome = true ∨ o.value = []
      · simp only [iteratorShows, hc, if_true, List.map_cons, List.map_nil, List.cons.injEq, Prod.mk.injEq, and_true, true_and] at h
        exact ⟨o.number, by rw [h]⟩
      · simp [iteratorShows, hc] at h
    | [o, o2] =>
      rw [hos] at h
      simp [iteratorShows] at h
    | o :: o2 :: o3 :: rest =>
      rw [hos] at h
      have h1 := congrArg List.length h
      have h2 := shows_length m.payload.isSome rest
      simp [iteratorShows] at h1
      omega
  · intro h
    refine ⟨_, rfl, ?_⟩
    rcases h with h | ⟨n, h⟩ <;> simp [reading, h, iteratorShows]

/-- C50 fails: the single non-empty option of a request without payload, such as the path of
`GET /ping`, is never shown, and the decoder is left in front of the end. -/
theorem iterator_misses_single_option (m : Msg) (hm : m.Ok) (o : Opt) (ho : m.opts = [o]) (hv : o.value ≠ [])
    (hp : m.payload = none) (ob : List UInt8) (hob : IsOpts 0 m.opts ob) (junk : Dec) (hj : junk.tbuf.length = 8)
    (fuel : Nat) (hf : 1 < fuel) :
    readWith (iterAll fuel) (make junk (wire m ob)) = .ok (reading m [] .optionsDone) := by
  rw [iterator_shows_partial m hm ob hob junk hj (by simp [ho]) fuel (by simpa [ho] using hf)]
  simp [ho, hp, iteratorShows, iteratorArrives, hv]

/-- C50 fails: with at least two options the second is never shown, nor the value of the first. -/
theorem iterator_skips_second (m : Msg) (hm : m.Ok) (o o2 : Opt) (rest : List Opt) (ho : m.opts = o :: o2 :: rest)
    (ob : List UInt8) (hob : IsOpts 0 m.opts ob) (junk : Dec) (hj : junk.tbuf.length = 8)
    (fuel : Nat) (hf : m.opts.length < fuel) :
    ∃ r l, readWith (iterAll fuel) (make junk (wire m ob)) = .ok r ∧
      r.options = (UInt16.ofNat o.number, []) :: l ∧ l.length ≤ rest.length ∧
      (∀ x ∈ l, ∃ y ∈ rest, x.1 = UInt16.ofNat y.number) := by
  rw [iterator_shows_partial m hm ob hob junk hj (by simp [ho]) fuel hf]
  have sub : ∀ (b : Bool) (os : List Opt), ∀ x ∈ iteratorShows b os, ∃ y ∈ os, x.number = y.number := by
    intro b os
    fun_induction iteratorShows b os with
    | case1 => simp
    | case2 o h => simp
    | case3 o h => simp
    | case4 o o2 => simp
    | case5 o o2 o3 rest ih =>
      intro x hx
      simp only [List.mem_cons] at hx
      rcases hx with rfl | rfl | hx
      · exact ⟨o, by simp, rfl⟩
      · exact ⟨x, by simp, rfl⟩
      · obtain ⟨y, hy, hn⟩ := ih x hx
        exact ⟨y, by simp [hy], hn⟩
  refine ⟨_, ((iteratorShows m.payload.isSome m.opts).map fun o => (UInt16.ofNat o.number, o.value)).tail, rfl, ?_⟩
  match rest, ho with
  | [], ho => simp [reading, ho, iteratorShows]
  | o3 :: rest, ho =>
    have := shows_length m.payload.isSome rest
    refine ⟨by simp [reading, ho, iteratorShows], by simpa [ho, iteratorShows] using this, ?_⟩
    intro x hx
    simp only [ho, iteratorShows, List.map_cons, List.tail_cons, List.mem_cons, List.mem_map] at hx
    rcases hx with rfl | ⟨y, hy, rfl⟩
    · exact ⟨o3, by simp, rfl⟩
    · obtain ⟨z, hz, hn⟩ := sub _ _ y hy
      exact ⟨z, by simp [hz], by simp [hn]⟩

/-- C50 fails: behind exactly two options the walk with the iterator stops before the state in which the
responders look for the payload, for every message with two options and a payload. -/
theorem iterator_hides_payload (m : Msg) (hm : m.Ok) (o o2 : Opt) (ho : m.opts = [o, o2]) (p : List UInt8)
    (hp : m.payload = some p) (ob : List UInt8) (hob : IsOpts 0 m.opts ob) (junk : Dec) (hj : junk.tbuf.length = 8)
    (fuel : Nat) (hf : 2 < fuel) :
    ∃ r, readWith (iterAll fuel) (make junk (wire m ob)) = .ok r ∧ r.final = .optionsDone ∧ r.payload = p := by
  rw [iterator_shows_partial m hm ob hob junk hj (by simp [ho]) fuel (by simpa [ho] using hf)]
  exact ⟨_, rfl, by simp [reading, ho, hp, iteratorArrives], by simp [reading, hp]⟩

/-- C50 fails: `header()` on a buffer of fewer than four bytes does not report the cut; it returns the
bytes there are, completed with whatever memory held. -/
theorem pull_short_header (junk : Dec) (bytes : List UInt8) (h : bytes.length < 4) :
    ∃ hd p, (make junk bytes).header = .ok (hd, p) ∧
      [hd.b0, hd.b1, hd.b2, hd.b3] = bytes ++ [junk.hdr.b0, junk.hdr.b1, junk.hdr.b2, junk.hdr.b3].drop bytes.length := by
  match bytes, h with
  | [], _ => exact ⟨_, _, rfl, rfl⟩
  | [_], _ => exact ⟨_, _, rfl, rfl⟩
  | [_, _], _ => exact ⟨_, _, rfl, rfl⟩
  | [_, _, _], _ => exact ⟨_, _, rfl, rfl⟩

/-- C50, cut tokens: behind a complete header, a token with bytes missing is reported as not completed. -/
theorem pull_cut_token (junk : Dec) (b0 b1 b2 b3 : UInt8) (t : List UInt8) (hj : junk.tbuf.length = 8)
    (ht : t.length < (fields b0 b1 b2 b3).tkl) (h8 : t.length ≤ 8) :
    ∃ p q, (make junk (b0 :: b1 :: b2 :: b3 :: t)).header = .ok (⟨b0, b1, b2, b3⟩, p) ∧ p.token = .ok ([], false, q) := by
  obtain ⟨p, e1, g1, g2, g3, g4, g5⟩ := header_all junk b0 b1 b2 b3 t
  have hk : (⟨b0, b1, b2, b3⟩ : Header).tokenLength.toNat = (fields b0 b1 b2 b3).tkl := by
    rw [tokenLength, tkl_toNat]; rfl
  obtain ⟨q, e2, -⟩ := token_cut (p := p) (r := t)
    (by rw [g1, if_pos]; rw [gt_iff_lt, UInt8.lt_iff_toNat_lt, hk]; simp; omega) (by rw [g2, hk]; exact ht) h8 (by rw [g4, hj]) g5
  exact ⟨p, q, e1, e2⟩

example : ([1, 2] : List UInt8).length < (fields 0x44 1 0 7).tkl := by decide

/-- C50: the token can be asked for once.  `token()` behind `header()` gives it; a second `token()`, or one after stepping through the token with
`process_iterate()`, gives an empty token as complete, whatever the message. -/
theorem pull_token_once (junk : Dec) (b0 b1 b2 b3 : UInt8) (t r : List UInt8) (hj : junk.tbuf.length = 8) (ht : t ≠ []) (h8 : t.length ≤ 8)
    (htk : (⟨b0, b1, b2, b3⟩ : Header).tokenLength.toNat = t.length) :
    ∃ p q p1 p2, (make junk (b0 :: b1 :: b2 :: b3 :: (t ++ r))).header = .ok (⟨b0, b1, b2, b3⟩, p) ∧
      p.token = .ok (t, true, q) ∧ q.token = .ok ([], true, q) ∧
      p.iterate = .ok p1 ∧ p1.iterate = .ok p2 ∧ p2.token = .ok ([], true, p2) := by
  have hlen : t.length ≠ 0 := fun h => ht (List.length_eq_zero_iff.mp h)
  have hpos : (⟨b0, b1, b2, b3⟩ : Header).tokenLength > 0 := by
    rw [gt_iff_lt, UInt8.lt_iff_toNat_lt, htk]
    exact Nat.pos_of_ne_zero hlen
  obtain ⟨p, e1, s1, hh, ho, hb, hr⟩ := header_all junk b0 b1 b2 b3 (t ++ r)
  rw [if_pos hpos] at s1
  have htk' : p.d.hdr.tokenLength.toNat = t.length := by rw [hh]; exact htk
  have hb' : p.d.tbuf.length = 8 := by rw [hb]; exact hj
  obtain ⟨q, e2, s2, _⟩ := token_all (p := p) (t := t) (r := r) (by simpa [ht] using s1) htk' h8 hb' hr
  obtain ⟨d', e, _, _, _, _⟩ := tokenLoop_all t [] { p.d with st := .token, tpos := 0, opt := { p.d.opt with st := .garbage } } r 0 ht
    (by simpa using htk') (by simpa using h8) hb' rfl rfl rfl
  refine ⟨p, q, ⟨{ p.d with st := .token, tpos := 0, opt := { p.d.opt with st := .garbage } }, p.c⟩,
    ⟨{ d' with st := .tokenDone }, { p.c with pos := p.c.pos + t.length }⟩, e1, e2, ?_, ?_, ?_, ?_⟩
  · simp [Pull.token, preprocessToken, s2]
  · simp [iterate, Dec.step, s1]
  · simp only [iterate, Dec.step, hr.1, e]; simp
  · simp [Pull.token, preprocessToken]

example : (⟨0x42, 1, 0, 7⟩ : Header).tokenLength.toNat = ([0x77, 0x78] : List UInt8).length := by decide

-- `GET coap://host/a/b?q` with a token: the functions show all three options, the iterator two of them,
-- one without its value
def pullSample : Msg := ⟨1, 0, 1, 7, [0x77, 0x78], [⟨11, [97]⟩, ⟨11, [98]⟩, ⟨15, [113]⟩], none⟩

example : pullSample.Ok := by decide

example : readWith (nextAll 9) (make Dec.zero (encMsg pullSample)) =
    .ok (reading pullSample [⟨11, [97]⟩, ⟨11, [98]⟩, ⟨15, [113]⟩] .done) := by decide +kernel

example : readWith (iterAll 9) (make Dec.zero (encMsg pullSample)) =
    .ok (reading pullSample [⟨11, []⟩, ⟨15, [113]⟩] .done) := by decide +kernel

-- `GET coap://host/ping`
example : readWith (iterAll 9) (make Dec.zero (encMsg ⟨1, 0, 1, 7, [], [⟨11, [112, 105, 110, 103]⟩], none⟩)) =
    .ok (reading ⟨1, 0, 1, 7, [], [⟨11, [112, 105, 110, 103]⟩], none⟩ [] .optionsDone) := by decide +kernel

end Verif.Props
