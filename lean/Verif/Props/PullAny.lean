import Verif.Props.PullDecoder
import Verif.Props.DecoderTermination

/-! # C79: the pull-style decoder on any datagram whatever -/
namespace Verif.Props
open Verif.Model Header Dec OptDec Spec Pull Proofs

/-- The decoder is done after exactly `n` more calls of `process_iterate`. -/
def PullEnds : Nat → Pull → Prop
  | 0, p => p.d.st = .done
  | n + 1, p => ∃ q, p.iterate = .ok q ∧ PullEnds n q

theorem ends_of_process : ∀ (f : Nat) (d : Dec) (c : Ctx) (d' : Dec) (c' : Ctx) (evs : List Event),
    processToDone f d c = .ok (d', c', evs) → ∃ n, n ≤ f ∧ PullEnds n ⟨d, c⟩ := by
  intro f
  induction f with
  | zero => intro d c d' c' evs h; simp [processToDone] at h
  | succ f ih =>
    intro d c d' c' evs h
    simp only [processToDone, stepNotify] at h
    cases hs : d.step c with
    | error e => simp [hs] at h
    | ok x =>
      obtain ⟨d1, c1⟩ := x
      simp only [hs] at h
      have hit : iterate ⟨d, c⟩ = .ok ⟨d1, c1⟩ := by simp [iterate, hs]
      cases hn : d1.notify c1 with
      | error e => simp [hn] at h
      | ok ev =>
        simp only [hn] at h
        by_cases hd : d1.st = .done
        · exact ⟨1, by omega, ⟨d1, c1⟩, hit, hd⟩
        · simp only [beq_iff_eq, hd, if_false] at h
          cases hp : processToDone f d1 c1 with
          | error e => simp [hp] at h
          | ok y =>
            obtain ⟨d2, c2, ev2⟩ := y
            obtain ⟨n, hn, he⟩ := ih d1 c1 d2 c2 ev2 hp
            exact ⟨n + 1, by omega, ⟨d1, c1⟩, hit, he⟩

theorem ends_succ {n : Nat} {p : Pull} (h : PullEnds n p) (hs : p.d.st ≠ .done) :
    ∃ m q, n = m + 1 ∧ p.iterate = .ok q ∧ PullEnds m q := by
  cases n with
  | zero => exact absurd h hs
  | succ m => obtain ⟨q, e, h⟩ := h; exact ⟨m, q, rfl, e, h⟩

theorem options_iterate {p q : Pull} (hs : p.d.st = .options) (e : p.iterate = .ok q) :
    q.d.st = .options ∨ q.d.st = .optionsDone := by
  simp only [iterate, Dec.step, hs] at e
  cases hp : OptDec.process p.d.opt p.d.holder p.c.remainder p.c.last with
  | error x => simp [hp] at e
  | ok x =>
    obtain ⟨o, h, n⟩ := x
    simp only [hp] at e
    by_cases h1 : o.st = .payload
    · simp [h1] at e; rw [← e]; simp
    · by_cases h2 : (p.c.pos + n == p.c.chunk.length && p.c.last) = true
      · simp only [beq_iff_eq, h1, if_false, h2, if_true] at e
        by_cases h3 : o.st = .optionValueDone
        · simp [h3] at e; rw [← e]; simp
        · simp [h3] at e; rw [← e]; simp
      · simp only [beq_iff_eq, h1, if_false, h2] at e
        simp at e; rw [← e]; simp [hs]

theorem optionsDone_iterate {p q : Pull} (hs : p.d.st = .optionsDone) (e : p.iterate = .ok q) :
    q.d.st = .payload ∨ q.d.st = .done := by
  simp only [iterate, Dec.step, hs] at e
  split at e
  · cases e
  · rename_i d c hd
    cases e
    split at hd
    · cases hd; simp
    · split at hd
      · cases hd; simp
      · split at hd
        · cases hd
        · split at hd <;> cases hd <;> simp

/-- What `option_next` does when the decoder is in the middle of the options and comes to an end. -/
theorem next_ends {n : Nat} {p : Pull} (hs : p.d.st = .options) (h : PullEnds n p) :
    ∃ q m, m + 2 ≤ n ∧ PullEnds m q ∧ p.optionNext = .ok (q.d.st == .options, q) := by
  obtain ⟨n1, q1, rfl, e1, h1⟩ := ends_succ h (by simp [hs])
  have s1 := options_iterate hs e1
  obtain ⟨n2, q2, rfl, e2, h2⟩ := ends_succ h1 (by rcases s1 with s | s <;> simp [s])
  by_cases hd : q2.d.st = .optionsDone
  · obtain ⟨n3, q3, rfl, e3, h3⟩ := ends_succ h2 (by simp [hd])
    exact ⟨q3, n3, by omega, h3, by simp [optionNext, e1, e2, hd, e3]⟩
  · exact ⟨q2, n2, by omega, h2, by simp [optionNext, e1, e2, hd]⟩

theorem nextLoop_ends : ∀ (n : Nat) (p : Pull), p.d.st = .options → PullEnds n p →
    ∃ r, ∀ f, nextLoop (n + f) true p = .ok r := by
  intro n
  induction n using Nat.strongRecOn with
  | ind n ih =>
    intro p hs h
    obtain ⟨q, m, hm, hq, e⟩ := next_ends hs h
    obtain ⟨k, rfl⟩ : ∃ k, n = k + 2 := ⟨n - 2, by omega⟩
    by_cases ho : q.d.st = .options
    · obtain ⟨⟨l, q'⟩, hr⟩ := ih m (by omega) q ho hq
      refine ⟨(p.current :: l, q'), fun f => ?_⟩
      rw [show k + 2 + f = (m + (k + 1 + f - m)) + 1 by omega]
      simp [nextLoop, e, ho, hr]
    · refine ⟨([p.current], q), fun f => ?_⟩
      have hb : (q.d.st == .options) = false := by simp [ho]
      rw [hb] at e
      rw [show k + 2 + f = (k + f + 1) + 1 by omega]
      simp [nextLoop, e]

theorem iterLoop_ends : ∀ (n : Nat) (p : Pull), PullEnds n p → ∃ r, ∀ f, iterLoop (n + 1 + f) p = .ok r := by
  intro n
  induction n using Nat.strongRecOn with
  | ind n ih =>
    intro p h
    by_cases hs : p.d.st = .options
    · obtain ⟨q, m, hm, hq, e⟩ := next_ends hs h
      obtain ⟨k, rfl⟩ : ∃ k, n = k + 2 := ⟨n - 2, by omega⟩
      obtain ⟨q2, m2, hm2, hq2, e2⟩ : ∃ q2 m2, m2 ≤ m ∧ PullEnds m2 q2 ∧ p.iterNext = .ok q2 := by
        by_cases ho : q.d.st = .options
        · obtain ⟨m', q', rfl, e', h'⟩ := ends_succ hq (by simp [ho])
          exact ⟨q', m', by omega, h', by simp [iterNext, e, ho, e']⟩
        · have hb : (q.d.st == .options) = false := by simp [ho]
          rw [hb] at e
          exact ⟨q, m, by omega, hq, iterNext_false e⟩
      obtain ⟨⟨l, q'⟩, hr⟩ := ih m2 (by omega) q2 hq2
      refine ⟨(p.current :: l, q'), fun f => ?_⟩
      rw [show k + 2 + 1 + f = (m2 + 1 + (k + 1 + f - m2)) + 1 by omega]
      exact iterLoop_go hs e2 (hr _)
    · refine ⟨([], p), fun f => ?_⟩
      rw [show n + 1 + f = (n + f) + 1 by omega]
      exact iterLoop_stop hs _

/-- Walks over the options from their beginning come to an end. -/
theorem walks_end {n : Nat} {p : Pull} (hs : p.d.st = .optionsStart) (h : PullEnds n p) :
    ∃ r r', ∀ f, iterAll (n + 1 + f) p = .ok r ∧ nextAll (n + 1 + f) p = .ok r' := by
  obtain ⟨n1, q1, rfl, e1, h1⟩ := ends_succ h (by simp [hs])
  have s1 : q1.d.st = .options ∨ q1.d.st = .optionsDone := by
    simp only [iterate, Dec.step, hs] at e1
    split at e1
    · cases e1
    · rename_i d c hd
      cases e1
      split at hd
      · cases hd; simp
      · split at hd
        · cases hd
        · cases hd; simp only; split <;> simp
  rcases s1 with s1 | s1
  · obtain ⟨n2, q2, rfl, e2, h2⟩ := ends_succ h1 (by simp [s1])
    obtain ⟨r, hr⟩ := iterLoop_ends n2 q2 h2
    obtain ⟨r', hr'⟩ := nextLoop_ends (n2 + 1) q1 s1 h1
    refine ⟨r, r', fun f => ⟨?_, ?_⟩⟩
    · rw [iterAll, iterNew_two e1 e2, show n2 + 1 + 1 + 1 + f = n2 + 1 + (2 + f) by omega]
      exact hr _
    · simp only [nextAll, beginOption, e1, s1, reduceCtorEq, if_false]
      rw [show n2 + 1 + 1 + 1 + f = n2 + 1 + (2 + f) by omega]
      exact hr' _
  · obtain ⟨n2, q2, rfl, e2, h2⟩ := ends_succ h1 (by simp [s1])
    obtain ⟨r, hr⟩ := iterLoop_ends n2 q2 h2
    refine ⟨r, ([], q2), fun f => ⟨?_, ?_⟩⟩
    · rw [iterAll, iterNew_two e1 e2, show n2 + 1 + 1 + 1 + f = n2 + 1 + (2 + f) by omega]
      exact hr _
    · rw [show n2 + 1 + 1 + 1 + f = (n2 + 2 + f) + 1 by omega]
      simp [nextAll, beginOption, e1, s1, e2, nextLoop]

/-- The decoder waits for bytes of the header or of the token that do not come. -/
def Starved (p : Pull) : Prop := (p.d.st = .header ∨ p.d.st = .token) ∧ p.c.remainder = []

theorem Starved.iterate {p : Pull} (h : Starved p) : p.iterate = .ok p := by
  obtain ⟨⟨st, hdr, hpos, tpos, tbuf, opt, holder⟩, c⟩ := p
  obtain ⟨h1 | h1, h2⟩ := h
  all_goals
    simp only at h1 h2
    subst h1
    simp [Pull.iterate, Dec.step, h2, headerLoop, tokenLoop]

theorem Starved.walks {p : Pull} (h : Starved p) (f : Nat) :
    iterAll (f + 1) p = .ok ([], p) ∧ nextAll (f + 2) p = .ok ([p.current], p) := by
  have e := h.iterate
  have hd : p.d.st ≠ .optionsDone := by rcases h.1 with s | s <;> simp [s]
  have ho : p.d.st ≠ .options := by rcases h.1 with s | s <;> simp [s]
  refine ⟨by rw [iterAll, iterNew_two e e]; exact iterLoop_stop ho f, ?_⟩
  have hb : (p.d.st == .options) = false := by simp [ho]
  simp [nextAll, beginOption, e, hd, nextLoop, optionNext, hb]

/-- Waiting for a state that does not come. -/
theorem Starved.until {p : Pull} (h : Starved p) (s : DState) (hs : p.d.st ≠ s) : ∀ n, processUntil s n p = .ok (false, p)
  | 0 => rfl
  | n + 1 => by simp [processUntil, hs, h.iterate, h.until s hs n]

theorem Starved.token {p : Pull} (h : Starved p) : p.token = .ok ([], false, p) := by
  have h1 : p.d.st ≠ .tokenDone := by rcases h.1 with s | s <;> simp [s]
  have h2 : p.d.st ≠ .optionsStart := by rcases h.1 with s | s <;> simp [s]
  simp [Pull.token, preprocessToken, h1, h2, h.iterate, h.until .tokenDone h1]

/-- `header()` and `token()` on fewer than four bytes. -/
theorem short_starved (junk : Dec) (bytes : List UInt8) (h : bytes.length < 4) :
    ∃ hd p, (make junk bytes).header = .ok (hd, p) ∧ Starved p := by
  match bytes, h with
  | [], _ => exact ⟨_, _, rfl, Or.inl rfl, rfl⟩
  | [_], _ => exact ⟨_, _, rfl, Or.inl rfl, rfl⟩
  | [_, _], _ => exact ⟨_, _, rfl, Or.inl rfl, rfl⟩
  | [_, _, _], _ => exact ⟨_, _, rfl, Or.inl rfl, rfl⟩

/-- The token length announced by the first byte. -/
def announcedTkl (bytes : List UInt8) : Nat := (bytes.headD 0).toNat % 16

theorem announced_eq (b0 b1 b2 b3 : UInt8) (r : List UInt8) :
    (⟨b0, b1, b2, b3⟩ : Header).tokenLength.toNat = announcedTkl (b0 :: b1 :: b2 :: b3 :: r) := by
  rw [tokenLength, show (15 : UInt8) = 0x0F from rfl, tkl_toNat]; rfl

theorem four_bytes (bytes : List UInt8) (h : 4 ≤ bytes.length) :
    ∃ x0 x1 x2 x3 r, bytes = x0 :: x1 :: x2 :: x3 :: r := by
  match bytes, h with
  | x0 :: x1 :: x2 :: x3 :: r, _ => exact ⟨x0, x1, x2, x3, r, rfl⟩

theorem tokenLoop_overflow (r : List UInt8) : ∀ (d : Dec) (n : Nat), 8 < d.hdr.tokenLength.toNat → d.tbuf.length = 8 →
    d.tpos.toNat ≤ 8 → 8 < d.tpos.toNat + r.length → tokenLoop d r n = .error .tokenOverflow := by
  induction r with
  | nil => intro d n _ _ h1 h2; simp at h2; omega
  | cons b bs ih =>
    intro d n h8 hb h1 h2
    simp only [List.length_cons] at h2
    by_cases he : d.tpos.toNat = 8
    · have : writeAt d.tbuf d.tpos.toNat b = none := by rw [writeAt, if_neg (by omega)]
      simp [tokenLoop, this]
    · have hw : writeAt d.tbuf d.tpos.toNat b = some (d.tbuf.set d.tpos.toNat b) := by rw [writeAt, if_pos (by omega)]
      have hadd : (d.tpos + 1).toNat = d.tpos.toNat + 1 := by rw [UInt8.toNat_add]; simp; omega
      have hlt : ¬ (d.tpos + 1 ≥ d.hdr.tokenLength) := by rw [ge_iff_le, UInt8.le_iff_toNat_le, hadd]; omega
      simp only [tokenLoop, hw, hlt, if_false]
      exact ih _ _ h8 (by simp [hb]) (by simp only [hadd]; omega) (by simp only [hadd]; omega)

/-- C79 fails: a datagram that announces a token of more than eight bytes and carries at least nine makes `token()`
write behind the token buffer, however the options are to be read afterwards. -/
theorem pull_long_token_overflow (junk : Dec) (hj : junk.tbuf.length = 8) (bytes : List UInt8)
    (ht : 8 < announcedTkl bytes) (hl : 13 ≤ bytes.length)
    (F : Pull → Except Fault (List (UInt16 × List UInt8) × Pull)) :
    readWith F (make junk bytes) = .error .tokenOverflow := by
  obtain ⟨b0, b1, b2, b3, r, rfl⟩ := four_bytes bytes (by omega)
  obtain ⟨q, e, g1, g2, -, g4, g5⟩ := header_all junk b0 b1 b2 b3 r
  have hk := announced_eq b0 b1 b2 b3 r
  have hs : q.d.st = .tokenStart := by
    rw [g1, if_pos]; rw [gt_iff_lt, UInt8.lt_iff_toNat_lt, hk]; simp; omega
  have e1 : q.iterate = .ok ⟨{ q.d with st := .token, tpos := 0, opt := { q.d.opt with st := .garbage } }, q.c⟩ := by
    simp [iterate, Dec.step, hs]
  have e2 : tokenLoop { q.d with st := .token, tpos := 0, opt := { q.d.opt with st := .garbage } } r 0 = .error .tokenOverflow :=
    tokenLoop_overflow r _ 0 (by simp only [g2, hk]; exact ht) (by simp only [g4, hj]) (by simp)
      (by simp only [List.length_cons] at hl; simp; omega)
  have e3 : processUntil .tokenDone 10 ⟨{ q.d with st := .token, tpos := 0, opt := { q.d.opt with st := .garbage } }, q.c⟩ =
      .error .tokenOverflow := by
    rw [processUntil, if_pos (by simp)]
    simp only [iterate, Dec.step, g5.1, e2]
  simp [readWith, e, Pull.token, preprocessToken, hs, e1, e3]

/-- C79 (partial: a token of more than eight bytes is the one exception): whatever the datagram and whatever memory
held, reading header, token, all options, by the iterator or by `option_next`, and payload comes to an end after
a bounded number of rounds and touches nothing outside the memory of the decoder.  The bound holds a constant
that no datagram of that length deserves; `cut_option_made_up` shows that it is used. -/
theorem pull_any_ends_partial (junk : Dec) (hj : junk.tbuf.length = 8) (bytes : List UInt8)
    (h : announcedTkl bytes ≤ 8 ∨ bytes.length < 13) :
    ∃ r r', ∀ fuel, 11 * bytes.length + 65600 ≤ fuel →
      readWith (iterAll fuel) (make junk bytes) = .ok r ∧ readWith (nextAll fuel) (make junk bytes) = .ok r' := by
  by_cases h4 : bytes.length < 4
  · obtain ⟨hd, p, e, hp⟩ := short_starved junk bytes h4
    refine ⟨⟨hd, [], false, [], p.payload, p.d.st⟩, ⟨hd, [], false, [p.current], p.payload, p.d.st⟩, fun fuel hf => ?_⟩
    obtain ⟨f, rfl⟩ : ∃ f, fuel = f + 2 := ⟨fuel - 2, by omega⟩
    exact ⟨by simp only [readWith, e, hp.token, (hp.walks (f + 1)).1], by simp only [readWith, e, hp.token, (hp.walks f).2]⟩
  · obtain ⟨b0, b1, b2, b3, r, rfl⟩ := four_bytes bytes (by omega)
    obtain ⟨q, e, g1, g2, -, g4, g5⟩ := header_all junk b0 b1 b2 b3 r
    have hk := announced_eq b0 b1 b2 b3 r
    by_cases hcut : r.length < announcedTkl (b0 :: b1 :: b2 :: b3 :: r)
    · have h8 : r.length ≤ 8 := by
        rcases h with h | h
        · omega
        · simp only [List.length_cons] at h; omega
      obtain ⟨p, e2, hs, hr⟩ := token_cut (p := q) (r := r)
        (by rw [g1, if_pos]; rw [gt_iff_lt, UInt8.lt_iff_toNat_lt, hk]; simp; omega) (by rw [g2, hk]; exact hcut) h8 (by rw [g4, hj]) g5
      have hp : Starved p := ⟨Or.inr hs, hr.1⟩
      refine ⟨⟨⟨b0, b1, b2, b3⟩, [], false, [], p.payload, p.d.st⟩, ⟨⟨b0, b1, b2, b3⟩, [], false, [p.current], p.payload, p.d.st⟩, fun fuel hf => ?_⟩
      obtain ⟨f, rfl⟩ : ∃ f, fuel = f + 2 := ⟨fuel - 2, by omega⟩
      exact ⟨by simp only [readWith, e, e2, (hp.walks (f + 1)).1], by simp only [readWith, e, e2, (hp.walks f).2]⟩
    · have h8 : announcedTkl (b0 :: b1 :: b2 :: b3 :: r) ≤ 8 := by
        rcases h with h | h
        · exact h
        · simp only [List.length_cons] at h; omega
      generalize announcedTkl (b0 :: b1 :: b2 :: b3 :: r) = k at hk hcut h8
      have hlen : (r.take k).length = k := by rw [List.length_take]; omega
      obtain ⟨p, e2, hs, hr, -, hh, hb⟩ := token_all_frame (p := q) (t := r.take k) (r := r.drop k)
        (by rw [g1]
            by_cases hz : k = 0
            · rw [if_neg, if_pos (by simp [hz])]
              rw [gt_iff_lt, UInt8.lt_iff_toNat_lt, hk, hz]; simp
            · rw [if_pos, if_neg (by intro h0; rw [h0] at hlen; simp at hlen; omega)]
              rw [gt_iff_lt, UInt8.lt_iff_toNat_lt, hk]; simp; omega)
        (by rw [g2, hk, hlen]) (by omega) (by rw [g4, hj]) (by rw [List.take_append_drop]; exact g5)
      have hi : DInv p.d p.c := ⟨hr.2.1, hb, by simp [hs], by simp [hs], by simp [hs], by simp [hs], by simp [hs], by simp [hs]⟩
      obtain ⟨N, d', c', evs, hN, hd, hf⟩ := completes_past_token hi hr.2.2 (Or.inr (Or.inl hs)) (by simp [OptLive, hs])
        (by rw [hh, g2, hk]; exact h8)
      obtain ⟨n, hn, hE⟩ := ends_of_process (N + 0) p.d p.c d' c' evs (hf 0)
      obtain ⟨⟨l, p1⟩, ⟨l', p2⟩, hw⟩ := walks_end hs hE
      refine ⟨⟨⟨b0, b1, b2, b3⟩, r.take k, true, l, p1.payload, p1.d.st⟩, ⟨⟨b0, b1, b2, b3⟩, r.take k, true, l', p2.payload, p2.d.st⟩, fun fuel hfu => ?_⟩
      have hrl : p.c.remainder.length ≤ r.length := by rw [hr.1]; simp
      simp only [List.length_cons] at hfu
      obtain ⟨f, rfl⟩ : ∃ f, fuel = n + 1 + f := ⟨fuel - (n + 1), by omega⟩
      exact ⟨by simp only [readWith, e, e2, (hw f).1], by simp only [readWith, e, e2, (hw f).2]⟩

/-- C79, exactly: reading ends without touching memory outside just when no more than eight bytes of an announced longer token
are there. -/
theorem pull_any_safe_iff (junk : Dec) (hj : junk.tbuf.length = 8) (bytes : List UInt8) :
    (∃ N r r', ∀ fuel, N ≤ fuel →
      readWith (iterAll fuel) (make junk bytes) = .ok r ∧ readWith (nextAll fuel) (make junk bytes) = .ok r') ↔
    announcedTkl bytes ≤ 8 ∨ bytes.length < 13 := by
  constructor
  · rintro ⟨N, r, r', h⟩
    refine Classical.byContradiction fun hn => ?_
    have := (h N (Nat.le_refl _)).1
    rw [pull_long_token_overflow junk hj bytes (by omega) (by omega)] at this
    cases this
  · intro h
    obtain ⟨r, r', hr⟩ := pull_any_ends_partial junk hj bytes h
    exact ⟨_, r, r', hr⟩

end Verif.Props
