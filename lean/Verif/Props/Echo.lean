import Verif.Model.Echo
import Verif.Proofs.AnyOptions
import Verif.Proofs.CutValues
import Verif.Proofs.Pull
import Verif.Props.Responder

/-! # C68, C69: the ESP32 example servers -/
namespace Verif.Props
open Verif.Model Verif.Spec Verif.Proofs Verif.Model.Header Verif.Model.Observable Dec

/-! ## C68: the echo server -/

theorem iterate_add (k : SbKind) (a b : Nat) (d : Dec) (s : Sb) :
    SDec.iterate k (a + b) d s =
      match SDec.iterate k a d s with
      | .error e => .error e
      | .ok (d, s) => SDec.iterate k b d s := by
  induction a generalizing d s with
  | zero => simp [SDec.iterate]
  | succ a ih =>
    rw [Nat.succ_add, SDec.iterate, SDec.iterate]
    cases h : SDec.step k d s with
    | error e => rfl
    | ok x => obtain ⟨d', s', b'⟩ := x; exact ih d' s'

/-- One step on segments, given the step on one segment. -/
theorem step_on {k : SbKind} {d d' : Dec} {s s' : Sb} {b : Bool} (h1 : d.st ≠ .optionsStart) (h2 : d.st ≠ .options)
    (h3 : d.st ≠ .optionsDone) (e : SDec.step k d ⟨total s, []⟩ = .ok (d', s', b)) :
    ∃ t, total t = total s' ∧ SDec.step k d s = .ok (d', t, b) := by
  have := step_like k d s h1 h2 h3
  rw [e] at this
  rcases h : SDec.step k d s with x | ⟨d2, t, b2⟩ <;> rw [h] at this
  · exact this.elim
  · obtain ⟨rfl, rfl, ht⟩ := this
    exact ⟨t, ht, rfl⟩

/-- The first two calls read the header, wherever the segments are cut. -/
theorem echo_header (k : SbKind) (b0 b1 b2 b3 : UInt8) (hc : k.charSigned = true → ∀ b ∈ [b0, b1, b2, b3], b ≠ 0xFF)
    (rest : List UInt8) (junk : Dec) (s : Sb) (hs : total s = b0 :: b1 :: b2 :: b3 :: rest) :
    ∃ t, total t = rest ∧
      SDec.iterate k 2 (fresh junk) s = .ok ({ junk with st := .headerDone, hdr := ⟨b0, b1, b2, b3⟩, hpos := 4 }, t) := by
  have hb : ∀ b ∈ [b0, b1, b2, b3], (k.charSigned && b == 0xFF) = false := by
    intro b hb
    cases hk : k.charSigned
    · rfl
    · simpa using hc hk b hb
  obtain ⟨t1, ht1, e1⟩ := step_on (k := k) (d := fresh junk) (s := s) (by simp [fresh]) (by simp [fresh]) (by simp [fresh])
    (by simp only [SDec.step, fresh, pull_one]; rfl)
  obtain ⟨t2, ht2, e2⟩ := step_on (k := k) (d := { junk with st := .header, hpos := 0 }) (s := t1)
    (d' := { junk with st := .headerDone, hdr := ⟨b0, b1, b2, b3⟩, hpos := 4 }) (s' := ⟨rest, []⟩) (b := false)
    (by simp) (by simp) (by simp) (by
      have ht : total t1 = b0 :: b1 :: b2 :: b3 :: rest := by rw [ht1, total_one, hs]
      have g0 := hb b0 (by simp)
      have g1 := hb b1 (by simp)
      have g2 := hb b2 (by simp)
      have g3 := hb b3 (by simp)
      rw [ht]
      simp only [SDec.step, SDec.headerLoop, Sb.bumpc, pull_one, Dec.writeHeader, g0, g1, g2, g3, Bool.false_eq_true, if_false]
      rfl)
  exact ⟨t2, by rw [ht2, total_one], by simp only [SDec.iterate, e1, e2]⟩

/-- The token loop takes what is there of the token. -/
theorem stream_token_take (k : SbKind) (t rest : List UInt8) (fuel : Nat) (d : Dec) (hb : d.tbuf.length = 8)
    (hm : d.tpos.toNat + t.length = d.hdr.tokenLength.toNat) (h8 : d.hdr.tokenLength.toNat ≤ 8) (h1 : t ≠ [])
    (hc : k.charSigned = true → ∀ b ∈ t, b ≠ 0xFF) (hf : t.length < fuel) :
    ∃ d', SDec.tokenLoop k fuel d ⟨t ++ rest, []⟩ = .ok (d', ⟨rest, []⟩, true) ∧ d'.hdr = d.hdr ∧ d'.tbuf.length = 8 ∧
      d'.tbuf.take d.hdr.tokenLength.toNat = d.tbuf.take d.tpos.toNat ++ t := by
  induction t generalizing fuel d with
  | nil => exact absurd rfl h1
  | cons b t ih =>
    obtain ⟨f, rfl⟩ : ∃ f, fuel = f + 1 := ⟨fuel - 1, by omega⟩
    have hb' : (k.charSigned && b == 0xFF) = false := by
      cases hk : k.charSigned
      · rfl
      · simpa using hc hk b (by simp)
    simp only [List.length_cons] at hm hf
    have hlt : d.tpos.toNat < 8 := by omega
    have hw : writeAt d.tbuf d.tpos.toNat b = some (d.tbuf.set d.tpos.toNat b) := by simp [writeAt, hb, hlt]
    have hp : (d.tpos + 1).toNat = d.tpos.toNat + 1 := by rw [UInt8.toNat_add]; simp; omega
    have htake : (d.tbuf.set d.tpos.toNat b).take (d.tpos.toNat + 1) = d.tbuf.take d.tpos.toNat ++ [b] := by
      rw [List.take_add_one]
      simp [hb, hlt, List.take_set_of_le]
    rw [SDec.tokenLoop]
    simp only [Sb.bumpc, pull_one, List.cons_append, hb', Bool.false_eq_true, if_false, hw]
    by_cases ht : t = []
    · subst ht
      have h4 : d.tpos + 1 ≥ d.hdr.tokenLength := UInt8.le_iff_toNat_le.2 (by rw [hp]; simp at hm; omega)
      simp only [h4, if_true]
      refine ⟨_, rfl, rfl, by simp [hb], ?_⟩
      simp only
      rw [← hm]
      simpa using htake
    · have h4 : ¬ (d.tpos + 1 ≥ d.hdr.tokenLength) := by
        intro h
        have := UInt8.le_iff_toNat_le.1 h
        rw [hp] at this
        have : t.length ≠ 0 := by simpa using ht
        omega
      simp only [h4, if_false]
      obtain ⟨d', e, h1', h2, h3⟩ := ih f { d with tbuf := d.tbuf.set d.tpos.toNat b, tpos := d.tpos + 1, opt := { d.opt with st := .garbage } }
        (by simp [hb]) (by simp only [hp]; omega) h8 ht (fun hk x hx => hc hk x (by simp [hx])) (by omega)
      refine ⟨d', e, h1', h2, ?_⟩
      simp only [hp] at h3
      rw [h3, htake]
      simp

theorem optProcess_ok (k : SbKind) (o : OptDec) (h : Holder) (s : Sb) (ho : OInv o) (hk : k.endNeg = false ∨ s.cur ≠ []) :
    ∃ o' h' s', SDec.optProcess k o h s = .ok (o', h', s') ∧ OInv o' := by
  unfold SDec.optProcess
  by_cases hc : s.cur = []
  · have : k.endNeg = false := hk.resolve_right (fun h => h hc)
    obtain ⟨o', c, e, hi, -⟩ := step_ok o 0 ho
    simp only [hc, List.length_nil, beq_self_eq_true, if_true, this, Bool.false_eq_true, if_false, e]
    exact ⟨_, _, _, rfl, hi⟩
  · obtain ⟨o', h', n, e, hi, -⟩ := process_ok o h s.cur false ho
    have : (s.cur.length == 0) = false := by simpa using hc
    simp only [this, Bool.false_eq_true, if_false, e]
    exact ⟨_, _, _, rfl, hi⟩

/-- Nothing is left to read of the options once the first option header, whole or cut off, has been read. -/
def HeaderLast (rest : List UInt8) : Prop := rest ≠ [] ∧ rest.head? ≠ some 0xFF ∧ behindHead rest = []

/-- The option decoder takes the first option header and stops; bytes are left exactly if there are any behind it. -/
theorem first_header (o : OptDec) (h : Holder) (bs : List UInt8) (ho : o.st = .firstByte) (hne : bs ≠ []) (hff : bs.head? ≠ some 0xFF) :
    ∃ o' h' n, o.process h bs false = .ok (o', h', n) ∧ o'.st ≠ .payload ∧ n ≤ bs.length ∧ (n = bs.length ↔ behindHead bs = []) := by
  obtain ⟨w, bs, rfl⟩ := List.exists_cons_of_ne_nil hne
  have hw : w ≠ 0xFF := by simpa using hff
  have hi : OInv o := by simp [OInv, ho]
  obtain ⟨x1, x2, x3, hx, -⟩ := loop_ok (OptDec.fuelFor (w :: bs)) o h (w :: bs) 0 hi
    (by have := rank_le o.st; simp only [OptDec.fuelFor]; omega)
  have hp : o.process h (w :: bs) false = .ok (x1, x2, 0 + x3) := by simpa [OptDec.process] using hx
  have all : ∀ o' h', Q o h (w :: bs) o' h' [] → x1 = o' ∧ 0 + x3 = (w :: bs).length := by
    rintro o' h' ⟨-, -, k, hk⟩
    have h1 := loop_mono hx (k + 1)
    rw [show OptDec.fuelFor (w :: bs) + (k + 1) = k + (OptDec.fuelFor (w :: bs) + 1) by omega, hk] at h1
    simp only [OptDec.loop, Except.ok.injEq, Prod.mk.injEq] at h1
    refine ⟨h1.1.symm, ?_⟩
    rw [← h1.2.2]; simp
  have hq := any_header o h w bs (Or.inl ho) hw
  cases e1 : readExt (w.toNat / 16) bs with
  | none =>
    rw [e1] at hq
    obtain ⟨o', l, ha, -, -, q, -⟩ := hq
    obtain ⟨rfl, hn⟩ := all _ _ q
    refine ⟨_, _, _, hp, fun h => by simp [h, Ahead] at ha, by omega, fun _ => by simp [behindHead, e1], fun _ => hn⟩
  | some p =>
    obtain ⟨delta, bs1⟩ := p
    rw [e1] at hq
    simp only at hq
    cases e2 : readExt (w.toNat % 16) bs1 with
    | none =>
      rw [e2] at hq
      obtain ⟨o', l, ha, -, -, q, -⟩ := hq
      obtain ⟨rfl, hn⟩ := all _ _ q
      refine ⟨_, _, _, hp, fun h => by simp [h, Ahead] at ha, by omega, fun _ => by simp [behindHead, e1, e2], fun _ => hn⟩
    | some p =>
      obtain ⟨len, bs2⟩ := p
      rw [e2] at hq
      obtain ⟨o', ha, q, he⟩ := hq
      have hb : behindHead (w :: bs) = bs2 := by simp [behindHead, e1, e2]
      cases bs2 with
      | nil =>
        obtain ⟨rfl, hn⟩ := all _ _ q
        exact ⟨_, _, _, hp, he.2.2.2.1, by omega, fun _ => hb, fun _ => hn⟩
      | cons b t =>
        obtain ⟨-, hle, k, hk⟩ := q
        have h1 := loop_mono hx (k + 1)
        rw [show OptDec.fuelFor (w :: bs) + (k + 1) = k + (OptDec.fuelFor (w :: bs) + 1) by omega, hk,
          loop_cons _ _ _ _ _ _ _ _ (he.1 b)] at h1
        simp only [paused, if_true, Bool.false_eq_true, if_false, Except.ok.injEq, Prod.mk.injEq] at h1
        simp only [List.length_cons] at hle h1
        refine ⟨_, _, _, hp, by rw [← h1.1]; simp, by simp only [List.length_cons]; omega, ?_, ?_⟩
        · intro h; simp only [List.length_cons] at h; omega
        · intro h; rw [hb] at h; cases h

/-- The four calls after the header leave the token in the buffer. -/
theorem echo_token (k : SbKind) (h : Header) (t rest : List UInt8) (ht : t.length = h.tokenLength.toNat) (h8 : t.length ≤ 8)
    (hc : k.charSigned = true → ∀ b ∈ t, b ≠ 0xFF) (hk : k.endNeg = false ∨ t ≠ [] ∨ ¬ HeaderLast rest) (d : Dec) (hb : d.tbuf.length = 8)
    (hst : d.st = .headerDone) (hh : d.hdr = h) (s : Sb) (hs : total s = t ++ rest) :
    ∃ d' s', SDec.iterate k 4 d s = .ok (d', s') ∧ d'.tbuf.length = 8 ∧ d'.tbuf.take t.length = t := by
  subst hh
  by_cases hn : t = []
  · subst hn
    have hk : k.endNeg = false ∨ ¬ HeaderLast rest := by
      rcases hk with h | h | h
      · exact Or.inl h
      · exact absurd rfl h
      · exact Or.inr h
    have hz : ¬ (d.hdr.tokenLength > 0) := by
      intro h
      have := UInt8.lt_iff_toNat_lt.1 h
      simp at this ht
      omega
    have e1 : SDec.step k d s = .ok ({ d with st := .tokenDone }, s.pull, s.pull.cur.length == 0) := by
      simp only [SDec.step, hst, hz, if_false]
    have e2 : SDec.step k { d with st := .tokenDone } s.pull = .ok ({ d with st := .optionsStart }, s.pull, s.pull.cur.length == 0) := by
      simp only [SDec.step, pull_pull]
    have e3 : ∃ d3 s3 b3, SDec.step k { d with st := .optionsStart } s.pull = .ok (d3, s3, b3) ∧ d3.tbuf = d.tbuf ∧
        (d3.st = .optionsDone ∨ d3.st = .options ∧ OInv d3.opt ∧ (k.endNeg = false ∨ s3.pull.cur ≠ [])) := by
      simp only [SDec.step, pull_pull]
      by_cases he : s.pull.cur = []
      · simp only [he, List.length_nil, beq_self_eq_true, if_true]
        exact ⟨_, _, _, rfl, rfl, Or.inl rfl⟩
      · have : (s.pull.cur.length == 0) = false := by simpa using he
        obtain ⟨o, h', s', e, hi⟩ := optProcess_ok k { d.opt with st := .firstByte } { number := 0, length := 0 } s.pull
          (by simp [OInv]) (Or.inr he)
        simp only [this, Bool.false_eq_true, if_false, e]
        refine ⟨_, _, _, rfl, rfl, ?_⟩
        by_cases hp : o.st = .payload
        · left; simp [hp]
        · right
          refine ⟨by simp [hp], hi, hk.imp_right fun hr hn => ?_⟩
          -- nothing is left: all of the options was in this segment, and their first header is all of it
          have htot : s.pull.cur ++ s.pull.more.flatten = rest := by
            have := pull_total s
            rw [hs] at this
            simpa [total] using this
          have hn' := (pull_nil_iff s').1 hn
          simp only [SDec.optProcess, this, Bool.false_eq_true, if_false] at e
          cases ep : ({ d.opt with st := .firstByte } : OptDec).process { number := 0, length := 0 } s.pull.cur false with
          | error x => simp only [ep] at e; cases e
          | ok x =>
            obtain ⟨o2, h2, n⟩ := x
            simp only [ep, Except.ok.injEq, Prod.mk.injEq] at e
            obtain ⟨rfl, rfl, rfl⟩ := e
            obtain ⟨h3, h4⟩ := List.append_eq_nil_iff.1 hn'
            simp only at h3 h4
            rw [h4, List.append_nil] at htot
            have hff : s.pull.cur.head? ≠ some 0xFF := by
              intro hf
              obtain ⟨b, r, hbr⟩ := List.exists_cons_of_ne_nil he
              rw [hbr] at hf ep
              simp only [List.head?_cons, Option.some.injEq] at hf
              subst hf
              rw [show OptDec.process { d.opt with st := .firstByte } { number := 0, length := 0 } (0xFF :: r) false =
                .ok ({ d.opt with st := .payload }, { number := 0, length := 0 }, 1) by
                  simp [OptDec.process, OptDec.fuelFor, OptDec.loop, OptDec.step]] at ep
              simp only [Except.ok.injEq, Prod.mk.injEq] at ep
              exact hp (by rw [← ep.1])
            obtain ⟨o5, h5, n5, e5, -, h6, h7⟩ := first_header { d.opt with st := .firstByte } { number := 0, length := 0 } s.pull.cur rfl he hff
            rw [e5] at ep
            simp only [Except.ok.injEq, Prod.mk.injEq] at ep
            obtain ⟨rfl, rfl, rfl⟩ := ep
            have := List.drop_eq_nil_iff.1 h3
            exact hr ⟨by rw [← htot]; exact he, by rw [← htot]; exact hff, by rw [← htot]; exact h7.1 (by omega)⟩
    obtain ⟨d3, s3, b3, e3, ht3, hd3⟩ := e3
    have e4 : ∃ d4 s4 b4, SDec.step k d3 s3 = .ok (d4, s4, b4) ∧ d4.tbuf = d.tbuf := by
      rcases hd3 with h | ⟨h, hi, hne⟩
      · simp only [SDec.step, h]
        repeat' split
        all_goals exact ⟨_, _, _, rfl, ht3⟩
      · obtain ⟨o, h', s', e, -⟩ := optProcess_ok k d3.opt d3.holder s3.pull hi hne
        simp only [SDec.step, h, e]
        repeat' split
        all_goals exact ⟨_, _, _, rfl, ht3⟩
    obtain ⟨d4, s4, b4, e4, ht4⟩ := e4
    exact ⟨d4, s4, by simp only [SDec.iterate, e1, e2, e3, e4], by rw [ht4, hb], by simp⟩
  · have hz : d.hdr.tokenLength > 0 := by
      apply UInt8.lt_iff_toNat_lt.2
      have : t.length ≠ 0 := by simpa using hn
      simp
      omega
    obtain ⟨t1, ht1, e1⟩ := step_on (k := k) (d := d) (s := s) (by simp [hst]) (by simp [hst]) (by simp [hst])
      (by simp only [SDec.step, hst, pull_one, hz, if_true]; rfl)
    obtain ⟨t2, ht2, e2⟩ := step_on (k := k) (d := { d with st := .tokenStart }) (s := t1) (by simp) (by simp) (by simp)
      (by simp only [SDec.step, pull_one]; rfl)
    obtain ⟨d3, hl, hh3, hb3, htk⟩ := stream_token_take k t rest 17
      { d with st := .token, tpos := 0, opt := { d.opt with st := .garbage } } hb (by simpa using ht) (by simp only; omega) hn hc (by omega)
    have htot : total t2 = t ++ rest := by rw [ht2, total_one, ht1, total_one, hs]
    obtain ⟨t3, ht3, e3⟩ := step_on (k := k) (d := { d with st := .token, tpos := 0, opt := { d.opt with st := .garbage } }) (s := t2)
      (by simp) (by simp) (by simp) (by simp only [SDec.step, pull_one, htot, hl, if_true]; rfl)
    obtain ⟨t4, ht4, e4⟩ := step_on (k := k) (d := { d3 with st := .tokenDone }) (s := t3)
      (by simp) (by simp) (by simp) (by simp only [SDec.step, pull_one]; rfl)
    refine ⟨{ d3 with st := .optionsStart }, t4, by simp only [SDec.iterate, e1, e2, e3, e4], hb3, ?_⟩
    simp only at htk ⊢
    rw [ht, htk]
    simp

/-- C68 for arbitrary datagrams (partial: with a signed character type no byte of header and token is 0xFF; without a
token, `in_avail()` is 0 at the end or the first option header is not the last thing in the datagram): if header and token are complete and the
token has at most eight bytes, exactly they come back, as an acknowledgement with 2.03, whatever follows them and wherever the segments are cut. -/
theorem echo_bytes_partial (k : SbKind) (h : Header) (t rest : List UInt8) (ht : t.length = h.tokenLength.toNat) (h8 : t.length ≤ 8)
    (hc : k.charSigned = true → ∀ b ∈ [h.b0, h.b1, h.b2, h.b3] ++ t, b ≠ 0xFF) (hk : k.endNeg = false ∨ t ≠ [] ∨ ¬ HeaderLast rest) (cap : Nat)
    (junk : Dec) (hj : junk.tbuf.length = 8) (cur : List UInt8) (more : List (List UInt8))
    (hs : cur ++ more.flatten = [h.b0, h.b1, h.b2, h.b3] ++ t ++ rest) :
    echoReply k cap junk ⟨cur, more⟩ =
      .ok (([((h.setType acknowledgement).setCode codeValid).b0, codeValid, h.b2, h.b3] ++ t).take cap) := by
  obtain ⟨s2, hs2, e⟩ := echo_header k h.b0 h.b1 h.b2 h.b3 (fun hk b hb => hc hk b (List.mem_append_left _ hb))
    (t ++ rest) junk ⟨cur, more⟩ (by simpa [total] using hs)
  obtain ⟨d', s', e2, hb, htk⟩ := echo_token k h t rest ht h8 (fun hk b hb => hc hk b (by simp [hb])) hk
    { junk with st := .headerDone, hdr := ⟨h.b0, h.b1, h.b2, h.b3⟩, hpos := 4 } hj rfl rfl s2 hs2
  simp only [echoReply, e, e2]
  have hl : (Header.mk h.b0 h.b1 h.b2 h.b3).tokenLength = h.tokenLength := rfl
  rw [hl, ← ht, if_pos (by omega), htk, header_token_out]
  rfl

/-- C68 fails where `in_avail()` is -1 at the end: a datagram without token whose first option header, whole or cut off, is the last thing in it
is read past its end. -/
theorem echo_reads_past_end (signed : Bool) (h : Header) (hz : h.tokenLength = 0) (rest : List UInt8) (hr : HeaderLast rest)
    (hc : signed = true → ∀ b ∈ [h.b0, h.b1, h.b2, h.b3], b ≠ 0xFF) (cap : Nat) (junk : Dec) :
    echoReply ⟨signed, true⟩ cap junk ⟨[h.b0, h.b1, h.b2, h.b3] ++ rest, []⟩ = .error .chunkOverread := by
  obtain ⟨hne, hff, hb⟩ := hr
  have g : ∀ b ∈ [h.b0, h.b1, h.b2, h.b3], (signed && b == 0xFF) = false := by
    intro b hb
    cases hk : signed
    · rfl
    · simpa using hc hk b hb
  have g0 := g h.b0 (by simp)
  have g1 := g h.b1 (by simp)
  have g2 := g h.b2 (by simp)
  have g3 := g h.b3 (by simp)
  have hz' : (Header.mk h.b0 h.b1 h.b2 h.b3).tokenLength = 0 := hz
  have e : SDec.iterate ⟨signed, true⟩ 2 (fresh junk) ⟨[h.b0, h.b1, h.b2, h.b3] ++ rest, []⟩ =
      .ok ({ junk with st := .headerDone, hdr := ⟨h.b0, h.b1, h.b2, h.b3⟩, hpos := 4 }, ⟨rest, []⟩) := by
    simp only [SDec.iterate, SDec.step, fresh, SDec.headerLoop, Sb.bumpc, pull_one, List.cons_append, List.nil_append, Dec.writeHeader, g0, g1, g2, g3,
      Bool.false_eq_true, if_false]
    rfl
  obtain ⟨o', h', n, ep, hp, -, hn⟩ := first_header { junk.opt with st := .firstByte } { number := 0, length := 0 } rest rfl hne hff
  have hl : (rest.length == 0) = false := by simpa using hne
  have hp' : (o'.st == .payload) = false := by simpa using hp
  simp only [echoReply, e]
  simp only [SDec.iterate, SDec.step, pull_one, hz', show ¬ ((0 : UInt8) > 0) by decide, if_false, hl, Bool.false_eq_true, SDec.optProcess, ep, hp',
    hn.2 hb, List.drop_length, List.length_nil, beq_self_eq_true, if_true]

/-- C68, exactly, for a datagram without token in one buffer where `in_avail()` is -1 at the end. -/
theorem echo_reads_past_end_iff (signed : Bool) (h : Header) (hz : h.tokenLength = 0) (rest : List UInt8)
    (hc : signed = true → ∀ b ∈ [h.b0, h.b1, h.b2, h.b3], b ≠ 0xFF) (cap : Nat) (junk : Dec) (hj : junk.tbuf.length = 8) :
    echoReply ⟨signed, true⟩ cap junk ⟨[h.b0, h.b1, h.b2, h.b3] ++ rest, []⟩ = .error .chunkOverread ↔ HeaderLast rest := by
  refine ⟨fun e => ?_, fun hr => echo_reads_past_end signed h hz rest hr hc cap junk⟩
  by_cases hr : HeaderLast rest
  · exact hr
  · rw [echo_bytes_partial ⟨signed, true⟩ h [] rest (by simp [hz]) (by simp) (by simpa using hc) (Or.inr (Or.inr hr)) cap junk hj _ []
      (by simp)] at e
    cases e

/-- Which well-formed messages end with their first option header: those with one option, without value, and no payload. -/
theorem headerLast_iff (os : List Opt) (p : Option (List UInt8)) (prev : Nat) (ob : List UInt8) (hob : IsOpts prev os ob) :
    HeaderLast (ob ++ encPayload p) ↔ p = none ∧ ∃ o, os = [o] ∧ o.value = [] := by
  cases hob with
  | nil =>
    cases p with
    | none => simp [HeaderLast, encPayload]
    | some p => simp [HeaderLast, encPayload]
  | @cons prev o os hdr bs h1 h2 h3 hd hos =>
    have hne := hdrOf_ne hd
    have hw : hdr.head? ≠ some 0xFF ∧ hdr ≠ [] := by
      obtain ⟨w, e1, e2, rfl, hw, -⟩ := hd
      exact ⟨by simpa using hw, by simp⟩
    have hb := behindHead_hdr hd (o.value ++ bs ++ encPayload p)
    have hos' : bs = [] ↔ os = [] := by
      cases hos with
      | nil => simp
      | cons _ _ _ hd2 _ => simp [hdrOf_ne hd2]
    have hpn : encPayload p = [] ↔ p = none := by cases p <;> simp [encPayload]
    have ha : (hdr ++ o.value ++ bs ++ encPayload p) = hdr ++ (o.value ++ bs ++ encPayload p) := by simp
    rw [ha, HeaderLast, hb]
    have hd' : (hdr ++ (o.value ++ bs ++ encPayload p)).head? = hdr.head? := by
      obtain ⟨w, r, rfl⟩ := List.exists_cons_of_ne_nil hne
      simp
    rw [hd']
    simp only [List.append_eq_nil_iff, hos', hpn, ne_eq, hw.1, not_false_eq_true, true_and, hne, false_and]
    constructor
    · rintro ⟨⟨hv, rfl⟩, hp⟩; exact ⟨hp, o, rfl, hv⟩
    · rintro ⟨hp, o', ho, hv⟩
      cases ho
      exact ⟨⟨hv, rfl⟩, hp⟩

/-- C68 (partial: the exclusions of `echo_bytes_partial`): every well-formed message is answered by the acknowledgement
with 2.03, its message id and token. -/
theorem echo_message_partial (k : SbKind) (m : Msg) (hm : m.Ok) (ob : List UInt8) (hob : IsOpts 0 m.opts ob) (hc : k.charSigned = true → ∀ b ∈ encHeader m ++ m.token, b ≠ 0xFF)
    (hk : k.endNeg = false ∨ m.token ≠ [] ∨ m.payload ≠ none ∨ ∀ o, m.opts = [o] → o.value ≠ []) (cap : Nat) (hcap : 4 + m.token.length ≤ cap) (junk : Dec) (hj : junk.tbuf.length = 8)
    (cur : List UInt8) (more : List (List UInt8)) (hs : cur ++ more.flatten = wire m ob) :
    echoReply k cap junk ⟨cur, more⟩ = .ok (encMsg (replyTo m 0x43)) := by
  have hm' := hm
  obtain ⟨h1, h2, h3, h4, h5, h6, h7⟩ := hm
  have htl : (UInt8.ofNat (64 * m.version + 16 * m.type + m.token.length) &&& 0x0F).toNat = m.token.length := by
    rw [tkl_toNat]; simp; omega
  rw [echo_bytes_partial k ⟨UInt8.ofNat (64 * m.version + 16 * m.type + m.token.length), UInt8.ofNat m.code,
      UInt8.ofNat (m.mid / 256), UInt8.ofNat (m.mid % 256)⟩ m.token (ob ++ encPayload m.payload) htl.symm h5 hc
      (hk.imp_right fun h => h.imp_right fun h hl => by
        obtain ⟨a, o, b, c⟩ := (headerLast_iff m.opts m.payload 0 _ hob).1 hl
        exact h.elim (fun h => h a) (fun h => h o b c)) cap
      junk hj cur more (by rw [hs]; simp [wire, encHeader])]
  have := buildReply_msg hm' ⟨⟨UInt8.ofNat (64 * m.version + 16 * m.type + m.token.length), UInt8.ofNat m.code,
      UInt8.ofNat (m.mid / 256), UInt8.ofNat (m.mid % 256)⟩, m.token ++ List.replicate 8 0, ⟨[], -1⟩, []⟩ 0x43 cap hcap rfl _ rfl
  rw [← this, SCtx.buildReply]
  have hg : (SCtx.mk ⟨UInt8.ofNat (64 * m.version + 16 * m.type + m.token.length), UInt8.ofNat m.code,
      UInt8.ofNat (m.mid / 256), UInt8.ofNat (m.mid % 256)⟩ (m.token ++ List.replicate 8 0) ⟨[], -1⟩ []).getToken = .ok m.token := by
    have : (Header.mk (UInt8.ofNat (64 * m.version + 16 * m.type + m.token.length)) (UInt8.ofNat m.code)
      (UInt8.ofNat (m.mid / 256)) (UInt8.ofNat (m.mid % 256))).tokenLength.toNat = m.token.length := htl
    simp only [SCtx.getToken, this, List.length_append]
    rw [if_pos (by omega), List.take_append_of_le_length (by omega), List.take_of_length_le (by omega)]
  rw [hg]
  simp only [header_token_out]
  rfl

/-- C68 fails where `in_avail()` is -1 at the end, for well-formed messages: of those without token in one buffer, exactly those with a single
option, empty, and no payload are read past their end. -/
theorem echo_message_past_end (signed : Bool) (m : Msg) (hm : m.Ok) (ht : m.token = []) (ob : List UInt8) (hob : IsOpts 0 m.opts ob)
    (hc : signed = true → ∀ b ∈ encHeader m, b ≠ 0xFF) (cap : Nat) (junk : Dec) (hj : junk.tbuf.length = 8) :
    echoReply ⟨signed, true⟩ cap junk ⟨wire m ob, []⟩ = .error .chunkOverread ↔ m.payload = none ∧ ∃ o, m.opts = [o] ∧ o.value = [] := by
  have hz : (Header.mk (UInt8.ofNat (64 * m.version + 16 * m.type + m.token.length)) (UInt8.ofNat m.code)
      (UInt8.ofNat (m.mid / 256)) (UInt8.ofNat (m.mid % 256))).tokenLength = 0 := by
    apply UInt8.toNat_inj.1
    show (UInt8.ofNat (64 * m.version + 16 * m.type + m.token.length) &&& 0x0F).toNat = 0
    rw [tkl_toNat, ht]
    simp
    omega
  have hw : wire m ob = [UInt8.ofNat (64 * m.version + 16 * m.type + m.token.length), UInt8.ofNat m.code,
      UInt8.ofNat (m.mid / 256), UInt8.ofNat (m.mid % 256)] ++ (ob ++ encPayload m.payload) := by
    simp [wire, encHeader, ht]
  rw [hw, ← headerLast_iff m.opts m.payload 0 ob hob]
  exact echo_reads_past_end_iff signed _ hz _ hc cap junk hj

/-- A request with the empty option Uri-Path: the same bytes are answered if `in_avail()` is 0 at the end. -/
example : echoReply ⟨true, true⟩ 32 Dec.zero ⟨[0x40, 1, 0x12, 0x34, 0xB0], []⟩ = .error .chunkOverread ∧
    echoReply ⟨true, false⟩ 32 Dec.zero ⟨[0x40, 1, 0x12, 0x34, 0xB0], []⟩ = .ok [0x60, 0x43, 0x12, 0x34] ∧
    echoReply ⟨true, true⟩ 32 Dec.zero ⟨[0x40, 1, 0x12, 0x34, 0xB0, 0xFF, 7], []⟩ = .ok [0x60, 0x43, 0x12, 0x34] := by decide +kernel

example : HeaderLast [0xB0] ∧ HeaderLast [0xD0] ∧ HeaderLast [0xDD, 1, 2] ∧ ¬ HeaderLast [0xB1, 0x61] ∧ ¬ HeaderLast [0xFF, 1] := by
  unfold HeaderLast; decide +kernel

/-- A token that is cut off is taken as far as it goes, and the rest of the buffer stays as it was. -/
theorem stream_token_short (k : SbKind) (hk : k.charSigned = true) (t : List UInt8) (fuel : Nat) (d : Dec) (hb : d.tbuf.length = 8)
    (hm : d.tpos.toNat + t.length < d.hdr.tokenLength.toNat) (h8 : d.tpos.toNat + t.length ≤ 8)
    (hc : ∀ b ∈ t, b ≠ 0xFF) (hf : t.length < fuel) :
    ∃ d', SDec.tokenLoop k fuel d ⟨t, []⟩ = .ok (d', ⟨[], []⟩, false) ∧ d'.hdr = d.hdr ∧
      d'.tbuf = d.tbuf.take d.tpos.toNat ++ t ++ d.tbuf.drop (d.tpos.toNat + t.length) := by
  induction t generalizing fuel d with
  | nil =>
    obtain ⟨f, rfl⟩ : ∃ f, fuel = f + 1 := ⟨fuel - 1, by omega⟩
    rw [SDec.tokenLoop]
    simp only [Sb.bumpc, pull_one, hk, if_true]
    exact ⟨_, rfl, rfl, by simp⟩
  | cons b t ih =>
    obtain ⟨f, rfl⟩ : ∃ f, fuel = f + 1 := ⟨fuel - 1, by omega⟩
    have hb' : (k.charSigned && b == 0xFF) = false := by simpa [hk] using hc b (by simp)
    simp only [List.length_cons] at hm hf h8
    have hlt : d.tpos.toNat < 8 := by omega
    have hw : writeAt d.tbuf d.tpos.toNat b = some (d.tbuf.set d.tpos.toNat b) := by simp [writeAt, hb, hlt]
    have hp : (d.tpos + 1).toNat = d.tpos.toNat + 1 := by rw [UInt8.toNat_add]; simp; omega
    have htake : (d.tbuf.set d.tpos.toNat b).take (d.tpos.toNat + 1) = d.tbuf.take d.tpos.toNat ++ [b] := by
      rw [List.take_add_one]
      simp [hb, hlt, List.take_set_of_le]
    have h4 : ¬ (d.tpos + 1 ≥ d.hdr.tokenLength) := by
      intro h
      have := UInt8.le_iff_toNat_le.1 h
      rw [hp] at this
      omega
    rw [SDec.tokenLoop]
    simp only [Sb.bumpc, pull_one, hb', Bool.false_eq_true, if_false, hw, h4]
    obtain ⟨d', e, h1', h3⟩ := ih f { d with tbuf := d.tbuf.set d.tpos.toNat b, tpos := d.tpos + 1, opt := { d.opt with st := .garbage } }
      (by simp [hb]) (by simp only [hp]; omega) (by simp only [hp]; omega) (fun x hx => hc x (by simp [hx])) (by omega)
    refine ⟨d', e, h1', ?_⟩
    simp only [hp] at h3
    rw [h3, htake, List.drop_set_of_lt (by omega), List.length_cons, Nat.add_assoc, Nat.add_comm 1]
    simp

/-- C68 fails with a signed character type, and memory leaves the device: a datagram that ends within the token it
announces is answered with bytes of memory in place of the missing ones. -/
theorem echo_discloses (neg : Bool) (h : Header) (t : List UInt8) (ht : t.length < h.tokenLength.toNat) (h8 : h.tokenLength.toNat ≤ 8)
    (hc : ∀ b ∈ [h.b0, h.b1, h.b2, h.b3] ++ t, b ≠ 0xFF) (cap : Nat) (junk : Dec) (hj : junk.tbuf.length = 8)
    (cur : List UInt8) (more : List (List UInt8)) (hs : cur ++ more.flatten = [h.b0, h.b1, h.b2, h.b3] ++ t) :
    echoReply ⟨true, neg⟩ cap junk ⟨cur, more⟩ =
      .ok (([((h.setType acknowledgement).setCode codeValid).b0, codeValid, h.b2, h.b3] ++
        (t ++ (junk.tbuf.drop t.length).take (h.tokenLength.toNat - t.length))).take cap) := by
  obtain ⟨s2, hs2, e⟩ := echo_header ⟨true, neg⟩ h.b0 h.b1 h.b2 h.b3 (fun _ b hb => hc b (List.mem_append_left _ hb))
    t junk ⟨cur, more⟩ (by simpa [total] using hs)
  have hz : (Header.mk h.b0 h.b1 h.b2 h.b3).tokenLength > 0 := by
    apply UInt8.lt_iff_toNat_lt.2
    show (0 : UInt8).toNat < h.tokenLength.toNat
    simp
    omega
  obtain ⟨t1, ht1, e1⟩ := step_on (k := ⟨true, neg⟩) (d := { junk with st := .headerDone, hdr := ⟨h.b0, h.b1, h.b2, h.b3⟩, hpos := 4 }) (s := s2)
    (by simp) (by simp) (by simp) (by simp only [SDec.step, pull_one, hz, if_true]; rfl)
  obtain ⟨t2, ht2, e2⟩ := step_on (k := ⟨true, neg⟩) (d := { junk with st := .tokenStart, hdr := ⟨h.b0, h.b1, h.b2, h.b3⟩, hpos := 4 }) (s := t1)
    (by simp) (by simp) (by simp) (by simp only [SDec.step, pull_one]; rfl)
  obtain ⟨d3, hl, hh3, htk⟩ := stream_token_short ⟨true, neg⟩ rfl t 17
    { junk with st := .token, hdr := ⟨h.b0, h.b1, h.b2, h.b3⟩, hpos := 4, tpos := 0, opt := { junk.opt with st := .garbage } } hj
    (by simpa using ht) (by simp only; simp; omega) (fun b hb => hc b (by simp [hb])) (by omega)
  have htot : total t2 = t := by rw [ht2, total_one, ht1, total_one, hs2]
  obtain ⟨t3, ht3, e3⟩ := step_on (k := ⟨true, neg⟩)
    (d := { junk with st := .token, hdr := ⟨h.b0, h.b1, h.b2, h.b3⟩, hpos := 4, tpos := 0, opt := { junk.opt with st := .garbage } }) (s := t2)
    (by simp) (by simp) (by simp) (by simp only [SDec.step, pull_one, htot, hl, Bool.false_eq_true, if_false]; rfl)
  obtain ⟨t4, ht4, e4⟩ := step_on (k := ⟨true, neg⟩) (d := { d3 with st := .token }) (s := t3) (d' := { d3 with st := .token })
    (s' := ⟨[], []⟩) (b := true) (by simp) (by simp) (by simp)
    (by rw [ht3, total_one]; simp [SDec.step, pull_one, SDec.tokenLoop, Sb.bumpc])
  have hlen : d3.tbuf.length = 8 := by simp [htk, hj]; omega
  have hl' : (Header.mk h.b0 h.b1 h.b2 h.b3).tokenLength = h.tokenLength := rfl
  simp only [echoReply, e]
  simp only [SDec.iterate, e1, e2, e3, e4]
  rw [hl', if_pos (by omega), header_token_out, htk]
  simp only [UInt8.toNat_zero, List.take_zero, List.nil_append, Nat.zero_add]
  rw [List.take_append (l₁ := t)]
  rw [List.take_of_length_le (l := t) (by omega)]
  rfl

/-- A datagram with a token length of 8 and no token, on memory that holds 0x53 0x45 …: the reply carries them. -/
example : echoReply ⟨true, false⟩ 32 { Dec.zero with tbuf := [0x53, 0x45, 0x43, 0x52, 0x45, 0x54, 0x21, 0x21] } ⟨[0x48, 1, 0, 7], []⟩ =
    .ok [0x68, 0x43, 0, 7, 0x53, 0x45, 0x43, 0x52, 0x45, 0x54, 0x21, 0x21] := by decide +kernel

theorem stream_token_over (k : SbKind) (t rest : List UInt8) (fuel : Nat) (d : Dec) (hb : d.tbuf.length = 8)
    (h9 : d.tpos.toNat + t.length = 8) (hl : 8 < d.hdr.tokenLength.toNat) (b : UInt8) (hc : k.charSigned = true → ∀ x ∈ t ++ [b], x ≠ 0xFF)
    (hf : t.length < fuel) :
    SDec.tokenLoop k fuel d ⟨t ++ b :: rest, []⟩ = .error .tokenOverflow := by
  induction t generalizing fuel d with
  | nil =>
    obtain ⟨f, rfl⟩ : ∃ f, fuel = f + 1 := ⟨fuel - 1, by omega⟩
    have hb' : (k.charSigned && b == 0xFF) = false := by
      cases hk : k.charSigned
      · rfl
      · simpa using hc hk b (by simp)
    have h8 : d.tpos.toNat = 8 := by simpa using h9
    rw [SDec.tokenLoop]
    simp only [Sb.bumpc, pull_one, List.nil_append, hb', Bool.false_eq_true, if_false, writeAt, hb, h8, Nat.lt_irrefl]
  | cons a t ih =>
    obtain ⟨f, rfl⟩ : ∃ f, fuel = f + 1 := ⟨fuel - 1, by omega⟩
    have hb' : (k.charSigned && a == 0xFF) = false := by
      cases hk : k.charSigned
      · rfl
      · simpa using hc hk a (by simp)
    simp only [List.length_cons] at h9 hf
    have hw : writeAt d.tbuf d.tpos.toNat a = some (d.tbuf.set d.tpos.toNat a) := by simp [writeAt, hb]; omega
    have hp : (d.tpos + 1).toNat = d.tpos.toNat + 1 := by rw [UInt8.toNat_add]; simp; omega
    have h4 : ¬ (d.tpos + 1 ≥ d.hdr.tokenLength) := by
      intro h
      have := UInt8.le_iff_toNat_le.1 h
      rw [hp] at this
      omega
    rw [SDec.tokenLoop]
    simp only [Sb.bumpc, pull_one, List.cons_append, hb', Bool.false_eq_true, if_false, hw, h4]
    exact ih f { d with tbuf := d.tbuf.set d.tpos.toNat a, tpos := d.tpos + 1, opt := { d.opt with st := .garbage } }
      (by simp [hb]) (by simp only [hp]; omega) hl (fun hk x hx => hc hk x (by simp at hx ⊢; exact Or.inr hx)) (by omega)

/-- C68 fails for a token length above 8, which RFC 7252 section 3 has receivers reject: the ninth byte is written past
the end of the buffer. -/
theorem echo_overflows (k : SbKind) (h : Header) (t rest : List UInt8) (b : UInt8) (hl : 8 < h.tokenLength.toNat) (ht : t.length = 8)
    (hc : k.charSigned = true → ∀ x ∈ [h.b0, h.b1, h.b2, h.b3] ++ (t ++ [b]), x ≠ 0xFF) (cap : Nat) (junk : Dec) (hj : junk.tbuf.length = 8)
    (cur : List UInt8) (more : List (List UInt8)) (hs : cur ++ more.flatten = [h.b0, h.b1, h.b2, h.b3] ++ (t ++ b :: rest)) :
    echoReply k cap junk ⟨cur, more⟩ = .error .tokenOverflow := by
  obtain ⟨s2, hs2, e⟩ := echo_header k h.b0 h.b1 h.b2 h.b3 (fun hk b hb => hc hk b (List.mem_append_left _ hb))
    (t ++ b :: rest) junk ⟨cur, more⟩ (by simpa [total] using hs)
  have hz : (Header.mk h.b0 h.b1 h.b2 h.b3).tokenLength > 0 := by
    apply UInt8.lt_iff_toNat_lt.2
    show (0 : UInt8).toNat < h.tokenLength.toNat
    simp
    omega
  obtain ⟨t1, ht1, e1⟩ := step_on (k := k) (d := { junk with st := .headerDone, hdr := ⟨h.b0, h.b1, h.b2, h.b3⟩, hpos := 4 }) (s := s2)
    (by simp) (by simp) (by simp) (by simp only [SDec.step, pull_one, hz, if_true]; rfl)
  obtain ⟨t2, ht2, e2⟩ := step_on (k := k) (d := { junk with st := .tokenStart, hdr := ⟨h.b0, h.b1, h.b2, h.b3⟩, hpos := 4 }) (s := t1)
    (by simp) (by simp) (by simp) (by simp only [SDec.step, pull_one]; rfl)
  have htot : total t2 = t ++ b :: rest := by rw [ht2, total_one, ht1, total_one, hs2]
  have e3 := step_like k { junk with st := .token, hdr := ⟨h.b0, h.b1, h.b2, h.b3⟩, hpos := 4, tpos := 0, opt := { junk.opt with st := .garbage } }
    t2 (by simp) (by simp) (by simp)
  have e4 : SDec.step k { junk with st := .token, hdr := ⟨h.b0, h.b1, h.b2, h.b3⟩, hpos := 4, tpos := 0, opt := { junk.opt with st := .garbage } }
      ⟨total t2, []⟩ = .error .tokenOverflow := by
    simp only [SDec.step, pull_one, htot]
    rw [stream_token_over k t rest 17
      { junk with st := .token, hdr := ⟨h.b0, h.b1, h.b2, h.b3⟩, hpos := 4, tpos := 0, opt := { junk.opt with st := .garbage } }
      hj (by simpa using ht) hl b (fun hk x hx => hc hk x (List.mem_append_right _ hx)) (by omega)]
  rw [e4] at e3
  have e5 : SDec.step k { junk with st := .token, hdr := ⟨h.b0, h.b1, h.b2, h.b3⟩, hpos := 4, tpos := 0, opt := { junk.opt with st := .garbage } }
      t2 = .error .tokenOverflow := by
    revert e3
    rcases SDec.step k _ t2 with x | x
    · intro h; rw [show x = _ from h]
    · intro h; exact h.elim
  simp only [echoReply, e]
  simp only [SDec.iterate, e1, e2, e5]

example : echoReply ⟨false, false⟩ 32 Dec.zero ⟨[0x49, 1, 0, 7], [[1, 2, 3, 4, 5, 6, 7, 8], [9]]⟩ = .error .tokenOverflow := by decide +kernel

/-- C68 fails with a signed character type for a message id that ends in 0xFF: the reply has whatever memory held in
its place. -/
theorem echo_wrong_id (neg : Bool) (h : Header) (hz : h.tokenLength = 0) (hc : ∀ b ∈ [h.b0, h.b1, h.b2], b ≠ 0xFF) (cap : Nat) (junk : Dec)
    (hj : junk.tbuf.length = 8) :
    echoReply ⟨true, neg⟩ cap junk ⟨[h.b0, h.b1, h.b2, 0xFF], []⟩ =
      .ok ([((h.setType acknowledgement).setCode codeValid).b0, codeValid, h.b2, junk.hdr.b3].take cap) := by
  have g0 := hc h.b0 (by simp)
  have g1 := hc h.b1 (by simp)
  have g2 := hc h.b2 (by simp)
  have hz' : (Header.mk h.b0 h.b1 h.b2 junk.hdr.b3).tokenLength = 0 := hz
  simp [echoReply, SDec.iterate, SDec.step, SDec.headerLoop, Sb.bumpc, pull_one, Dec.writeHeader, fresh, g0, g1, g2]
  rw [hz']
  simp [header_token_out]
  rfl

/-- C68 fails with a signed character type for datagrams that end within the header: the reply is made of memory, token
included, or is read past the end of the buffer. -/
theorem echo_from_memory (neg : Bool) (bytes : List UInt8) (hl : bytes.length < 4) (hc : ∀ b ∈ bytes, b ≠ 0xFF) (cap : Nat) (junk : Dec)
    (hj : junk.tbuf.length = 8) (h : Header) (hh : h = ⟨bytes.getD 0 junk.hdr.b0, bytes.getD 1 junk.hdr.b1, bytes.getD 2 junk.hdr.b2,
      junk.hdr.b3⟩) :
    echoReply ⟨true, neg⟩ cap junk ⟨bytes, []⟩ =
      if h.tokenLength.toNat ≤ 8 then
        .ok (([((h.setType acknowledgement).setCode codeValid).b0, codeValid, h.b2, h.b3] ++ junk.tbuf.take h.tokenLength.toNat).take cap)
      else .error .tokenOverread := by
  subst hh
  match bytes, hl with
  | [], _ => simp [echoReply, SDec.iterate, SDec.step, SDec.headerLoop, Sb.bumpc, pull_one, fresh, hj, header_token_out]; rfl
  | [a], _ =>
    have ga := hc a (by simp)
    simp [echoReply, SDec.iterate, SDec.step, SDec.headerLoop, Sb.bumpc, pull_one, Dec.writeHeader, fresh, hj, header_token_out, ga]; rfl
  | [a, b], _ =>
    have ga := hc a (by simp)
    have gb := hc b (by simp)
    simp [echoReply, SDec.iterate, SDec.step, SDec.headerLoop, Sb.bumpc, pull_one, Dec.writeHeader, fresh, hj, header_token_out, ga, gb]; rfl
  | [a, b, c], _ =>
    have ga := hc a (by simp)
    have gb := hc b (by simp)
    have gc := hc c (by simp)
    simp [echoReply, SDec.iterate, SDec.step, SDec.headerLoop, Sb.bumpc, pull_one, Dec.writeHeader, fresh, hj, header_token_out, ga, gb, gc]; rfl

/-- C68 fails for replies: the reply is itself answered, so that two servers answer each other for any number of rounds,
whatever memory held. -/
theorem echo_never_rests {m : Msg} (hm : m.Ok) (hc : ∀ b ∈ encHeader m ++ m.token, b ≠ 0xFF) (htype : m.type = 2) (hopts : m.opts = [])
    (hpay : m.payload = none) (hcode : m.code = 0x43) (k : Nat → SbKind) (junk : Nat → Dec)
    (hj : ∀ i, (junk i).tbuf.length = 8) (n : Nat) :
    exchange (fun i b => (echoReply (k i) 32 (junk i) ⟨b, []⟩).map ([·])) n (encMsg m) = some (encMsg m) := by
  have hrep : replyTo m 0x43 = m := by
    obtain ⟨v, t, c, i, tok, o, p⟩ := m
    simp only at htype hopts hpay hcode
    subst htype hopts hpay hcode
    rfl
  induction n with
  | zero => rfl
  | succ n ih =>
    rw [exchange, echo_message_partial (k n) m hm _ (isOpts_encOpts 0 m.opts hm.2.2.2.2.2.1) (fun _ => hc)
      (Or.inr (Or.inr (Or.inr fun o h => by rw [hopts] at h; cases h))) 32 (by have := hm.2.2.2.2.1; omega) (junk n) (hj n)
      (encMsg m) [] (by simp [wire_encMsg]), hrep]
    exact ih

/-- A request with token, path and payload in three segments. -/
example : echoReply ⟨true, true⟩ 32 Dec.zero ⟨[0x42, 1], [[0x12, 0x34, 0xAA], [0xBB, 0xB1, 0x61, 0xFF, 0x21]]⟩ =
    .ok [0x62, 0x43, 0x12, 0x34, 0xAA, 0xBB] := by decide +kernel

/-! ## C69: the servers with a subject -/

/-- The events the echo server looks at. -/
def echoSees : Event → Bool
  | .header _ => true
  | .token _ => true
  | .completed => true
  | _ => false

theorem run_sees (cap : Nat) (es : List Event) (x : SCtx) :
    SCtx.runEvents (SCtx.echoEvent cap) x es = SCtx.runEvents (SCtx.echoEvent cap) x (es.filter echoSees) := by
  induction es generalizing x with
  | nil => rfl
  | cons e es ih =>
    cases e <;> simp only [List.filter_cons, echoSees, if_true, Bool.false_eq_true, if_false, SCtx.runEvents, SCtx.echoEvent, ih]

theorem sees_glue (es : List Event) : (glue es).filter echoSees = es.filter echoSees := by
  fun_induction glue es with
  | case1 a l b l' es ih => rw [ih]; simp [List.filter_cons, echoSees]
  | case2 e es h ih => simp only [List.filter_cons, ih]
  | case3 => rfl

theorem sees_parts {a b : List Event} (h : Parts a b) : a.filter echoSees = b.filter echoSees := by
  induction h with
  | nil => rfl
  | @cons e f es fs p _ ih =>
    cases e <;> simp only [Part] at p
    case option n v l => obtain ⟨v', l', rfl, -⟩ := p; simpa [List.filter_cons, echoSees] using ih
    all_goals (subst p; simp only [List.filter_cons, ih])

theorem sees_delivery (m : Msg) : (delivery m).filter echoSees =
    [.header ⟨UInt8.ofNat (64 * m.version + 16 * m.type + m.token.length), UInt8.ofNat m.code,
        UInt8.ofNat (m.mid / 256), UInt8.ofNat (m.mid % 256)⟩, .token m.token, .completed] := by
  have : (m.opts.map fun o => Event.option (UInt16.ofNat o.number) o.value true).filter echoSees = [] := by
    simp [List.filter_eq_nil_iff, echoSees]
  unfold delivery
  simp only [List.filter_append, this]
  cases m.payload <;> rfl

/-- C69 for the echo server (partial: the exclusions of `stream_segments_delivered_partial`): every well-formed message, in
however many segments, is answered by exactly one message: the acknowledgement with 2.03, its message id and token. -/
theorem echo_subject_partial (k : SbKind) (m : Msg) (hk : EndOk k m) (hm : m.Ok) (junk : Dec) (hj : junk.tbuf.length = 8)
    (hst : junk.opt.st ≠ .payload ∨ m.token ≠ [] ∨ m.opts ≠ [] ∨ m.payload ≠ none)
    (hc : k.charSigned = true → ∀ b ∈ encHeader m ++ m.token, b ≠ 0xFF) (cap : Nat) (hcap : 4 + m.token.length ≤ cap)
    (paths : List Uri.Entry) (jt : List UInt8) (hjt : jt.length = 8) (cur : List UInt8) (more : List (List UInt8))
    (hcut : cur ++ more.flatten = encMsg m) :
    ∃ N, ∀ fuel, N ≤ fuel → serveWith (SCtx.echoEvent cap) k paths junk jt fuel ⟨cur, more⟩ = .ok [encMsg (replyTo m 0x43)] := by
  obtain ⟨N, d', evs, -, hp, h⟩ := stream_segments_delivered_partial k m hk hm junk hj hst hc cur more hcut
  refine ⟨N, fun fuel hf => ?_⟩
  have h8 := hm.2.2.2.2.1
  have hr := buildReply_msg hm ⟨⟨UInt8.ofNat (64 * m.version + 16 * m.type + m.token.length), UInt8.ofNat m.code,
        UInt8.ofNat (m.mid / 256), UInt8.ofNat (m.mid % 256)⟩, m.token ++ jt.drop m.token.length, Uri.Matcher.init paths, []⟩
      0x43 cap hcap rfl _ rfl
  have h43 : UInt8.ofNat 0x43 = codeValid := rfl
  rw [h43] at hr
  simp only [serveWith, h fuel hf]
  rw [run_sees, ← sees_glue, sees_parts hp, sees_delivery]
  simp only [SCtx.runEvents, SCtx.echoEvent, SCtx.setToken, SCtx.setHeader, SCtx.init, hjt, h8, if_true, hr, SCtx.send, List.nil_append]

/-- C69 fails for replies: acknowledgements and resets are answered as well; the reply of this server answered by
another, and so on. -/
theorem echo_subject_answers_acks (k : SbKind) (m : Msg) (hm : m.Ok) (junk : Dec) (hj : junk.tbuf.length = 8)
    (hst : junk.opt.st ≠ .payload ∨ m.token ≠ []) (hc : k.charSigned = true → ∀ b ∈ encHeader m ++ m.token, b ≠ 0xFF)
    (htype : m.type = 2) (hopts : m.opts = []) (hpay : m.payload = none) (hcode : m.code = 0x43) (cap : Nat)
    (hcap : 4 + m.token.length ≤ cap) (paths : List Uri.Entry) (jt : List UInt8) (hjt : jt.length = 8) :
    ∃ N, ∀ fuel, N ≤ fuel → serveWith (SCtx.echoEvent cap) k paths junk jt fuel ⟨encMsg m, []⟩ = .ok [encMsg m] := by
  have hrep : replyTo m 0x43 = m := by
    obtain ⟨v, t, c, i, tok, o, p⟩ := m
    simp only at htype hopts hpay hcode
    subst htype hopts hpay hcode
    rfl
  have := echo_subject_partial k m (Or.inr (Or.inr (by simp [hopts]))) hm junk hj (hst.elim Or.inl (fun h => Or.inr (Or.inl h))) hc cap hcap paths jt hjt (encMsg m) [] (by simp)
  rw [hrep] at this
  exact this

theorem boiler_before (cap : Nat) (id : Int) (text jv : List UInt8) : ∀ (l : List Event) (x : SCtx),
    Event.completed ∉ l → Event.optionsCompleted ∉ l → ∀ tail, SCtx.runEvents (SCtx.boilerEvent cap id text jv) x (l ++ tail) =
      match x.onEvents cap l with
      | .error e => .error e
      | .ok x => SCtx.runEvents (SCtx.boilerEvent cap id text jv) x tail
  | [], x, _, _, tail => rfl
  | e :: l, x, h, h', tail => by
    have he : x.boilerEvent cap id text jv e = x.onEvent cap e := by
      cases e <;> first | rfl | exact absurd List.mem_cons_self h | exact absurd List.mem_cons_self h'
    rw [List.cons_append, SCtx.runEvents, he, SCtx.onEvents]
    cases x.onEvent cap e with
    | error f => rfl
    | ok y => exact boiler_before cap id text jv l y (fun g => h (List.mem_cons_of_mem _ g)) (fun g => h' (List.mem_cons_of_mem _ g)) tail

/-- C69 for the server with a path table (partial: the exclusions of `stream_message_delivered_partial`, and one
segment): every well-formed message is answered by exactly one message: the version if its path denotes that node, and
4.04 otherwise. -/
theorem boilerplate_partial (k : SbKind) (m : Msg) (hk : EndOk k m) (hm : m.Ok) (junk : Dec) (hj : junk.tbuf.length = 8)
    (hst : junk.opt.st ≠ .payload ∨ m.token ≠ [] ∨ m.opts ≠ [] ∨ m.payload ≠ none)
    (hc : k.charSigned = true → ∀ b ∈ encHeader m ++ m.token, b ≠ 0xFF) (text : List UInt8) (cap : Nat)
    (hcap : 6 + m.token.length + text.length ≤ cap) {paths : List Uri.Entry} (hpf : ParentsFirst paths) {id : Int} (hid : id ≠ -1)
    (jt : List UInt8) (hjt : jt.length = 8) (jv : List UInt8) :
    ∃ N, ∀ fuel, N ≤ fuel →
      (Denotes paths (-1) (uriPath m) id →
        serveWith (SCtx.boilerEvent cap id text jv) k paths junk jt fuel ⟨encMsg m, []⟩ = .ok [encMsg (textReply m text)]) ∧
      (¬Denotes paths (-1) (uriPath m) id →
        serveWith (SCtx.boilerEvent cap id text jv) k paths junk jt fuel ⟨encMsg m, []⟩ = .ok [encMsg (replyTo m 0x84)]) := by
  obtain ⟨N, d', -, -, h⟩ := stream_message_delivered_partial k m hk hm junk hj hst hc
  refine ⟨N, fun fuel hf => ?_⟩
  have hd : delivery m = ([.header ⟨UInt8.ofNat (64 * m.version + 16 * m.type + m.token.length), UInt8.ofNat m.code,
        UInt8.ofNat (m.mid / 256), UInt8.ofNat (m.mid % 256)⟩, .token m.token, .optionStart] ++
      m.opts.map (fun o => .option (UInt16.ofNat o.number) o.value true)) ++ (.optionsCompleted ::
        ((match m.payload with | none => [] | some p => [Event.payload p true]) ++ [.completed])) := by
    simp only [delivery, List.append_assoc, List.cons_append, List.nil_append]
    cases m.payload <;> rfl
  have hrun : SCtx.runEvents (SCtx.boilerEvent cap id text jv) (SCtx.init paths jt) (delivery m) =
      (SCtx.mk ⟨UInt8.ofNat (64 * m.version + 16 * m.type + m.token.length), UInt8.ofNat m.code,
        UInt8.ofNat (m.mid / 256), UInt8.ofNat (m.mid % 256)⟩ (m.token ++ jt.drop m.token.length)
        ((Uri.Matcher.init paths).feed (uriPath m)) []).send
        (.ok (if ((Uri.Matcher.init paths).feed (uriPath m)).lastFound = id then encMsg (textReply m text)
          else encMsg (replyTo m 0x84))) := by
    rw [hd, boiler_before _ _ _ _ _ _ (by simp) (by simp), onEvents_head hm paths jt hjt cap]
    have hv := versionReply_msg hm ⟨⟨UInt8.ofNat (64 * m.version + 16 * m.type + m.token.length), UInt8.ofNat m.code,
        UInt8.ofNat (m.mid / 256), UInt8.ofNat (m.mid % 256)⟩, m.token ++ jt.drop m.token.length,
        (Uri.Matcher.init paths).feed (uriPath m), []⟩ cap text jv rfl _ rfl
    rw [List.take_of_length_le (by
      simp [encMsg, textReply, encHeader, encOpts, encPayload, optHeader, nibble, extBytes]; omega)] at hv
    have hr := buildReply_msg hm ⟨⟨UInt8.ofNat (64 * m.version + 16 * m.type + m.token.length), UInt8.ofNat m.code,
        UInt8.ofNat (m.mid / 256), UInt8.ofNat (m.mid % 256)⟩, m.token ++ jt.drop m.token.length,
        (Uri.Matcher.init paths).feed (uriPath m), []⟩ 0x84 cap (by omega) rfl _ rfl
    have h84 : (UInt8.ofNat 0x84) = (0x84 : UInt8) := rfl
    rw [h84] at hr
    have hlast : ∀ x : SCtx, x = ⟨⟨UInt8.ofNat (64 * m.version + 16 * m.type + m.token.length), UInt8.ofNat m.code,
        UInt8.ofNat (m.mid / 256), UInt8.ofNat (m.mid % 256)⟩, m.token ++ jt.drop m.token.length,
        (Uri.Matcher.init paths).feed (uriPath m), []⟩ →
        (if x.foundNode = id then x.versionReply cap text jv else x.buildReply cap 0x84) =
        .ok (if ((Uri.Matcher.init paths).feed (uriPath m)).lastFound = id then encMsg (textReply m text)
          else encMsg (replyTo m 0x84)) := by
      rintro x rfl
      rw [hv, hr]
      show (if ((Uri.Matcher.init paths).feed (uriPath m)).lastFound = id then _ else _) = _
      split <;> rfl
    cases m.payload <;>
      simp only [List.nil_append, List.cons_append, SCtx.runEvents, SCtx.boilerEvent, hlast _ rfl, SCtx.send]
  simp only [serveWith, h fuel hf, hrun, SCtx.send, List.nil_append]
  constructor
  · intro hden
    rw [if_pos (uri_path_found hpf hden)]
  · intro hden
    rw [if_neg (fun he => hden ((uri_path_iff hpf _ (by rw [he]; exact hid)).mp rfl |> fun g => by rwa [he] at g))]

/-- C69 fails for a path that is cut between two segments: the version is asked for and 4.04 comes back. -/
theorem boilerplate_cut_path (signed : Bool) :
    serveWith (SCtx.boilerEvent 64 4 [0x31] [0, 0, 0, 0]) ⟨signed, false⟩ [⟨"version".toList, 4, -1⟩] Dec.zero (List.replicate 8 0) 60
      ⟨[0x40, 1, 0, 7, 0xB7, 0x76, 0x65, 0x72], [[0x73, 0x69, 0x6F, 0x6E]]⟩ = .ok [[0x60, 0x84, 0, 7]] ∧
    serveWith (SCtx.boilerEvent 64 4 [0x31] [0, 0, 0, 0]) ⟨signed, false⟩ [⟨"version".toList, 4, -1⟩] Dec.zero (List.replicate 8 0) 60
      ⟨[0x40, 1, 0, 7, 0xB7, 0x76, 0x65, 0x72, 0x73, 0x69, 0x6F, 0x6E], []⟩ = .ok [[0x60, 0x45, 0, 7, 0xC0, 0xFF, 0x31]] := by
  cases signed <;> decide +kernel

end Verif.Props
