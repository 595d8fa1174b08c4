import Verif.Model.StreamDecoder
import Verif.Proofs.Bytes
import Verif.Proofs.DecoderSafety
import Verif.Proofs.FeedRun

namespace Verif.Proofs
open Verif.Model Header

/-- The next `m` bytes can be read one by one: none looks like the end of the stream, or they are all there. -/
def Clean (k : SbKind) (m : Nat) (r : List UInt8) : Prop :=
  if k.charSigned then ∀ b ∈ r.take m, b ≠ 0xFF else m ≤ r.length

theorem pull_one (r : List UInt8) : (⟨r, []⟩ : Sb).pull = ⟨r, []⟩ := by
  cases r <;> rfl

theorem clean_cons {k : SbKind} {m : Nat} {b : UInt8} {r : List UInt8} (h : Clean k (m + 1) (b :: r)) :
    (k.charSigned && b == 0xFF) = false ∧ Clean k m r := by
  unfold Clean at *
  cases hk : k.charSigned
  · simp only [hk, Bool.false_eq_true, if_false, Bool.false_and, true_and] at h ⊢
    simp at h; omega
  · simp only [hk, if_true, List.take_succ_cons, List.mem_cons, forall_eq_or_imp, Bool.true_and] at h ⊢
    exact ⟨by simpa using h.1, h.2⟩

theorem clean_drop {k : SbKind} {m n : Nat} {r : List UInt8} (h : Clean k (m + n) r) : Clean k n (r.drop m) := by
  unfold Clean at *
  cases hk : k.charSigned
  · simp only [hk, Bool.false_eq_true, if_false] at h ⊢
    simp; omega
  · simp only [hk, if_true] at h ⊢
    intro b hb
    refine h b ?_
    rw [List.take_add]
    exact List.mem_append_right _ hb

theorem headerLoop_stream (k : SbKind) (r : List UInt8) (m fuel : Nat) (d : Dec) (n : Nat) (hm : d.hpos.toNat + m = 4) (h1 : 1 ≤ m)
    (hc : Clean k m r) (hf : m < fuel) :
    SDec.headerLoop k fuel d ⟨r, []⟩ =
      match Dec.headerLoop d r n with
      | .error e => .error e
      | .ok (d', n', dn) => .ok (d', ⟨r.drop (n' - n), []⟩, dn) := by
  induction r generalizing m fuel d n with
  | nil =>
    obtain ⟨f, rfl⟩ : ∃ f, fuel = f + 1 := ⟨fuel - 1, by omega⟩
    have hk : k.charSigned = true := by
      unfold Clean at hc
      cases hk : k.charSigned
      · simp [hk] at hc; omega
      · rfl
    simp [SDec.headerLoop, Dec.headerLoop, Sb.bumpc, pull_one, hk]
  | cons b r ih =>
    obtain ⟨f, rfl⟩ : ∃ f, fuel = f + 1 := ⟨fuel - 1, by omega⟩
    obtain ⟨m, rfl⟩ : ∃ m', m = m' + 1 := ⟨m - 1, by omega⟩
    obtain ⟨hb, hc⟩ := clean_cons hc
    rw [SDec.headerLoop, Dec.headerLoop]
    simp only [Sb.bumpc, pull_one, hb, Bool.false_eq_true, if_false]
    cases hw : Dec.writeHeader d.hdr d.hpos b with
    | error e => rfl
    | ok hdr =>
      simp only
      have hp : (d.hpos + 1).toNat = d.hpos.toNat + 1 := by rw [UInt8.toNat_add]; simp; omega
      by_cases h4 : d.hpos + 1 ≥ 4
      · simp [h4]
      · simp only [h4, if_false]
        have h4' : ¬ (4 ≤ (d.hpos + 1).toNat) := by
          intro h; exact h4 (UInt8.le_iff_toNat_le.2 (by simpa using h))
        rw [ih m f { d with hdr := hdr, hpos := d.hpos + 1 } (n + 1) (by simp only [hp]; omega) (by omega) hc (by omega)]
        cases hl : Dec.headerLoop { d with hdr := hdr, hpos := d.hpos + 1 } r (n + 1) with
        | error e => rfl
        | ok x =>
          obtain ⟨d', n', dn⟩ := x
          obtain ⟨d2, k2, dn2, e2, -⟩ := headerLoop_ok { d with hdr := hdr, hpos := d.hpos + 1 } r (n + 1) (by simp only [hp]; omega)
          have hn : n + 1 ≤ n' := by
            rw [e2] at hl; cases hl; omega
          simp only
          rw [show n' - n = (n' - (n + 1)) + 1 by omega, List.drop_succ_cons]

theorem tokenLoop_stream (k : SbKind) (r : List UInt8) (m fuel : Nat) (d : Dec) (n : Nat) (hb : d.tbuf.length = 8)
    (hm : d.tpos.toNat + m = d.hdr.tokenLength.toNat) (h1 : 1 ≤ m) (h8 : d.tpos.toNat ≤ 8) (hc : Clean k m r) (hf : m < fuel) :
    SDec.tokenLoop k fuel d ⟨r, []⟩ =
      match Dec.tokenLoop d r n with
      | .error e => .error e
      | .ok (d', n', dn) => .ok (d', ⟨r.drop (n' - n), []⟩, dn) := by
  induction r generalizing m fuel d n with
  | nil =>
    obtain ⟨f, rfl⟩ : ∃ f, fuel = f + 1 := ⟨fuel - 1, by omega⟩
    have hk : k.charSigned = true := by
      unfold Clean at hc
      cases hk : k.charSigned
      · simp [hk] at hc; omega
      · rfl
    simp [SDec.tokenLoop, Dec.tokenLoop, Sb.bumpc, pull_one, hk]
  | cons b r ih =>
    obtain ⟨f, rfl⟩ : ∃ f, fuel = f + 1 := ⟨fuel - 1, by omega⟩
    obtain ⟨m, rfl⟩ : ∃ m', m = m' + 1 := ⟨m - 1, by omega⟩
    obtain ⟨hb', hc⟩ := clean_cons hc
    rw [SDec.tokenLoop, Dec.tokenLoop]
    simp only [Sb.bumpc, pull_one, hb', Bool.false_eq_true, if_false]
    cases hw : writeAt d.tbuf d.tpos.toNat b with
    | none => rfl
    | some tb =>
      simp only
      have htb : tb.length = 8 ∧ d.tpos.toNat < 8 := by
        unfold writeAt at hw
        split at hw
        · cases hw; simp [hb]; omega
        · exact absurd hw (by simp)
      have hp : (d.tpos + 1).toNat = d.tpos.toNat + 1 := by rw [UInt8.toNat_add]; simp; omega
      by_cases h4 : d.tpos + 1 ≥ d.hdr.tokenLength
      · simp [h4]
      · simp only [h4, if_false]
        have h4' : ¬ (d.hdr.tokenLength.toNat ≤ (d.tpos + 1).toNat) := by
          intro h; exact h4 (UInt8.le_iff_toNat_le.2 h)
        rw [ih m f { d with tbuf := tb, tpos := d.tpos + 1, opt := { d.opt with st := .garbage } } (n + 1) htb.1
          (by simp only [hp]; omega) (by omega) (by simp only [hp]; omega) hc (by omega)]
        cases hl : Dec.tokenLoop { d with tbuf := tb, tpos := d.tpos + 1, opt := { d.opt with st := .garbage } } r (n + 1) with
        | error e => rfl
        | ok x =>
          obtain ⟨d', n', dn⟩ := x
          have hn : n + 1 ≤ n' := by
            rcases tokenLoop_ok { d with tbuf := tb, tpos := d.tpos + 1, opt := { d.opt with st := .garbage } } r (n + 1) htb.1
              (by simp only [hp]; omega) (by simp only [hp]; omega) with ⟨e, -⟩ | ⟨d2, k2, dn2, e2, -⟩
            · rw [e] at hl; cases hl
            · rw [e2] at hl; cases hl; omega
          simp only
          rw [show n' - n = (n' - (n + 1)) + 1 by omega, List.drop_succ_cons]

theorem tokenLoop_notDone (r : List UInt8) (d : Dec) (n : Nat) (hb : d.tbuf.length = 8) (ht : d.tpos.toNat < d.hdr.tokenLength.toNat)
    {d' n'} (e : Dec.tokenLoop d r n = .ok (d', n', false)) : r.length < d.hdr.tokenLength.toNat - d.tpos.toNat ∧ n' = n + r.length := by
  induction r generalizing d n with
  | nil => cases e; simp; omega
  | cons b r ih =>
    rw [Dec.tokenLoop] at e
    cases hw : writeAt d.tbuf d.tpos.toNat b with
    | none => rw [hw] at e; cases e
    | some tb =>
      rw [hw] at e
      simp only at e
      have htb : tb.length = 8 ∧ d.tpos.toNat < 8 := by
        unfold writeAt at hw
        split at hw
        · cases hw; simp [hb]; omega
        · exact absurd hw (by simp)
      have hp : (d.tpos + 1).toNat = d.tpos.toNat + 1 := by rw [UInt8.toNat_add]; simp; omega
      by_cases h4 : d.tpos + 1 ≥ d.hdr.tokenLength
      · simp [h4] at e
      · simp only [h4, if_false] at e
        have h4' : ¬ (d.hdr.tokenLength.toNat ≤ (d.tpos + 1).toNat) := by
          intro h; exact h4 (UInt8.le_iff_toNat_le.2 h)
        have := ih { d with tbuf := tb, tpos := d.tpos + 1, opt := { d.opt with st := .garbage } } (n + 1) htb.1
          (by simp only [hp]; omega) e
        simp only [hp, List.length_cons] at this ⊢
        omega

/-- How many of the bytes ahead are read one by one, by state. -/
def StreamClean (k : SbKind) (d : Dec) (r : List UInt8) : Prop :=
  match d.st with
  | .uninitialized => Clean k (4 + (r.headD 0 &&& 0x0F).toNat) r
  | .header => (d.hpos = 0 ∧ Clean k (4 + (r.headD 0 &&& 0x0F).toNat) r) ∨ (r = [] ∧ k.charSigned = true)
  | .headerDone => Clean k d.hdr.tokenLength.toNat r
  | .tokenStart => Clean k d.hdr.tokenLength.toNat r
  | .token => Clean k (d.hdr.tokenLength.toNat - d.tpos.toNat) r
  | .payloadDone => True
  | .done => False
  | _ => True

/-- Both decoders are in the same state and have the same bytes ahead. -/
structure Same (d : Dec) (c : Ctx) (s : Sb) : Prop where
  last : c.last = true
  more : s.more = []
  cur : if d.st = .payload then s.cur = [] else s.cur = c.remainder

theorem notify_same (d : Dec) (c : Ctx) (hl : c.last = true) :
    SDec.notify d ⟨c.remainder, []⟩ =
      match d.notify c with
      | .error e => .error e
      | .ok evs => .ok (⟨if d.st = .payload then [] else c.remainder, []⟩, evs) := by
  have ho : SDec.optionValue d ⟨c.remainder, []⟩ = d.optionValue c := by
    unfold SDec.optionValue Dec.optionValue
    simp only
    split
    · rename_i h; simp [h]
    · rename_i h
      rw [List.take_of_length_le (by omega)]
      simp; omega
  unfold SDec.notify Dec.notify
  rw [ho]
  cases hs : d.st <;> simp
  case tokenDone => split <;> simp
  case options =>
    by_cases h1 : d.opt.st = .valueStart
    · by_cases h2 : d.holder.length > 0 <;> simp [h1, h2]
    · simp [h1]
  case payload => exact hl

theorem remainder_nil_iff (c : Ctx) : c.remainder.length = 0 ↔ c.chunk.length ≤ c.pos := by
  simp [Ctx.remainder]; omega

theorem step_same (k : SbKind) (hk : k.endNeg = false) (d : Dec) (c : Ctx) (s : Sb) (hi : DInv d c) (hs : Same d c s)
    (hc : StreamClean k d c.remainder) :
    match d.step c with
    | .error e => SDec.step k d s = .error e
    | .ok (d', c') => ∃ eof, SDec.step k d s = .ok (d', ⟨c'.remainder, []⟩, eof) ∧ c'.last = true ∧
        (d'.st ≠ .done → StreamClean k d' c'.remainder) := by
  obtain ⟨hl, hm, hcur⟩ := hs
  obtain ⟨cur, more⟩ := s
  simp only at hm hcur; subst hm
  have hp := hi.pos
  unfold SDec.step Dec.step
  rw [pull_one]
  unfold StreamClean at hc
  cases hst : d.st <;> simp only [hst] at hc hcur ⊢ <;> simp only [reduceCtorEq, if_false, if_true] at hcur <;> subst hcur
  case uninitialized => exact ⟨_, rfl, hl, fun _ => Or.inl ⟨rfl, hc⟩⟩
  case header =>
    rcases hc with ⟨h0, hc⟩ | ⟨hr, hsg⟩
    · have h4 : Clean k 4 c.remainder := by
        unfold Clean at *
        cases hk : k.charSigned
        · simp only [hk, Bool.false_eq_true, if_false] at hc ⊢; omega
        · simp only [hk, if_true] at hc ⊢
          intro b hb; exact hc b (by rw [List.take_add]; exact List.mem_append_left _ hb)
      rw [headerLoop_stream k c.remainder 4 5 d 0 (by simp [h0]) (by omega) h4 (by omega)]
      obtain ⟨d', n, dn, e, hn, hd, -⟩ := headerLoop_ok d c.remainder 0 (by simp [h0])
      simp only [e]
      refine ⟨c.remainder.length == 0, by rw [remainder_add]; simp, hl, fun _ => ?_⟩
      cases dn with
      | false =>
        have := (hd rfl).2
        simp only [Bool.false_eq_true, if_false, StreamClean]
        right
        refine ⟨by simp [Ctx.remainder] at this ⊢; omega, ?_⟩
        unfold Clean at h4
        cases hk : k.charSigned
        · simp only [hk, Bool.false_eq_true, if_false] at h4
          exfalso
          match hrr : c.remainder, h4 with
          | b0 :: b1 :: b2 :: b3 :: r, _ =>
            rw [hrr] at e
            simp [Dec.headerLoop, h0, Dec.writeHeader] at e
        · rfl
      | true =>
        simp only [if_true, StreamClean]
        match hrr : c.remainder with
        | [] => rw [hrr] at e; simp [Dec.headerLoop] at e
        | [b0] => rw [hrr] at e; simp [Dec.headerLoop, h0, Dec.writeHeader] at e
        | [b0, b1] => rw [hrr] at e; simp [Dec.headerLoop, h0, Dec.writeHeader] at e
        | [b0, b1, b2] => rw [hrr] at e; simp [Dec.headerLoop, h0, Dec.writeHeader] at e
        | b0 :: b1 :: b2 :: b3 :: r =>
          rw [hrr] at e
          simp [Dec.headerLoop, h0, Dec.writeHeader] at e
          obtain ⟨rfl, rfl⟩ := e
          have := clean_drop hc
          rw [hrr] at this
          simpa [Ctx.remainder, ← List.drop_drop, tokenLength, show c.chunk.drop c.pos = b0 :: b1 :: b2 :: b3 :: r from hrr] using this
    · rw [hr]
      simp only [SDec.headerLoop, Dec.headerLoop, Sb.bumpc, pull_one, hsg, if_true]
      refine ⟨true, by simp [Ctx.remainder] at hr; simp [Ctx.remainder, hr], hl, fun _ => Or.inr ⟨by simpa [Ctx.remainder] using hr, hsg⟩⟩
  case headerDone =>
    by_cases h : d.hdr.tokenLength > 0
    · simp only [h, if_true]; exact ⟨_, rfl, hl, fun _ => hc⟩
    · simp only [h, if_false]; exact ⟨_, rfl, hl, fun _ => trivial⟩
  case tokenStart => exact ⟨_, rfl, hl, fun _ => by simpa [StreamClean] using hc⟩
  case token =>
    obtain ⟨ht, h8⟩ := hi.token hst
    have htl : d.hdr.tokenLength.toNat ≤ 15 := by
      have := tkl_toNat d.hdr.b0
      rw [tokenLength]; omega
    rw [tokenLoop_stream k c.remainder (d.hdr.tokenLength.toNat - d.tpos.toNat) 17 d 0 hi.tbuf (by omega) (by omega) h8 hc (by omega)]
    rcases tokenLoop_ok d c.remainder 0 hi.tbuf ht h8 with ⟨e, -⟩ | ⟨d', n, dn, e, hn, -⟩
    · simp only [e]
    · simp only [e]
      refine ⟨c.remainder.length == 0, by rw [remainder_add]; simp, hl, fun _ => ?_⟩
      cases dn with
      | true => simp [StreamClean]
      | false =>
        simp only [Bool.false_eq_true, if_false, StreamClean]
        obtain ⟨hlt, hn'⟩ := tokenLoop_notDone c.remainder d 0 hi.tbuf ht e
        have hnil : Ctx.remainder ⟨c.chunk, c.pos + (0 + n), c.last⟩ = [] := by
          rw [remainder_add]; simp; omega
        rw [hnil]
        unfold Clean at hc ⊢
        cases hk : k.charSigned
        · simp only [hk, Bool.false_eq_true, if_false] at hc; omega
        · simp
  case tokenDone => exact ⟨_, rfl, hl, fun _ => trivial⟩
  case optionsStart =>
    by_cases h0 : c.remainder.length = 0
    · rw [if_pos (by rw [h0, hl]; rfl), if_pos (by rw [h0]; rfl)]; exact ⟨_, rfl, hl, fun _ => trivial⟩
    · simp only [beq_eq_false_iff_ne.2 h0, Bool.false_and, Bool.false_eq_true, if_false, SDec.optProcess]
      have hpr : ∀ (o : OptDec) (h : Holder), o.process h c.remainder false = o.process h c.remainder c.last := by
        intro o h; simp [OptDec.process, h0]
      rw [hpr]
      cases he : OptDec.process { d.opt with st := .firstByte } { number := 0, length := 0 } c.remainder c.last with
      | error e => simp
      | ok x =>
        obtain ⟨o, h, n⟩ := x
        refine ⟨false, by rw [remainder_add], hl, fun _ => ?_⟩
        by_cases hpl : o.st = .payload <;> simp [StreamClean, hpl]
  case options =>
    have hpr : SDec.optProcess k d.opt d.holder ⟨c.remainder, []⟩ =
        match d.opt.process d.holder c.remainder c.last with
        | .error e => .error e
        | .ok (o, h, n) => .ok (o, h, ⟨c.remainder.drop n, []⟩) := by
      unfold SDec.optProcess
      by_cases h0 : c.remainder.length = 0
      · simp only [h0, beq_self_eq_true, if_true, hk, Bool.false_eq_true, if_false, OptDec.process, hl, Bool.and_self]
        cases d.opt.step 0 with
        | error e => rfl
        | ok x => simp
      · have : d.opt.process d.holder c.remainder false = d.opt.process d.holder c.remainder c.last := by
          simp [OptDec.process, h0]
        simp only [beq_eq_false_iff_ne.2 h0, Bool.false_eq_true, if_false, this]
        cases d.opt.process d.holder c.remainder c.last <;> rfl
    rw [hpr]
    cases he : d.opt.process d.holder c.remainder c.last with
    | error e => simp
    | ok x =>
      obtain ⟨o, h, n⟩ := x
      simp only [pull_one]
      have hr : Ctx.remainder ⟨c.chunk, c.pos + n, c.last⟩ = c.remainder.drop n := remainder_add c n
      by_cases hpl : o.st = .payload
      · simp only [hpl, beq_self_eq_true, if_true]
        exact ⟨_, by rw [hr], hl, fun _ => trivial⟩
      · simp only [beq_eq_false_iff_ne.2 hpl, Bool.false_eq_true, if_false]
        have hn : n ≤ c.remainder.length := by
          obtain ⟨o', h', k', e', -, hk'⟩ := process_ok d.opt d.holder c.remainder c.last (hi.options hst)
          rw [he] at e'; cases e'; exact hk'
        have hlen : (c.remainder.drop n).length = c.chunk.length - (c.pos + n) := by simp [Ctx.remainder]
        have hn' : n ≤ c.chunk.length - c.pos := by simpa [Ctx.remainder] using hn
        have hend : ((c.remainder.drop n).length == 0) = (c.pos + n == c.chunk.length) := by
          rw [hlen, Bool.eq_iff_iff]; simp; omega
        rw [hend]
        by_cases h0 : c.pos + n = c.chunk.length
        · have hb : (c.pos + n == c.chunk.length) = true := by simpa using h0
          simp only [hb, hl, Bool.and_self, if_true]
          refine ⟨true, by rw [← hl, hr], trivial, fun _ => ?_⟩
          by_cases hv : o.st = .optionValueDone <;> simp [StreamClean, hv]
        · simp only [beq_eq_false_iff_ne.2 h0, Bool.false_and, Bool.false_eq_true, if_false]
          exact ⟨_, by rw [hr], hl, fun _ => by simp [StreamClean]⟩
  case optionsDone =>
    by_cases hpl : d.opt.st = .payload
    · simp only [hpl, beq_self_eq_true, if_true]; exact ⟨_, rfl, hl, fun _ => trivial⟩
    · have he := (hi.optionsDone hst).resolve_left hpl
      have h0 : c.remainder.length = 0 := by rw [remainder_nil_iff]; omega
      rw [if_neg (by simp [hpl]), if_pos (by simp [he]), if_neg (by simp [hpl]), if_pos (by rw [h0]; rfl)]
      exact ⟨_, rfl, hl, by simp⟩
  case payload =>
    exact ⟨true, by simp [Ctx.remainder, hl], hl, fun _ => by simp [hl, StreamClean]⟩
  case payloadDone => exact ⟨_, rfl, hl, fun h => absurd rfl h⟩

theorem stepNotify_same (k : SbKind) (hk : k.endNeg = false) (d : Dec) (c : Ctx) (s : Sb) (hi : DInv d c) (hs : Same d c s)
    (hc : StreamClean k d c.remainder) :
    match d.stepNotify c with
    | .error e => SDec.stepNotify k d s = .error e
    | .ok (d', c', evs) => ∃ s' eof, SDec.stepNotify k d s = .ok (d', s', evs, eof) ∧
        (d'.st ≠ .done → Same d' c' s' ∧ StreamClean k d' c'.remainder) := by
  have h := step_same k hk d c s hi hs hc
  unfold Dec.stepNotify SDec.stepNotify
  cases hd : d.step c with
  | error e => simp only [hd] at h ⊢; rw [h]
  | ok x =>
    obtain ⟨d', c'⟩ := x
    simp only [hd] at h ⊢
    obtain ⟨eof, e, hl, hcl⟩ := h
    have hn := notify_same d' c' hl
    rw [e]
    simp only [hn]
    cases hd' : d'.notify c' with
    | error e => simp
    | ok evs =>
      refine ⟨_, _, rfl, fun hne => ⟨⟨hl, rfl, ?_⟩, hcl hne⟩⟩
      split <;> rfl

/-- A stream buffer of the same kind whose `in_avail()` is 0 at the end. -/
def zeroEnd (k : SbKind) : SbKind := ⟨k.charSigned, false⟩

theorem bumpc_zeroEnd (k : SbKind) (s : Sb) : s.bumpc (zeroEnd k) = s.bumpc k := rfl

theorem headerLoop_zeroEnd (k : SbKind) (n : Nat) (d : Dec) (s : Sb) :
    SDec.headerLoop (zeroEnd k) n d s = SDec.headerLoop k n d s := by
  induction n generalizing d s with
  | zero => rfl
  | succ n ih => simp only [SDec.headerLoop, bumpc_zeroEnd, ih]

theorem tokenLoop_zeroEnd (k : SbKind) (n : Nat) (d : Dec) (s : Sb) :
    SDec.tokenLoop (zeroEnd k) n d s = SDec.tokenLoop k n d s := by
  induction n generalizing d s with
  | zero => rfl
  | succ n ih => simp only [SDec.tokenLoop, bumpc_zeroEnd, ih]

theorem optProcess_zeroEnd (k : SbKind) (o : OptDec) (h : Holder) (s : Sb) (hs : s.cur ≠ []) :
    SDec.optProcess (zeroEnd k) o h s = SDec.optProcess k o h s := by
  have : (s.cur.length == 0) = false := by simpa using hs
  simp only [SDec.optProcess, this, Bool.false_eq_true, if_false]

/-- What `in_avail()` is at the end matters only to the option decoder when it is asked to go on with nothing left. -/
theorem step_zeroEnd (k : SbKind) (d : Dec) (s : Sb) (h : d.st ≠ .options ∨ s.pull.cur ≠ []) :
    SDec.step (zeroEnd k) d s = SDec.step k d s := by
  unfold SDec.step
  cases hst : d.st <;> simp only [headerLoop_zeroEnd, tokenLoop_zeroEnd]
  case optionsStart =>
    by_cases hc : s.pull.cur = []
    · simp [hc]
    · rw [optProcess_zeroEnd k _ _ _ hc]
  case options =>
    rw [optProcess_zeroEnd k _ _ _ (h.resolve_left (by simp [hst]))]

theorem step_starved (k : SbKind) (hk : k.endNeg = true) (d : Dec) (s : Sb) (h : d.st = .options) (hs : s.pull.cur = []) :
    SDec.step k d s = .error .chunkOverread := by
  simp [SDec.step, h, SDec.optProcess, hs, hk]

end Verif.Proofs
