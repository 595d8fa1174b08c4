import Verif.Spec.Chars
import Verif.Proofs.StreamSegments

/-! # Header and token from a stream, character by character -/
namespace Verif.Proofs
open Verif.Model Verif.Spec Header

theorem bumpc_nil (k : SbKind) {s : Sb} (h : total s = []) :
    s.bumpc k = (if k.charSigned then none else some 0xFF, ⟨[], []⟩) := by
  have := pull_nil ((pull_nil_iff s).2 h)
  simp [Sb.bumpc, this]

theorem bumpc_cons (k : SbKind) {s : Sb} {b : UInt8} {t : List UInt8} (h : total s = b :: t) :
    ∃ s1, total s1 = t ∧ s.bumpc k = (if k.charSigned && b == 0xFF then none else some b, s1) := by
  cases e : s.pull.cur with
  | nil => rw [(pull_nil_iff s).1 e] at h; cases h
  | cons c r =>
    have h2 := pull_cons e
    rw [h] at h2
    obtain ⟨rfl, rfl⟩ := List.cons.inj h2
    exact ⟨{ s.pull with cur := r }, rfl, by simp [Sb.bumpc, e]⟩

theorem bumpc_pull (k : SbKind) (s : Sb) : s.pull.bumpc k = s.bumpc k := by
  simp [Sb.bumpc, pull_pull]

/-- `n` characters `cs` are taken from the stream `s`, with waiting; `s'` is left. -/
inductive Chars (k : SbKind) : Nat → Sb → List UInt8 → Sb → Prop
  | zero (s : Sb) : Chars k 0 s [] s
  | skip {n : Nat} {s s1 s' : Sb} {cs : List UInt8} : s.bumpc k = (none, s1) → Chars k (n + 1) s1 cs s' → Chars k (n + 1) s cs s'
  | take {n : Nat} {s s1 s' : Sb} {b : UInt8} {cs : List UInt8} : s.bumpc k = (some b, s1) → Chars k n s1 cs s' →
      Chars k (n + 1) s (b :: cs) s'

theorem chars_of_take (k : SbKind) {l : List UInt8} {n : Nat} {cs rest : List UInt8} (h : takeChars k.charSigned l n = some (cs, rest))
    (s : Sb) (hs : total s = l) : ∃ s', total s' = rest ∧ Chars k n s cs s' ∧ (s.more = [] → s'.more = []) := by
  induction l generalizing n cs rest s with
  | nil =>
    rw [takeChars] at h
    by_cases hn : (k.charSigned && n != 0) = true
    · rw [if_pos hn] at h; cases h
    rw [if_neg hn] at h
    simp only [Option.some.injEq, Prod.mk.injEq] at h
    obtain ⟨rfl, rfl⟩ := h
    cases n with
    | zero => exact ⟨s, hs, Chars.zero s, id⟩
    | succ n =>
      have hsg : k.charSigned = false := by
        cases e : k.charSigned with
        | false => rfl
        | true => rw [e] at hn; simp at hn
      have h0 : ∀ n, Chars k n ⟨[], []⟩ (List.replicate n 0xFF) ⟨[], []⟩ := by
        intro n
        induction n with
        | zero => exact Chars.zero _
        | succ n ih => exact Chars.take (by rw [bumpc_nil k rfl, hsg]; rfl) ih
      exact ⟨⟨[], []⟩, rfl, Chars.take (by rw [bumpc_nil k hs, hsg]; rfl) (h0 n), fun _ => rfl⟩
  | cons b l ih =>
    cases n with
    | zero =>
      rw [takeChars_zero] at h
      simp only [Option.some.injEq, Prod.mk.injEq] at h
      obtain ⟨rfl, rfl⟩ := h
      exact ⟨s, hs, Chars.zero s, id⟩
    | succ n =>
      obtain ⟨s1, h1, hb⟩ := bumpc_cons k hs
      have hm : s.more = [] → s1.more = [] := by
        intro hmore
        obtain ⟨c, m⟩ := s
        simp only at hmore
        subst hmore
        have : (Sb.bumpc k ⟨c, []⟩).2.more = [] := by cases c <;> rfl
        rw [hb] at this; exact this
      rw [takeChars] at h
      by_cases hf : (k.charSigned && b == 0xFF) = true
      · rw [if_pos hf] at h hb
        obtain ⟨s', e1, e2, e3⟩ := ih h s1 h1
        exact ⟨s', e1, Chars.skip hb e2, fun x => e3 (hm x)⟩
      · rw [if_neg hf] at h hb
        cases e : takeChars k.charSigned l n with
        | none => rw [e] at h; cases h
        | some v =>
          obtain ⟨cs', r'⟩ := v
          rw [e] at h
          simp only [Option.map_some, Option.some.injEq, Prod.mk.injEq] at h
          obtain ⟨rfl, rfl⟩ := h
          obtain ⟨s', e1, e2, e3⟩ := ih e s1 h1
          exact ⟨s', e1, Chars.take hb e2, fun x => e3 (hm x)⟩

/-- The same characters from a stream in which they stand one behind the other. -/
theorem Chars.lined_up {k : SbKind} {n : Nat} {s s' : Sb} {cs : List UInt8} (h : Chars k n s cs s') (t : Sb) :
    Chars k n ⟨cs ++ t.cur, t.more⟩ cs t := by
  induction h with
  | zero s => exact Chars.zero _
  | skip _ _ ih => exact ih
  | @take n s s1 s' b cs hb _ ih =>
    refine Chars.take (s1 := ⟨cs ++ t.cur, t.more⟩) ?_ ih
    have : (k.charSigned && b == 0xFF) = false := by
      unfold Sb.bumpc at hb
      cases e : s.pull.cur with
      | nil =>
        rw [e] at hb
        cases hs : k.charSigned with
        | false => rfl
        | true => simp [hs] at hb
      | cons c r =>
        rw [e] at hb
        simp only [Prod.mk.injEq] at hb
        by_cases hc : (k.charSigned && c == 0xFF) = true
        · rw [if_pos hc] at hb; cases hb.1
        · rw [if_neg hc] at hb
          cases hb.1
          simpa using hc
    simp [Sb.bumpc, Sb.pull, Sb.pullFrom, this]

/-! ## The header -/

theorem headerLoop_pull (k : SbKind) (f : Nat) (d : Dec) (s : Sb) : SDec.headerLoop k f d s.pull = SDec.headerLoop k f d s := by
  cases f with
  | zero => rfl
  | succ f => rw [SDec.headerLoop, SDec.headerLoop, bumpc_pull]

theorem headerLoop_fuel (k : SbKind) (f : Nat) (d : Dec) (s : Sb) (h : 4 ≤ f + d.hpos.toNat) (h4 : d.hpos.toNat < 4) :
    SDec.headerLoop k f d s = SDec.headerLoop k (f + 1) d s := by
  induction f generalizing d s with
  | zero => omega
  | succ f ih =>
    rw [SDec.headerLoop, SDec.headerLoop]
    cases e : s.bumpc k with
    | mk o s1 =>
      cases o with
      | none => rfl
      | some b =>
        simp only
        cases Dec.writeHeader d.hdr d.hpos b with
        | error x => rfl
        | ok hdr =>
          simp only
          by_cases h4' : d.hpos + 1 ≥ 4
          · simp only [h4', if_true]
          · simp only [h4', if_false]
            have : (d.hpos + 1).toNat = d.hpos.toNat + 1 := by rw [UInt8.toNat_add]; simp; omega
            rw [ge_iff_le, UInt8.le_iff_toNat_le, this] at h4'
            have h44 : (4 : UInt8).toNat = 4 := rfl
            exact ih _ _ (by simp only [this]; omega) (by simp only [this]; omega)

theorem writeHeader_ok {h : Header} {p b : UInt8} (hp : p.toNat < 4) : ∃ h', Dec.writeHeader h p b = .ok h' := by
  have : p = 0 ∨ p = 1 ∨ p = 2 ∨ p = 3 := by
    have h1 : p.toNat = 0 ∨ p.toNat = 1 ∨ p.toNat = 2 ∨ p.toNat = 3 := by omega
    rcases h1 with h | h | h | h
    · exact Or.inl (UInt8.toNat_inj.1 h)
    · exact Or.inr (Or.inl (UInt8.toNat_inj.1 h))
    · exact Or.inr (Or.inr (Or.inl (UInt8.toNat_inj.1 h)))
    · exact Or.inr (Or.inr (Or.inr (UInt8.toNat_inj.1 h)))
  rcases this with rfl | rfl | rfl | rfl <;> exact ⟨_, rfl⟩

/-- The decoder when a byte of the header has been written. -/
def wroteHeader (d : Dec) (b : UInt8) : Dec :=
  { d with hdr := match Dec.writeHeader d.hdr d.hpos b with | .ok h => h | .error _ => d.hdr, hpos := d.hpos + 1 }

theorem header_none (k : SbKind) (d : Dec) (s s1 : Sb) (hd : d.st = .header) (hb : s.bumpc k = (none, s1)) (f : Nat) :
    SDec.processToDone k (f + 1) d s = SDec.processToDone k f d s1 := by
  have hst : SDec.stepNotify k d s = .ok (d, s1, [], s.pull.cur.length == 0) := by
    rw [SDec.stepNotify, SDec.step]
    simp only [hd]
    rw [headerLoop_pull, SDec.headerLoop, hb]
    obtain ⟨⟩ := d
    simp only at hd
    subst hd
    rfl
  rw [SDec.processToDone, hst]
  simp only [hd]
  cases SDec.processToDone k f d s1 with
  | error x => rfl
  | ok v => rfl

theorem header_some (k : SbKind) (d : Dec) (s s1 : Sb) (b : UInt8) (hd : d.st = .header) (h4 : d.hpos.toNat + 1 < 4)
    (hb : s.bumpc k = (some b, s1)) (f : Nat) :
    SDec.processToDone k f d s = SDec.processToDone k f (wroteHeader d b) s1 := by
  cases f with
  | zero => rfl
  | succ f =>
    obtain ⟨h', hh⟩ := writeHeader_ok (h := d.hdr) (p := d.hpos) (b := b) (by omega)
    have hw : wroteHeader d b = { d with hdr := h', hpos := d.hpos + 1 } := by simp [wroteHeader, hh]
    have hp : (d.hpos + 1).toNat = d.hpos.toNat + 1 := by rw [UInt8.toNat_add]; simp; omega
    have h4' : ¬ (d.hpos + 1 ≥ 4) := by
      rw [ge_iff_le, UInt8.le_iff_toNat_le, hp]
      have : (4 : UInt8).toNat = 4 := rfl
      omega
    have hl : SDec.headerLoop k 5 d s = SDec.headerLoop k 5 (wroteHeader d b) s1 := by
      rw [SDec.headerLoop, hb]
      simp only [hh, h4', if_false]
      rw [← hw]
      exact headerLoop_fuel k 4 _ _ (by omega) (by rw [hw]; simp only [hp]; omega)
    have hst : (wroteHeader d b).st = .header := hd
    rw [SDec.processToDone, SDec.processToDone, SDec.stepNotify, SDec.stepNotify, SDec.step, SDec.step]
    simp only [hd, hst]
    rw [headerLoop_pull, headerLoop_pull, ← hl]
    cases SDec.headerLoop k 5 d s with
    | error x => rfl
    | ok v =>
      obtain ⟨d2, s2, pd⟩ := v
      simp only
      cases SDec.notify { d2 with st := if pd = true then .headerDone else .header } s2 with
      | error x => rfl
      | ok w => rfl

theorem header_last (k : SbKind) (d : Dec) (s s1 : Sb) (b : UInt8) (hd : d.st = .header) (h4 : d.hpos.toNat = 3)
    (hb : s.bumpc k = (some b, s1)) (f : Nat) :
    SDec.processToDone k (f + 1) d s =
      preS [.header (wroteHeader d b).hdr] (SDec.processToDone k f { wroteHeader d b with st := .headerDone } s1) := by
  have h3 : d.hpos = 3 := UInt8.toNat_inj.1 h4
  have hst : SDec.stepNotify k d s = .ok ({ wroteHeader d b with st := .headerDone }, s1, [.header (wroteHeader d b).hdr],
      s.pull.cur.length == 0) := by
    rw [SDec.stepNotify, SDec.step]
    simp only [hd]
    rw [headerLoop_pull, SDec.headerLoop, hb]
    simp [wroteHeader, h3, Dec.writeHeader, SDec.notify]
  exact toDone_succ hst (by simp) f

theorem header_chars {k : SbKind} {n : Nat} {s s' : Sb} {cs : List UInt8} (h : Chars k n s cs s') (d : Dec) (hd : d.st = .header)
    (hn : 0 < n) (hp : d.hpos.toNat + n = 4) :
    ∃ m, ∀ f, SDec.processToDone k (m + f) d s =
      preS [.header (cs.foldl wroteHeader d).hdr] (SDec.processToDone k f { cs.foldl wroteHeader d with st := .headerDone } s') := by
  induction h generalizing d with
  | zero s => omega
  | @skip n s s1 s' cs hb _ ih =>
    obtain ⟨m, hm⟩ := ih d hd hn hp
    refine ⟨m + 1, fun f => ?_⟩
    rw [show m + 1 + f = m + f + 1 by omega, header_none k d s s1 hd hb, hm]
  | @take n s s1 s' b cs hb hc ih =>
    rw [List.foldl_cons]
    by_cases h0 : n = 0
    · subst h0
      cases hc
      refine ⟨1, fun f => ?_⟩
      rw [Nat.add_comm, header_last k d s s1 b hd (by omega) hb]
      rfl
    · have hpos : (wroteHeader d b).hpos.toNat = d.hpos.toNat + 1 := by
        show (d.hpos + 1).toNat = _
        rw [UInt8.toNat_add]; simp; omega
      obtain ⟨m, hm⟩ := ih (wroteHeader d b) hd (by omega) (by omega)
      refine ⟨m, fun f => ?_⟩
      rw [header_some k d s s1 b hd (by omega) hb, hm]

/-- Where the four characters do not come, the decoder waits for ever. -/
theorem header_stuck {k : SbKind} {l : List UInt8} {n : Nat} (h : takeChars k.charSigned l n = none) (s : Sb) (hs : total s = l)
    (d : Dec) (hd : d.st = .header) (hp : d.hpos.toNat + n = 4) (f : Nat) : SDec.processToDone k f d s = .error .outOfFuel := by
  induction l generalizing n s d f with
  | nil =>
    have hsg : k.charSigned = true := by
      cases e : k.charSigned with
      | true => rfl
      | false => rw [e] at h; simp [takeChars] at h
    have main : ∀ (f : Nat) (s : Sb), total s = [] → SDec.processToDone k f d s = .error .outOfFuel := by
      intro f
      induction f with
      | zero => intro s _; rfl
      | succ f ih =>
        intro s hs
        rw [header_none k d s ⟨[], []⟩ hd (by rw [bumpc_nil k hs, hsg]; rfl)]
        exact ih _ rfl
    exact main f s hs
  | cons b l ih =>
    cases n with
    | zero => rw [takeChars_zero] at h; cases h
    | succ n =>
      obtain ⟨s1, h1, hb⟩ := bumpc_cons k hs
      rw [takeChars] at h
      by_cases hf : (k.charSigned && b == 0xFF) = true
      · rw [if_pos hf] at h hb
        cases f with
        | zero => rfl
        | succ f =>
          rw [header_none k d s s1 hd hb]
          exact ih h s1 h1 d hd hp f
      · rw [if_neg hf] at h hb
        have h' : takeChars k.charSigned l n = none := by
          cases e : takeChars k.charSigned l n with
          | none => rfl
          | some v => rw [e] at h; cases h
        by_cases h0 : n = 0
        · subst h0; rw [takeChars_zero] at h'; cases h'
        · rw [header_some k d s s1 b hd (by omega) hb]
          refine ih h' s1 h1 (wroteHeader d b) hd ?_ f
          show (d.hpos + 1).toNat + n = 4
          rw [UInt8.toNat_add]; simp; omega

/-! ## The token -/

theorem tokenLoop_pull (k : SbKind) (f : Nat) (d : Dec) (s : Sb) : SDec.tokenLoop k f d s.pull = SDec.tokenLoop k f d s := by
  cases f with
  | zero => rfl
  | succ f => rw [SDec.tokenLoop, SDec.tokenLoop, bumpc_pull]

theorem tokenLoop_fuel (k : SbKind) (f : Nat) (d : Dec) (s : Sb) (hl : d.tbuf.length = 8) (h : 9 ≤ f + d.tpos.toNat) (h8 : d.tpos.toNat ≤ 8) :
    SDec.tokenLoop k f d s = SDec.tokenLoop k (f + 1) d s := by
  induction f generalizing d s with
  | zero => omega
  | succ f ih =>
    rw [SDec.tokenLoop, SDec.tokenLoop]
    cases e : s.bumpc k with
    | mk o s1 =>
      cases o with
      | none => rfl
      | some b =>
        simp only
        by_cases hw : d.tpos.toNat < d.tbuf.length
        · simp only [writeAt, hw, if_true]
          by_cases h4' : d.tpos + 1 ≥ d.hdr.tokenLength
          · simp only [h4', if_true]
          · simp only [h4', if_false]
            have : (d.tpos + 1).toNat = d.tpos.toNat + 1 := by rw [UInt8.toNat_add]; simp; omega
            exact ih _ _ (by simp [hl]) (by simp only [this]; omega) (by simp only [this]; omega)
        · simp only [writeAt, hw, if_false]

/-- The decoder when a byte of the token has been written. -/
def wroteToken (d : Dec) (b : UInt8) : Dec :=
  { d with tbuf := d.tbuf.set d.tpos.toNat b, tpos := d.tpos + 1, opt := { d.opt with st := .garbage } }

theorem token_none (k : SbKind) (d : Dec) (s s1 : Sb) (hd : d.st = .token) (hb : s.bumpc k = (none, s1)) (f : Nat) :
    SDec.processToDone k (f + 1) d s = SDec.processToDone k f d s1 := by
  have hst : SDec.stepNotify k d s = .ok (d, s1, [], s.pull.cur.length == 0) := by
    rw [SDec.stepNotify, SDec.step]
    simp only [hd]
    rw [tokenLoop_pull, SDec.tokenLoop, hb]
    obtain ⟨⟩ := d
    simp only at hd
    subst hd
    rfl
  rw [SDec.processToDone, hst]
  simp only [hd]
  cases SDec.processToDone k f d s1 with
  | error x => rfl
  | ok v => rfl

theorem token_some (k : SbKind) (d : Dec) (s s1 : Sb) (b : UInt8) (hd : d.st = .token) (hl : d.tbuf.length = 8) (h8 : d.tpos.toNat < 8)
    (ht : d.tpos.toNat + 1 < d.hdr.tokenLength.toNat) (hb : s.bumpc k = (some b, s1)) (f : Nat) :
    SDec.processToDone k f d s = SDec.processToDone k f (wroteToken d b) s1 := by
  cases f with
  | zero => rfl
  | succ f =>
    have hp : (d.tpos + 1).toNat = d.tpos.toNat + 1 := by rw [UInt8.toNat_add]; simp; omega
    have h4' : ¬ (d.tpos + 1 ≥ d.hdr.tokenLength) := by
      rw [ge_iff_le, UInt8.le_iff_toNat_le, hp]; omega
    have hw : d.tpos.toNat < d.tbuf.length := by omega
    have hl' : SDec.tokenLoop k 17 d s = SDec.tokenLoop k 17 (wroteToken d b) s1 := by
      rw [SDec.tokenLoop, hb]
      simp only [writeAt, hw, if_true, h4', if_false]
      exact tokenLoop_fuel k 16 _ _ (by simp [hl]) (by omega) (by simp only [hp]; omega)
    have hst : (wroteToken d b).st = .token := hd
    rw [SDec.processToDone, SDec.processToDone, SDec.stepNotify, SDec.stepNotify, SDec.step, SDec.step]
    simp only [hd, hst]
    rw [tokenLoop_pull, tokenLoop_pull, ← hl']
    cases SDec.tokenLoop k 17 d s with
    | error x => rfl
    | ok v =>
      obtain ⟨d2, s2, pd⟩ := v
      simp only
      cases SDec.notify { d2 with st := if pd = true then .tokenDone else .token } s2 with
      | error x => rfl
      | ok w => rfl

theorem token_last (k : SbKind) (d : Dec) (s s1 : Sb) (b : UInt8) (hd : d.st = .token) (hl : d.tbuf.length = 8) (h8 : d.tpos.toNat < 8)
    (ht : d.tpos.toNat + 1 = d.hdr.tokenLength.toNat) (hb : s.bumpc k = (some b, s1)) (f : Nat) :
    SDec.processToDone k (f + 1) d s = preS [.token ((wroteToken d b).tbuf.take d.hdr.tokenLength.toNat)]
      (SDec.processToDone k f { wroteToken d b with st := .tokenDone } s1) := by
  have hp : (d.tpos + 1).toNat = d.tpos.toNat + 1 := by rw [UInt8.toNat_add]; simp; omega
  have h4' : d.tpos + 1 ≥ d.hdr.tokenLength := by
    rw [ge_iff_le, UInt8.le_iff_toNat_le, hp]; omega
  have hw : d.tpos.toNat < d.tbuf.length := by omega
  have hle : d.hdr.tokenLength.toNat ≤ d.tbuf.length := by omega
  have hst : SDec.stepNotify k d s = .ok ({ wroteToken d b with st := .tokenDone }, s1,
      [.token ((wroteToken d b).tbuf.take d.hdr.tokenLength.toNat)], s.pull.cur.length == 0) := by
    rw [SDec.stepNotify, SDec.step]
    simp only [hd]
    rw [tokenLoop_pull, SDec.tokenLoop, hb]
    simp [writeAt, hw, h4', wroteToken, SDec.notify, hle]
  exact toDone_succ hst (by simp) f

theorem token_over (k : SbKind) (d : Dec) (s s1 : Sb) (b : UInt8) (hd : d.st = .token) (hl : d.tbuf.length = 8) (h8 : d.tpos.toNat = 8)
    (hb : s.bumpc k = (some b, s1)) (f : Nat) : SDec.processToDone k (f + 1) d s = .error .tokenOverflow := by
  rw [SDec.processToDone, SDec.stepNotify, SDec.step]
  simp only [hd]
  rw [tokenLoop_pull, SDec.tokenLoop, hb]
  simp [writeAt, hl, h8]

theorem wroteToken_tpos {d : Dec} {b : UInt8} (h : d.tpos.toNat ≤ 8) : (wroteToken d b).tpos.toNat = d.tpos.toNat + 1 := by
  show (d.tpos + 1).toNat = _
  rw [UInt8.toNat_add]; simp; omega

theorem token_phase {k : SbKind} {n : Nat} {s s' : Sb} {cs : List UInt8} (h : Chars k n s cs s') (d : Dec) (hd : d.st = .token)
    (hl : d.tbuf.length = 8) (hn : 0 < n) (hp : d.tpos.toNat + n = d.hdr.tokenLength.toNat) (h8 : d.hdr.tokenLength.toNat ≤ 8) :
    ∃ m, ∀ f, SDec.processToDone k (m + f) d s =
      preS [.token ((cs.foldl wroteToken d).tbuf.take d.hdr.tokenLength.toNat)]
        (SDec.processToDone k f { cs.foldl wroteToken d with st := .tokenDone } s') := by
  induction h generalizing d with
  | zero s => omega
  | @skip n s s1 s' cs hb _ ih =>
    obtain ⟨m, hm⟩ := ih d hd hl hn hp h8
    refine ⟨m + 1, fun f => ?_⟩
    rw [show m + 1 + f = m + f + 1 by omega, token_none k d s s1 hd hb, hm]
  | @take n s s1 s' b cs hb hc ih =>
    rw [List.foldl_cons]
    by_cases h0 : n = 0
    · subst h0
      cases hc
      refine ⟨1, fun f => ?_⟩
      rw [Nat.add_comm, token_last k d s s1 b hd hl (by omega) (by omega) hb]
      rfl
    · obtain ⟨m, hm⟩ := ih (wroteToken d b) hd (by simp [wroteToken, hl]) (by omega)
        (by rw [wroteToken_tpos (by omega)]; show _ = d.hdr.tokenLength.toNat; omega) h8
      refine ⟨m, fun f => ?_⟩
      rw [token_some k d s s1 b hd hl (by omega) (by omega) hb, hm]
      rfl

/-- A ninth byte of token is written behind the buffer. -/
theorem token_overflow {k : SbKind} {n : Nat} {s s' : Sb} {cs : List UInt8} (h : Chars k n s cs s') (d : Dec) (hd : d.st = .token)
    (hl : d.tbuf.length = 8) (hn : 0 < n) (hp : d.tpos.toNat + n = 9) (h8 : 8 < d.hdr.tokenLength.toNat) :
    ∃ m, ∀ f, SDec.processToDone k (m + f) d s = .error .tokenOverflow := by
  induction h generalizing d with
  | zero s => omega
  | @skip n s s1 s' cs hb _ ih =>
    obtain ⟨m, hm⟩ := ih d hd hl hn hp h8
    refine ⟨m + 1, fun f => ?_⟩
    rw [show m + 1 + f = m + f + 1 by omega, token_none k d s s1 hd hb, hm]
  | @take n s s1 s' b cs hb hc ih =>
    by_cases h0 : n = 0
    · subst h0
      refine ⟨1, fun f => ?_⟩
      rw [Nat.add_comm, token_over k d s s1 b hd hl (by omega) hb]
    · obtain ⟨m, hm⟩ := ih (wroteToken d b) hd (by simp [wroteToken, hl]) (by omega) (by rw [wroteToken_tpos (by omega)]; omega) h8
      refine ⟨m, fun f => ?_⟩
      rw [token_some k d s s1 b hd hl (by omega) (by omega) hb, hm]

/-- Where the characters of the token do not come, the decoder waits for ever. -/
theorem token_stuck {k : SbKind} {l : List UInt8} {n : Nat} (h : takeChars k.charSigned l n = none) (s : Sb) (hs : total s = l)
    (d : Dec) (hd : d.st = .token) (hl : d.tbuf.length = 8) (hp : d.tpos.toNat + n = min 9 d.hdr.tokenLength.toNat) (f : Nat) :
    SDec.processToDone k f d s = .error .outOfFuel := by
  induction l generalizing n s d f with
  | nil =>
    have hsg : k.charSigned = true := by
      cases e : k.charSigned with
      | true => rfl
      | false => rw [e] at h; simp [takeChars] at h
    have main : ∀ (f : Nat) (s : Sb), total s = [] → SDec.processToDone k f d s = .error .outOfFuel := by
      intro f
      induction f with
      | zero => intro s _; rfl
      | succ f ih =>
        intro s hs
        rw [token_none k d s ⟨[], []⟩ hd (by rw [bumpc_nil k hs, hsg]; rfl)]
        exact ih _ rfl
    exact main f s hs
  | cons b l ih =>
    cases n with
    | zero => rw [takeChars_zero] at h; cases h
    | succ n =>
      obtain ⟨s1, h1, hb⟩ := bumpc_cons k hs
      rw [takeChars] at h
      by_cases hf : (k.charSigned && b == 0xFF) = true
      · rw [if_pos hf] at h hb
        cases f with
        | zero => rfl
        | succ f =>
          rw [token_none k d s s1 hd hb]
          exact ih h s1 h1 d hd hl hp f
      · rw [if_neg hf] at h hb
        have h' : takeChars k.charSigned l n = none := by
          cases e : takeChars k.charSigned l n with
          | none => rfl
          | some v => rw [e] at h; cases h
        by_cases h0 : n = 0
        · subst h0; rw [takeChars_zero] at h'; cases h'
        · rw [token_some k d s s1 b hd hl (by omega) (by omega) hb]
          refine ih h' s1 h1 (wroteToken d b) hd (by simp [wroteToken, hl]) ?_ f
          rw [wroteToken_tpos (by omega)]
          show _ = min 9 d.hdr.tokenLength.toNat
          omega

end Verif.Proofs
