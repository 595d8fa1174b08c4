import Verif.Proofs.Memory
import Verif.Proofs.PullRun

/-!
# Two pull-style decoders with different leftovers in memory show the same options
-/
namespace Verif.Proofs
open Verif.Model Verif.Model.Header Verif.Spec Pull

theorem length_zero (o : OptDec) (h : (o.valueLength == 0) = true) : o.length = 0 := by
  have h : o.valueLength = 0 := by simpa using h
  obtain ⟨st, b0, b1, b2, b3, pos⟩ := o
  simp only [OptDec.valueLength, ntoh] at h
  have hb : b0 = 0 := by
    have := (UInt16.or_eq_zero_iff.mp h).2
    apply UInt8.toNat_inj.mp
    have := congrArg UInt16.toNat this
    simpa using this
  subst hb
  simp [OptDec.length, OptDec.rawLength, OptDec.getValue]

theorem owrite_st (o o' : OptDec) (v : UInt8) (e : o.write v = .ok o') : o'.st = o.st := by
  unfold OptDec.write at e
  repeat' split at e
  all_goals first | (cases e; rfl) | cases e

theorem ostep_done (o o' : OptDec) (b : UInt8) (k : Bool) (e : o.step b = .ok (o', k)) (h : o'.st = .optionValueDone) : o'.length = 0 := by
  unfold OptDec.step at e
  cases hs : o.st <;> rw [hs] at e <;> simp only at e
  case optionDelta =>
    split at e
    · cases e
    · rename_i w
      have := owrite_st _ _ _ w
      split at e
      · cases e; simp at h
      · cases e; simp [this, hs] at h
  case optionLength =>
    split at e
    · cases e
    · rename_i w
      have := owrite_st _ _ _ w
      split at e
      · cases e; simp at h
      · cases e; simp [this, hs] at h
  case valueStart =>
    cases e
    simp only at h
    split at h
    · rename_i hz
      exact length_zero _ hz
    · cases h
  case optionValue =>
    split at e
    · rename_i hz
      cases e
      exact length_zero _ hz
    · cases e
      simp [OptDec.setValueLength, hs] at h
  case optionValueDone => cases e; simp at h
  case firstByteDone =>
    cases e
    simp only at h
    repeat' split at h
    all_goals cases h
  all_goals
    repeat' split at e
    all_goals (cases e; simp [hs] at h)

theorem oloop_settled (fuel : Nat) : ∀ (o : OptDec) (h : Holder) (data : List UInt8) (n : Nat) (o' : OptDec) (h' : Holder) (n' : Nat),
    OptDec.loop fuel o h data n = .ok (o', h', n') →
    n' = n + data.length ∨ o'.st = .valueStart ∨ o'.st = .payload ∨ o'.length = 0 := by
  induction fuel with
  | zero => intro o h data n o' h' n' e; simp [OptDec.loop] at e
  | succ f ih =>
    intro o h data n o' h' n' e
    cases data with
    | nil => simp only [OptDec.loop] at e; cases e; exact .inl rfl
    | cons b bs =>
      simp only [OptDec.loop] at e
      cases hs : o.step b with
      | error x => rw [hs] at e; cases e
      | ok x =>
        obtain ⟨p, k⟩ := x
        rw [hs] at e
        simp only at e
        have hd : n' = (if k then n + 1 else n) + (if k then bs else b :: bs).length → n' = n + (b :: bs).length := by
          intro hm
          cases k <;> simp at hm ⊢ <;> omega
        cases hp : p.st <;> rw [hp] at e <;> simp only at e
        case valueStart => cases e; exact .inr (.inl hp)
        case optionValueDone => cases e; exact .inr (.inr (.inr (ostep_done _ _ _ _ hs hp)))
        case payload => cases e; exact .inr (.inr (.inl hp))
        all_goals exact (ih _ _ _ _ _ _ _ e).imp hd id

theorem oprocess_settled (o o' : OptDec) (h h' : Holder) (chunk : List UInt8) (last : Bool) (n : Nat)
    (e : OptDec.process o h chunk last = .ok (o', h', n)) :
    n = chunk.length ∨ o'.st = .valueStart ∨ o'.st = .payload ∨ o'.length = 0 := by
  unfold OptDec.process at e
  split at e
  · rename_i hc
    split at e
    · cases e
    · cases e
      simp at hc
      simp [hc.1]
  · simpa using oloop_settled _ _ _ _ _ _ _ _ e

/-- What the value of the current option is read from no longer depends on leftovers. -/
def Settled (p : Pull) : Prop :=
  p.d.st = .options → p.c.remainder = [] ∨ p.d.opt.st = .valueStart ∨ p.d.opt.length = 0

theorem settled_of {o : OptDec} {c : Ctx} {n : Nat} (hn : o.st ≠ .payload)
    (hd : n = c.remainder.length ∨ o.st = .valueStart ∨ o.st = .payload ∨ o.length = 0) :
    Ctx.remainder { c with pos := c.pos + n } = [] ∨ o.st = .valueStart ∨ o.length = 0 := by
  rcases hd with hd | hd | hd | hd
  · left
    subst hd
    simp only [Ctx.remainder, List.length_drop, List.drop_eq_nil_iff]
    omega
  · exact .inr (.inl hd)
  · exact absurd hd hn
  · exact .inr (.inr hd)

theorem iterate_settled (p q : Pull) (e : p.iterate = .ok q) : Settled q := by
  intro hq
  unfold iterate at e
  cases hs : p.d.step p.c with
  | error x => rw [hs] at e; cases e
  | ok x =>
    obtain ⟨d, c⟩ := x
    rw [hs] at e
    cases e
    simp only at hq ⊢
    unfold Dec.step at hs
    cases hp : p.d.st <;> rw [hp] at hs <;> simp only at hs
    case optionsStart =>
      split at hs
      · cases hs; simp at hq
      · split at hs
        · cases hs
        · rename_i o h n hpr
          cases hs
          simp only at hq ⊢
          have hd := oprocess_settled _ _ _ _ _ _ _ hpr
          have hn : o.st ≠ .payload := by intro hx; simp [hx] at hq
          exact settled_of hn hd
    case options =>
      split at hs
      · cases hs
      · rename_i o h n hpr
        have hd := oprocess_settled _ _ _ _ _ _ _ hpr
        have hn : o.st ≠ .payload := by
          intro hx
          simp [hx] at hs
          obtain ⟨rfl, rfl⟩ := hs
          simp at hq
        simp only [beq_iff_eq, hn, if_false] at hs
        split at hs
        · cases hs
          exact settled_of hn hd
        · cases hs
          exact settled_of hn hd
    case uninitialized => cases hs; simp at hq
    case header =>
      split at hs
      · cases hs
      · cases hs
        simp only at hq
        split at hq <;> cases hq
    case token =>
      split at hs
      · cases hs
      · cases hs
        simp only at hq
        split at hq <;> cases hq
    case payload =>
      cases hs
      simp only at hq
      split at hq <;> cases hq
    all_goals
      repeat' split at hs
      all_goals first | cases hs; done | (cases hs; simp at hq)

/-- Two readers from which the same is to come. -/
def PAgree (p q : Pull) : Prop := p.c = q.c ∧ DAgree p.d q.d ∧ Settled p ∧ Settled q

theorem PAgree.st {p q : Pull} (h : PAgree p q) : p.d.st = q.d.st := h.2.1.1

theorem piterate_agree {p q p' q' : Pull} (hc : p.c = q.c) (hd : DAgree p.d q.d) (e : p.iterate = .ok p') (e' : q.iterate = .ok q') : PAgree p' q' := by
  have s := iterate_settled _ _ e
  have s' := iterate_settled _ _ e'
  have hs := dstep_agree p.d q.d p.c hd
  unfold iterate at e e'
  rw [← hc] at e'
  cases h1 : p.d.step p.c with
  | error x => rw [h1] at e; cases e
  | ok x =>
    cases h2 : q.d.step p.c with
    | error y => rw [h2] at e'; cases e'
    | ok y =>
      rw [h1, h2] at hs
      rw [h1] at e
      rw [h2] at e'
      obtain ⟨d, c⟩ := x
      obtain ⟨d', c'⟩ := y
      cases e
      cases e'
      exact ⟨hs.1, hs.2, s, s'⟩

theorem PAgree.iterate {p q p' q' : Pull} (h : PAgree p q) (e : p.iterate = .ok p') (e' : q.iterate = .ok q') : PAgree p' q' :=
  piterate_agree h.1 h.2.1 e e'

theorem PAgree.current {p q : Pull} (h : PAgree p q) (hs : p.d.st = .options) : p.current = q.current := by
  obtain ⟨hc, ⟨h1, h2, h3, h4⟩, s, s'⟩ := h
  rw [hs] at h4
  simp only at h4
  obtain ⟨g1, g2⟩ := h4
  unfold Pull.current
  rw [g1]
  have : (p.d.optionValue p.c).1 = (q.d.optionValue q.c).1 := by
    unfold Dec.optionValue
    rw [← hc]
    by_cases hr : p.c.remainder = []
    · rw [hr]; simp; split <;> split <;> rfl
    · have e1 := (s hs).resolve_left hr
      have e2 := (s' (h1 ▸ hs)).resolve_left (hc ▸ hr)
      have hl : p.d.opt.length = q.d.opt.length := by
        rcases e1 with e1 | e1
        · exact g2.length (.inr (.inr e1))
        · rcases e2 with e2 | e2
          · exact g2.length (.inr (.inr (g2.1.trans e2)))
          · rw [e1, e2]
      rw [hl]
  rw [this]

theorem PAgree.until (s : DState) : ∀ (n : Nat) {p q : Pull} {b b' : Bool} {p' q' : Pull}, PAgree p q →
    processUntil s n p = .ok (b, p') → processUntil s n q = .ok (b', q') → b = b' ∧ PAgree p' q'
  | 0, p, q, b, b', p', q', h, e, e' => by
    simp only [processUntil] at e e'
    cases e; cases e'
    exact ⟨rfl, h⟩
  | n + 1, p, q, b, b', p', q', h, e, e' => by
    simp only [processUntil] at e e'
    rw [← h.st] at e'
    by_cases hs : p.d.st = s
    · simp [hs] at e e'
      obtain ⟨rfl, rfl⟩ := e
      obtain ⟨rfl, rfl⟩ := e'
      exact ⟨rfl, h⟩
    · rw [if_pos hs] at e e'
      cases h1 : p.iterate with
      | error x => rw [h1] at e; cases e
      | ok x =>
        cases h2 : q.iterate with
        | error x => rw [h2] at e'; cases e'
        | ok y =>
          rw [h1] at e
          rw [h2] at e'
          exact PAgree.until s n (h.iterate h1 h2) e e'

theorem PAgree.header {p q p' q' : Pull} {a a' : Header} (h : PAgree p q) (e : p.header = .ok (a, p')) (e' : q.header = .ok (a', q')) : PAgree p' q' := by
  unfold Pull.header at e e'
  split at e
  · cases e
  · rename_i u1
    split at e'
    · cases e'
    · rename_i u2
      have g := (PAgree.until _ _ h u1 u2).2
      simp only at e e'
      split at e
      · cases e
      · rename_i i1
        split at e'
        · cases e'
        · rename_i i2
          have g' := g.iterate i1 i2
          rw [← g'.st] at e'
          split at e
          · rename_i ht
            rw [if_pos ht] at e'
            split at e
            · cases e
            · rename_i j1
              split at e'
              · cases e'
              · rename_i j2
                cases e; cases e'
                exact g'.iterate j1 j2
          · rename_i ht
            rw [if_neg ht] at e'
            cases e; cases e'
            exact g'

theorem PAgree.pretoken {p q p' q' : Pull} {a a' : Option UInt8} (h : PAgree p q) (e : p.preprocessToken = .ok (a, p'))
    (e' : q.preprocessToken = .ok (a', q')) : PAgree p' q' := by
  unfold preprocessToken at e e'
  rw [← h.st] at e'
  split at e
  · rename_i ht
    rw [if_pos ht] at e'
    cases e; cases e'
    exact h
  · rename_i ht
    rw [if_neg ht] at e'
    split at e
    · rename_i ht
      rw [if_pos ht] at e'
      cases e; cases e'
      exact h
    · rename_i ht
      rw [if_neg ht] at e'
      simp only at e e'
      split at e
      · cases e
      · rename_i i1
        split at e'
        · cases e'
        · rename_i i2
          have g := h.iterate i1 i2
          split at e
          · cases e
          · rename_i u1
            split at e'
            · cases e'
            · rename_i u2
              cases e; cases e'
              exact (PAgree.until _ _ g u1 u2).2
            · rename_i u2
              exact absurd (PAgree.until _ _ g u1 u2).1 (by simp)
          · rename_i u1
            split at e'
            · cases e'
            · rename_i u2
              exact absurd (PAgree.until _ _ g u1 u2).1 (by simp)
            · rename_i u2
              have g' := (PAgree.until _ _ g u1 u2).2
              split at e
              · cases e
              · rename_i j1
                split at e'
                · cases e'
                · rename_i j2
                  cases e; cases e'
                  exact g'.iterate j1 j2

theorem PAgree.token {p q p' q' : Pull} {t t' : List UInt8} {b b' : Bool} (h : PAgree p q) (e : p.token = .ok (t, b, p'))
    (e' : q.token = .ok (t', b', q')) : PAgree p' q' := by
  unfold Pull.token at e e'
  split at e
  · cases e
  · rename_i u1
    split at e'
    · cases e'
    · rename_i u2
      have g := h.pretoken u1 u2
      simp only at e e'
      split at e
      · split at e'
        · cases e; cases e'
          exact g
        · cases e'
      · cases e

theorem PAgree.begin {p q p' q' : Pull} {b b' : Bool} (h : PAgree p q) (e : p.beginOption = .ok (b, p')) (e' : q.beginOption = .ok (b', q')) :
    b = b' ∧ PAgree p' q' := by
  unfold beginOption at e e'
  split at e
  · cases e
  · rename_i i1
    split at e'
    · cases e'
    · rename_i i2
      have g := h.iterate i1 i2
      rw [← g.st] at e'
      split at e
      · rename_i ht
        rw [if_pos ht] at e'
        split at e
        · cases e
        · rename_i j1
          split at e'
          · cases e'
          · rename_i j2
            cases e; cases e'
            exact ⟨rfl, g.iterate j1 j2⟩
      · rename_i ht
        rw [if_neg ht] at e'
        cases e; cases e'
        exact ⟨rfl, g⟩

theorem PAgree.next {p q p' q' : Pull} {b b' : Bool} (h : PAgree p q) (e : p.optionNext = .ok (b, p')) (e' : q.optionNext = .ok (b', q')) :
    b = b' ∧ PAgree p' q' := by
  unfold optionNext at e e'
  split at e
  · cases e
  · rename_i i1
    split at e'
    · cases e'
    · rename_i i2
      have g := h.iterate i1 i2
      split at e
      · cases e
      · rename_i j1
        split at e'
        · cases e'
        · rename_i j2
          have g' := g.iterate j1 j2
          rw [← g'.st] at e'
          split at e
          · rename_i ht
            rw [if_pos ht] at e'
            split at e
            · cases e
            · rename_i k1
              split at e'
              · cases e'
              · rename_i k2
                have g'' := g'.iterate k1 k2
                rw [← g''.st] at e'
                cases e; cases e'
                exact ⟨rfl, g''⟩
          · rename_i ht
            rw [if_neg ht] at e'
            cases e; cases e'
            exact ⟨rfl, g'⟩

theorem PAgree.iterNew {p q p' q' : Pull} (h : PAgree p q) (e : p.iterNew = .ok p') (e' : q.iterNew = .ok q') : PAgree p' q' := by
  unfold Pull.iterNew at e e'
  split at e
  · cases e
  · rename_i u1
    split at e'
    · cases e'
    · rename_i u2
      exact (h.begin u1 u2).2.iterate e e'
    · rename_i u2
      exact absurd (h.begin u1 u2).1 (by simp)
  · rename_i u1
    split at e'
    · cases e'
    · rename_i u2
      exact absurd (h.begin u1 u2).1 (by simp)
    · rename_i u2
      cases e; cases e'
      exact (h.begin u1 u2).2

theorem PAgree.iterNext {p q p' q' : Pull} (h : PAgree p q) (e : p.iterNext = .ok p') (e' : q.iterNext = .ok q') : PAgree p' q' := by
  unfold Pull.iterNext at e e'
  split at e
  · cases e
  · rename_i u1
    split at e'
    · cases e'
    · rename_i u2
      exact (h.next u1 u2).2.iterate e e'
    · rename_i u2
      exact absurd (h.next u1 u2).1 (by simp)
  · rename_i u1
    split at e'
    · cases e'
    · rename_i u2
      exact absurd (h.next u1 u2).1 (by simp)
    · rename_i u2
      cases e; cases e'
      exact (h.next u1 u2).2

theorem PAgree.iterLoop : ∀ (n : Nat) {p q p' q' : Pull} {l l' : List (UInt16 × List UInt8)}, PAgree p q →
    Pull.iterLoop n p = .ok (l, p') → Pull.iterLoop n q = .ok (l', q') → l = l' ∧ PAgree p' q'
  | 0, p, q, p', q', l, l', h, e, e' => by simp [Pull.iterLoop] at e
  | n + 1, p, q, p', q', l, l', h, e, e' => by
    have hv : q.iterValid = p.iterValid := by unfold iterValid; rw [h.st]
    simp only [Pull.iterLoop] at e e'
    rw [hv] at e'
    split at e
    · rename_i ht
      rw [if_pos ht] at e'
      split at e
      · cases e
      · rename_i u1
        split at e'
        · cases e'
        · rename_i u2
          have g := h.iterNext u1 u2
          split at e
          · cases e
          · rename_i v1
            split at e'
            · cases e'
            · rename_i v2
              obtain ⟨w1, w2⟩ := PAgree.iterLoop n g v1 v2
              cases e; cases e'
              exact ⟨by rw [h.current (by simpa [iterValid] using ht), w1], w2⟩
    · rename_i ht
      rw [if_neg ht] at e'
      cases e; cases e'
      exact ⟨rfl, h⟩

/-- Two readings of the same bytes show the same options and the same payload. -/
theorem readings_agree {j k : Dec} (hj : j.tbuf.length = 8) (hk : k.tbuf.length = 8) (hp : j.opt.st = .payload ↔ k.opt.st = .payload)
    (bytes : List UInt8) (fuel : Nat) {r r' : Reading} (e : readWith (iterAll fuel) (make j bytes) = .ok r)
    (e' : readWith (iterAll fuel) (make k bytes) = .ok r') : r.options = r'.options ∧ r.payload = r'.payload ∧ r.final = r'.final := by
  have h0 : PAgree (make j bytes) (make k bytes) := ⟨rfl, ⟨rfl, hj, hk, hp⟩, fun h => by simp [make, Dec.fresh] at h, fun h => by simp [make, Dec.fresh] at h⟩
  unfold readWith at e e'
  split at e
  · cases e
  · rename_i u1
    split at e'
    · cases e'
    · rename_i u2
      have g1 := h0.header u1 u2
      split at e
      · cases e
      · rename_i v1
        split at e'
        · cases e'
        · rename_i v2
          have g2 := g1.token v1 v2
          split at e
          · cases e
          · rename_i w1
            split at e'
            · cases e'
            · rename_i w2
              unfold iterAll at w1 w2
              split at w1
              · cases w1
              · rename_i x1
                split at w2
                · cases w2
                · rename_i x2
                  obtain ⟨y1, y2⟩ := PAgree.iterLoop fuel (g2.iterNew x1 x2) w1 w2
                  cases e; cases e'
                  exact ⟨y1, by simp only [Pull.payload, y2.1], y2.st⟩

/-- The reader behind the header, in full. -/
theorem header_exact (junk : Dec) (b0 b1 b2 b3 : UInt8) (r : List UInt8) :
    (make junk (b0 :: b1 :: b2 :: b3 :: r)).header = .ok (⟨b0, b1, b2, b3⟩,
      ⟨{ junk with st := if (⟨b0, b1, b2, b3⟩ : Header).tokenLength > 0 then .tokenStart else .optionsStart, hdr := ⟨b0, b1, b2, b3⟩, hpos := 4 },
        ⟨b0 :: b1 :: b2 :: b3 :: r, 4, true⟩⟩) := by
  have e2 : processUntil .headerDone 10 (make junk (b0 :: b1 :: b2 :: b3 :: r)) =
      .ok (true, ⟨{ junk with st := .headerDone, hdr := ⟨b0, b1, b2, b3⟩, hpos := 4 }, ⟨b0 :: b1 :: b2 :: b3 :: r, 4, true⟩⟩) := by
    simp [processUntil, Pull.iterate, make, Dec.fresh, Dec.step, Dec.headerLoop, Dec.writeHeader, Ctx.remainder]
  by_cases ht : (⟨b0, b1, b2, b3⟩ : Header).tokenLength > 0
  · simp [Pull.header, e2, Pull.iterate, Dec.step, ht]
  · simp [Pull.header, e2, Pull.iterate, Dec.step, ht]

/-- At the start of the options nothing is left of the state the option decoder was in. -/
theorem start_forgets (p : Pull) (hs : p.d.st = .optionsStart) (hr : p.c.remainder ≠ []) :
    p.iterate = Pull.iterate ⟨{ p.d with opt := { p.d.opt with st := .garbage } }, p.c⟩ := by
  unfold Pull.iterate Dec.step
  have : ¬ (p.c.remainder.length == 0 && p.c.last) = true := by simp [hr]
  simp only [hs, this, if_false]
  rfl

/-- No options behind the end. -/
theorem start_empty (p : Pull) (hs : p.d.st = .optionsStart) (hr : p.c.remainder = []) (hl : p.c.last = true) (fuel : Nat)
    {l : List (UInt16 × List UInt8)} {q : Pull} (e : iterAll fuel p = .ok (l, q)) : l = [] := by
  have e1 : p.iterate = .ok ⟨{ p.d with st := .optionsDone }, p.c⟩ := by
    unfold Pull.iterate Dec.step
    simp [hs, hr, hl]
  unfold iterAll Pull.iterNew beginOption at e
  simp only [e1, if_true] at e
  cases h2 : Pull.iterate ⟨{ p.d with st := .optionsDone }, p.c⟩ with
  | error x => rw [h2] at e; cases e
  | ok x =>
    rw [h2] at e
    simp only at e
    have hx : x.d.st ≠ .options := by
      intro hx
      unfold Pull.iterate Dec.step at h2
      simp only at h2
      split at h2
      · cases h2
      · rename_i g
        repeat' split at g
        all_goals first | (cases g; done) | (cases g; cases h2; simp at hx)
    cases fuel with
    | zero => simp [Pull.iterLoop] at e
    | succ f =>
      simp only [Pull.iterLoop] at e
      rw [if_neg (by simpa [iterValid] using hx)] at e
      cases e
      rfl

/-- The options from the start of the options on. -/
theorem start_agree {p q : Pull} (hc : p.c = q.c) (hl : p.c.last = true) (hs : p.d.st = .optionsStart) (hs' : q.d.st = .optionsStart)
    (hb : p.d.tbuf.length = 8) (hb' : q.d.tbuf.length = 8) (fuel : Nat) {l l' : List (UInt16 × List UInt8)} {p' q' : Pull}
    (e : iterAll fuel p = .ok (l, p')) (e' : iterAll fuel q = .ok (l', q')) : l = l' := by
  by_cases hr : p.c.remainder = []
  · rw [start_empty p hs hr hl fuel e, start_empty q hs' (hc ▸ hr) (hc ▸ hl) fuel e']
  · have g := start_forgets p hs hr
    have g' := start_forgets q hs' (hc ▸ hr)
    have a : PAgree ⟨{ p.d with opt := { p.d.opt with st := .garbage } }, p.c⟩ ⟨{ q.d with opt := { q.d.opt with st := .garbage } }, q.c⟩ :=
      ⟨hc, ⟨hs.trans hs'.symm, hb, hb', by simp [hs]⟩, fun h => by simp [hs] at h, fun h => by simp [hs'] at h⟩
    have hn : p.iterNew = Pull.iterNew ⟨{ p.d with opt := { p.d.opt with st := .garbage } }, p.c⟩ := by
      unfold Pull.iterNew beginOption; rw [g]
    have hn' : q.iterNew = Pull.iterNew ⟨{ q.d with opt := { q.d.opt with st := .garbage } }, q.c⟩ := by
      unfold Pull.iterNew beginOption; rw [g']
    unfold iterAll at e e'
    rw [hn] at e
    rw [hn'] at e'
    split at e
    · cases e
    · rename_i x1
      split at e'
      · cases e'
      · rename_i x2
        exact (PAgree.iterLoop fuel (a.iterNew x1 x2) e e').1

/-- Two readings of the same bytes show the same options, whatever memory held. -/
theorem options_agree {j k : Dec} (hj : j.tbuf.length = 8) (hk : k.tbuf.length = 8) {bytes : List UInt8} (h4 : 4 ≤ bytes.length)
    (fuel : Nat) {r r' : Reading} (e : readWith (iterAll fuel) (make j bytes) = .ok r)
    (e' : readWith (iterAll fuel) (make k bytes) = .ok r') : r.options = r'.options := by
  obtain ⟨b0, b1, b2, b3, t, rfl⟩ : ∃ b0 b1 b2 b3 t, bytes = b0 :: b1 :: b2 :: b3 :: t := by
    match bytes, h4 with
    | b0 :: b1 :: b2 :: b3 :: t, _ => exact ⟨b0, b1, b2, b3, t, rfl⟩
  unfold readWith at e e'
  rw [header_exact] at e e'
  by_cases ht : (⟨b0, b1, b2, b3⟩ : Header).tokenLength > 0
  · simp only [ht, if_true] at e e'
    split at e
    · cases e
    · rename_i v1
      split at e'
      · cases e'
      · rename_i v2
        have g1 : PAgree ⟨{ j with st := .tokenStart, hdr := ⟨b0, b1, b2, b3⟩, hpos := 4 }, ⟨b0 :: b1 :: b2 :: b3 :: t, 4, true⟩⟩
            ⟨{ k with st := .tokenStart, hdr := ⟨b0, b1, b2, b3⟩, hpos := 4 }, ⟨b0 :: b1 :: b2 :: b3 :: t, 4, true⟩⟩ :=
          ⟨rfl, ⟨rfl, hj, hk, rfl⟩, fun h => by simp at h, fun h => by simp at h⟩
        have g2 := g1.token v1 v2
        split at e
        · cases e
        · rename_i w1
          split at e'
          · cases e'
          · rename_i w2
            unfold iterAll at w1 w2
            split at w1
            · cases w1
            · rename_i x1
              split at w2
              · cases w2
              · rename_i x2
                cases e; cases e'
                exact (PAgree.iterLoop fuel (g2.iterNew x1 x2) w1 w2).1
  · simp only [ht, if_false, Pull.token, preprocessToken] at e e'
    simp at e e'
    split at e
    · cases e
    · rename_i w1
      split at e'
      · cases e'
      · rename_i w2
        cases e; cases e'
        refine start_agree ?_ ?_ ?_ ?_ ?_ ?_ fuel w1 w2 <;> first | rfl | exact hj | exact hk

end Verif.Proofs
