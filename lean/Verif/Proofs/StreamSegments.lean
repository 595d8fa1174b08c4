import Verif.Proofs.StreamDecoder
import Verif.Proofs.Split
import Verif.Proofs.MessageFeed
import Verif.Proofs.CutValues

/-! # The stream decoder over a stream that comes in several segments -/
namespace Verif.Proofs
open Verif.Model Header Dec

/-- All bytes that are left in a stream. -/
def total (s : Sb) : List UInt8 := s.cur ++ s.more.flatten

theorem pullFrom_total (c : List UInt8) (m : List (List UInt8)) : total (Sb.pullFrom c m) = c ++ m.flatten := by
  induction m generalizing c with
  | nil => cases c <;> rfl
  | cons x m ih =>
    cases c with
    | nil => rw [Sb.pullFrom, ih]; simp
    | cons b c => rfl

theorem pull_total (s : Sb) : total s.pull = total s := pullFrom_total s.cur s.more

theorem pullFrom_nil (c : List UInt8) (m : List (List UInt8)) (h : (Sb.pullFrom c m).cur = []) :
    Sb.pullFrom c m = ⟨[], []⟩ := by
  induction m generalizing c with
  | nil => cases c with
    | nil => rfl
    | cons b c => simp [Sb.pullFrom] at h
  | cons x m ih =>
    cases c with
    | nil => rw [Sb.pullFrom] at h ⊢; exact ih x h
    | cons b c => simp [Sb.pullFrom] at h

theorem pull_nil {s : Sb} (h : s.pull.cur = []) : s.pull = ⟨[], []⟩ := pullFrom_nil _ _ h

theorem pull_nil_iff (s : Sb) : s.pull.cur = [] ↔ total s = [] := by
  rw [← pull_total]
  refine ⟨fun h => by rw [pull_nil h]; rfl, fun h => ?_⟩
  unfold total at h
  exact (List.append_eq_nil_iff.1 h).1

theorem pull_cons {s : Sb} {b : UInt8} {r : List UInt8} (h : s.pull.cur = b :: r) : total s = b :: (r ++ s.pull.more.flatten) := by
  rw [← pull_total, total, h]; rfl

theorem total_one (r : List UInt8) : total ⟨r, []⟩ = r := by simp [total]

theorem pull_pull (s : Sb) : s.pull.pull = s.pull := by
  cases h : s.pull.cur with
  | nil => rw [pull_nil h]; rfl
  | cons b r =>
    have : s.pull = ⟨b :: r, s.pull.more⟩ := by rw [← h]
    rw [this]; simp [Sb.pull, Sb.pullFrom]

theorem eof_total (s : Sb) : (s.pull.cur.length == 0) = ((total s).length == 0) := by
  rw [Bool.eq_iff_iff]
  simp only [beq_iff_eq, List.length_eq_zero_iff]
  exact pull_nil_iff s

/-- Reading one byte does not depend on how the bytes are cut. -/
theorem bumpc_total (k : SbKind) (s : Sb) :
    (s.bumpc k).1 = ((⟨total s, []⟩ : Sb).bumpc k).1 ∧ total (s.bumpc k).2 = total ((⟨total s, []⟩ : Sb).bumpc k).2 := by
  unfold Sb.bumpc
  rw [pull_one]
  cases h : s.pull.cur with
  | nil =>
    rw [(pull_nil_iff s).1 h]
    exact ⟨rfl, by rw [pull_nil h]⟩
  | cons b r =>
    rw [pull_cons h]
    exact ⟨rfl, by simp [total]⟩

/-- Same outcome, same bytes left. -/
def Like (x y : Except Fault (Dec × Sb × Bool)) : Prop :=
  match x, y with
  | .error e, .error e' => e = e'
  | .ok (d, s, b), .ok (d', s', b') => d = d' ∧ b = b' ∧ total s = total s'
  | _, _ => False

theorem headerLoop_like (k : SbKind) (f : Nat) (d : Dec) (s s' : Sb) (h : total s = total s') :
    Like (SDec.headerLoop k f d s) (SDec.headerLoop k f d s') := by
  induction f generalizing d s s' with
  | zero => rfl
  | succ f ih =>
    obtain ⟨a1, a2⟩ := bumpc_total k s
    obtain ⟨b1, b2⟩ := bumpc_total k s'
    rw [← h] at b1 b2
    rw [SDec.headerLoop, SDec.headerLoop]
    rcases hb : s.bumpc k with ⟨x, t⟩
    rcases hb' : s'.bumpc k with ⟨x', t'⟩
    rw [hb] at a1 a2; rw [hb'] at b1 b2
    have hx : x' = x := b1.trans a1.symm
    have ht : total t = total t' := a2.trans b2.symm
    subst hx
    cases x' with
    | none => exact ⟨rfl, rfl, ht⟩
    | some b =>
      cases hw : writeHeader d.hdr d.hpos b with
      | error e => simp only [hw]; rfl
      | ok hdr =>
        simp only [hw]
        by_cases h4 : d.hpos + 1 ≥ 4
        · simp only [h4, if_true]; exact ⟨rfl, rfl, ht⟩
        · simp only [h4, if_false]; exact ih _ _ _ ht

theorem tokenLoop_like (k : SbKind) (f : Nat) (d : Dec) (s s' : Sb) (h : total s = total s') :
    Like (SDec.tokenLoop k f d s) (SDec.tokenLoop k f d s') := by
  induction f generalizing d s s' with
  | zero => rfl
  | succ f ih =>
    obtain ⟨a1, a2⟩ := bumpc_total k s
    obtain ⟨b1, b2⟩ := bumpc_total k s'
    rw [← h] at b1 b2
    rw [SDec.tokenLoop, SDec.tokenLoop]
    rcases hb : s.bumpc k with ⟨x, t⟩
    rcases hb' : s'.bumpc k with ⟨x', t'⟩
    rw [hb] at a1 a2; rw [hb'] at b1 b2
    have hx : x' = x := b1.trans a1.symm
    have ht : total t = total t' := a2.trans b2.symm
    subst hx
    cases x' with
    | none => exact ⟨rfl, rfl, ht⟩
    | some b =>
      cases hw : writeAt d.tbuf d.tpos.toNat b with
      | none => simp only [hw]; rfl
      | some tb =>
        simp only [hw]
        by_cases h4 : d.tpos + 1 ≥ d.hdr.tokenLength
        · simp only [h4, if_true]; exact ⟨rfl, rfl, ht⟩
        · simp only [h4, if_false]; exact ih _ _ _ ht

/-- Outside the options and the payload a step does not depend on how the bytes are cut. -/
theorem step_like (k : SbKind) (d : Dec) (s : Sb) (h1 : d.st ≠ .optionsStart) (h2 : d.st ≠ .options) (h3 : d.st ≠ .optionsDone) :
    Like (SDec.step k d s) (SDec.step k d ⟨total s, []⟩) := by
  unfold SDec.step
  rw [pull_one]
  simp only [eof_total]
  have ht : total s.pull = total ⟨total s, []⟩ := by rw [pull_total, total_one]
  cases hs : d.st <;> simp only [hs, ne_eq, not_true_eq_false] at h1 h2 h3 ⊢
  case header =>
    have := headerLoop_like k 5 d s.pull ⟨total s, []⟩ ht
    revert this
    rcases SDec.headerLoop k 5 d s.pull with e | ⟨d1, t1, b1⟩ <;>
      rcases SDec.headerLoop k 5 d ⟨total s, []⟩ with e' | ⟨d2, t2, b2⟩ <;> intro this
    · exact this
    · exact this
    · exact this
    · obtain ⟨rfl, rfl, h⟩ := this; exact ⟨rfl, rfl, h⟩
  case token =>
    have := tokenLoop_like k 17 d s.pull ⟨total s, []⟩ ht
    revert this
    rcases SDec.tokenLoop k 17 d s.pull with e | ⟨d1, t1, b1⟩ <;>
      rcases SDec.tokenLoop k 17 d ⟨total s, []⟩ with e' | ⟨d2, t2, b2⟩ <;> intro this
    · exact this
    · exact this
    · exact this
    · obtain ⟨rfl, rfl, h⟩ := this; exact ⟨rfl, rfl, h⟩
  case headerDone => split <;> exact ⟨rfl, rfl, ht⟩
  all_goals exact ⟨rfl, rfl, ht⟩

/-- What the decoder relies on between steps, for the bytes `T` that are left in all segments together. -/
structure SegInv (k : SbKind) (d : Dec) (T : List UInt8) : Prop where
  inv : DInv d ⟨T, 0, true⟩
  hok : HOK d T
  clean : StreamClean k d T

theorem DInv.move {d : Dec} {c c' : Ctx} (h : DInv d c) (hp : c'.pos ≤ c'.chunk.length) (hl : c.last = true → c'.last = true)
    (hr : c.remainder = c'.remainder) : DInv d c' :=
  ⟨hp, h.tbuf, h.header, h.tokenStart, h.token, h.tokenDone, h.options, fun hs => by
    rcases h.optionsDone hs with h1 | ⟨h1, h2⟩
    · exact Or.inl h1
    · refine Or.inr ⟨hl h1, ?_⟩
      have : c.remainder = [] := by simp [Ctx.remainder, h2]
      rw [hr] at this
      exact remainder_nil hp this⟩

theorem step_not_payload {d d' : Dec} {c c' : Ctx} (hg : Going d) (h1 : d.st ≠ .options) (h2 : d.st ≠ .optionsStart)
    (h3 : d.st ≠ .optionsDone) (e : d.step c = .ok (d', c')) : d'.st ≠ .payload := by
  unfold Going at hg
  unfold Dec.step at e
  cases hs : d.st <;> simp only [hs, ne_eq, not_true_eq_false] at h1 h2 h3 e <;> simp only [hs] at hg
  case header =>
    split at e
    · cases e
    · cases e; dsimp only; split <;> simp
  case token =>
    split at e
    · cases e
    · cases e; dsimp only; split <;> simp
  case headerDone => split at e <;> cases e <;> simp
  case uninitialized => cases e; simp
  case tokenStart => cases e; simp
  case tokenDone => cases e; simp
  all_goals simp at hg

theorem step_not_options {d d' : Dec} {c c' : Ctx} (hg : Going d) (h1 : d.st ≠ .options) (h2 : d.st ≠ .optionsStart)
    (h3 : d.st ≠ .optionsDone) (e : d.step c = .ok (d', c')) : d'.st ≠ .options ∧ d'.st ≠ .optionsDone := by
  unfold Going at hg
  unfold Dec.step at e
  cases hs : d.st <;> simp only [hs, ne_eq, not_true_eq_false] at h1 h2 h3 e <;> simp only [hs] at hg
  case header =>
    split at e
    · cases e
    · cases e; dsimp only; split <;> simp
  case token =>
    split at e
    · cases e
    · cases e; dsimp only; split <;> simp
  case headerDone => split at e <;> cases e <;> simp
  case uninitialized => cases e; simp
  case tokenStart => cases e; simp
  case tokenDone => cases e; simp
  all_goals simp at hg

theorem pull_cur_ne {s : Sb} (h : s.cur ≠ []) : s.pull.cur ≠ [] := by
  obtain ⟨c, m⟩ := s
  cases c with
  | nil => exact absurd rfl h
  | cons b c => simp [Sb.pull, Sb.pullFrom]

/-- One step of the stream decoder before the payload, seen as a run of `feed` over all bytes that are left. -/
theorem sstep_feed (k : SbKind) (d : Dec) (s : Sb) (hi : SegInv k d (total s)) (hr : total s ≠ [])
    (hg : Going d) :
    ∃ d1 j s' eof, j ≤ (total s).length ∧ Factors true d (total s) d1 ((total s).drop j) ∧
      meas d1 ((total s).drop j) < meas d (total s) ∧
      SDec.step k d s = .ok (fin true ((total s).drop j) d1, s', eof) ∧ total s' = (total s).drop j ∧
      SegInv k (fin true ((total s).drop j) d1) (total s') ∧
      (d1.st = .payload → s' = s.pull) ∧ (Going d1 ∨ d1.st = .payload) ∧
      (d1.st = .options → d1.opt.st = .valueStart → s'.cur ≠ []) := by
  have hrem : (⟨total s, 0, true⟩ : Ctx).remainder = total s := rfl
  have hpc : s.pull.cur ≠ [] := fun h => hr ((pull_nil_iff s).1 h)
  have htot : total s = s.pull.cur ++ s.pull.more.flatten := (pull_total s).symm
  by_cases ho : d.st = .options ∨ d.st = .optionsStart
  · -- the option decoder sees one segment
    have key : ∀ d2 : Dec, d2.st = .options → OInv d2.opt → d2.hdr.tokenLength.toNat ≤ 8 → d2.tbuf.length = 8 →
        meas d2 (total s) ≤ meas d (total s) →
        (∀ d1 r1, Factors true d2 (total s) d1 r1 → Factors true d (total s) d1 r1) →
        (d.st = .optionsStart → inHeader d2.opt.st = true) →
        (∀ o h s', SDec.optProcess k d2.opt d2.holder s.pull = .ok (o, h, s') → ∃ s2 eof, (total s2 = total s' ∧ (s'.cur ≠ [] → s2.cur ≠ [])) ∧
          SDec.step k d s = .ok (fin true (total s') { d2 with opt := o, holder := h, st := if o.st = .payload then .optionsDone else .options }, s2, eof) ∨
          (d.st = .optionsStart ∧ o.st = .optionValueDone)) → 
      ∃ d1 j s' eof, j ≤ (total s).length ∧ Factors true d (total s) d1 ((total s).drop j) ∧
      meas d1 ((total s).drop j) < meas d (total s) ∧
      SDec.step k d s = .ok (fin true ((total s).drop j) d1, s', eof) ∧ total s' = (total s).drop j ∧
      SegInv k (fin true ((total s).drop j) d1) (total s') ∧
      (d1.st = .payload → s' = s.pull) ∧ (Going d1 ∨ d1.st = .payload) ∧
      (d1.st = .options → d1.opt.st = .valueStart → s'.cur ≠ []) := by
      intro d2 hs2 hoi htk htb hme hfac hih hstep
      obtain ⟨o1, h1, j, e, hj, ho1, hf, hm1, hd, -, hvv⟩ := loop_feed_app true s.pull.more.flatten (OptDec.fuelFor s.pull.cur) d2
        s.pull.cur 0 hs2 hoi hpc (by have := rank_le d2.opt.st; simp only [OptDec.fuelFor]; omega)
      have hdrop : (total s).drop j = s.pull.cur.drop j ++ s.pull.more.flatten := by
        rw [htot, List.drop_append_of_le_length hj]
      have hop : SDec.optProcess k d2.opt d2.holder s.pull = .ok (o1, h1, { s.pull with cur := s.pull.cur.drop j }) := by
        have hl : ¬ s.pull.cur.length = 0 := by simpa using hpc
        simp only [SDec.optProcess, OptDec.process, Bool.and_false, Bool.false_eq_true, if_false, beq_eq_false_iff_ne.2 hl, e, Nat.zero_add]
      have hts : total { s.pull with cur := s.pull.cur.drop j } = (total s).drop j := by rw [hdrop]; rfl
      obtain ⟨s2, eof, hst⟩ := hstep _ _ _ hop
      rcases hst with ⟨⟨ht2, hcur⟩, hst⟩ | ⟨h1, h2⟩
      · rw [hts] at hst ht2
        refine ⟨_, j, s2, eof, by rw [htot]; simp; omega, hfac _ _ (by rw [hdrop, htot]; exact hf), ?_, hst, ht2, ?_, ?_, ?_, ?_⟩
        · have hx : meas { d2 with opt := o1, holder := h1, st := if o1.st = .payload then .optionsDone else .options } ((total s).drop j) < meas d2 (total s) := by
            unfold meas at hm1 ⊢
            rw [hdrop, htot]
            simp only [List.length_append] at hm1 ⊢
            omega
          omega
        · rw [ht2]
          by_cases hp : o1.st = .payload
          · simp only [hp, if_true]
            rw [fin_of_ne (by simp)]
            exact ⟨⟨by simp, htb, by simp, by simp, by simp, by simp, by simp, fun _ => Or.inl hp⟩, by simpa [HOK] using htk, trivial⟩
          · simp only [hp, if_false]
            by_cases hv : (total s).drop j = [] ∧ o1.st = .optionValueDone
            · have : ∀ d3 : Dec, d3.st = .options → d3.opt.st = .optionValueDone → fin true ((total s).drop j) d3 = { d3 with st := .optionsDone } := by
                intro d3 a b; simp [fin, hv.1, a, b]
              rw [this _ rfl hv.2]
              exact ⟨⟨by simp, htb, by simp, by simp, by simp, by simp, by simp, fun _ => Or.inr ⟨rfl, by simp [hv.1]⟩⟩, by simpa [HOK] using htk, trivial⟩
            · have : ∀ d3 : Dec, d3.opt = o1 → fin true ((total s).drop j) d3 = d3 := by
                intro d3 a
                unfold fin
                rw [if_neg]
                rintro ⟨a1, -, -, a4⟩
                exact hv ⟨a1, by rw [← a]; exact a4⟩
              rw [this _ rfl]
              exact ⟨⟨by simp, htb, by simp, by simp, by simp, by simp, fun _ => ho1, by simp⟩, by simpa [HOK] using htk, trivial⟩
        · intro h; revert h; dsimp only; split <;> simp
        · left; unfold Going; dsimp only; split <;> simp
        · intro _ hv
          apply hcur
          intro hnil
          have : j = s.pull.cur.length := by
            have := List.drop_eq_nil_iff.1 hnil
            omega
          exact hvv this hv
      · exact absurd h2 (hd (hih h1))
    have htk : d.hdr.tokenLength.toNat ≤ 8 := by
      have := hi.hok
      rcases ho with h | h <;> simpa [HOK, h] using this
    rcases ho with hs | hs
    · refine key d hs (hi.inv.options hs) htk hi.inv.tbuf (Nat.le_refl _) (fun _ _ h => h) (by simp [hs]) ?_
      intro o h s' e
      refine ⟨s'.pull, s'.pull.cur.length == 0, Or.inl ⟨⟨pull_total s', pull_cur_ne⟩, ?_⟩⟩
      simp only [SDec.step, hs, e]
      by_cases hp : o.st = .payload
      · simp only [hp, beq_self_eq_true, if_true]
        rw [fin_of_ne (by simp)]
      · simp only [hp, beq_eq_false_iff_ne.2 hp, Bool.false_eq_true, if_false]
        by_cases ht : total s' = []
        · rw [(pull_nil_iff s').2 ht, ht]
          by_cases hv : o.st = .optionValueDone
          · simp [hv, fin]
          · simp [hv, fin]
        · have : s'.pull.cur.length ≠ 0 := by
            intro h; exact ht ((pull_nil_iff s').1 (List.length_eq_zero_iff.1 h))
          rw [fin_of_r ht, beq_eq_false_iff_ne.2 this]
          simp [← hs]
    · refine key { d with st := .options, opt := { d.opt with st := .firstByte }, holder := ⟨0, 0⟩ } rfl (by simp [OInv]) htk hi.inv.tbuf ?_ ?_ (fun _ => rfl) ?_
      · unfold meas; simp [drank, hs, rank]
      · obtain ⟨b, bs, hb⟩ := List.exists_cons_of_ne_nil hr
        intro d1 r1 hf
        rw [hb] at hf ⊢
        exact factors_trans true d b bs hg _ false (by simp [micro, hs]) (by simp [note, notify]) _ _ hf
      · intro o h s' e
        refine ⟨s', false, ?_⟩
        by_cases hv : o.st = .optionValueDone
        · exact Or.inr ⟨hs, hv⟩
        · left
          refine ⟨⟨rfl, id⟩, ?_⟩
          have hl : (s.pull.cur.length == 0) = false := by simpa using hpc
          simp only at e
          simp only [SDec.step, hs, hl, e, Bool.false_eq_true, if_false]
          by_cases hp : o.st = .payload
          · simp only [hp, beq_self_eq_true, if_true]
            rw [fin_of_ne (by simp)]
          · simp only [hp, beq_eq_false_iff_ne.2 hp, Bool.false_eq_true, if_false]
            rw [fin_of_opt hv]
  · have h1 : d.st ≠ .options := fun h => ho (Or.inl h)
    have h2 : d.st ≠ .optionsStart := fun h => ho (Or.inr h)
    by_cases h3 : d.st = .optionsDone
    · obtain ⟨b, bs, hb⟩ := List.exists_cons_of_ne_nil hr
      have hop : d.opt.st = .payload := by
        rcases hi.inv.optionsDone h3 with h | ⟨_, h⟩
        · exact h
        · rw [hb] at h; simp at h
      have hm : micro d b = ({ d with st := .payload }, false) := by simp [micro, h3]
      refine ⟨{ d with st := .payload }, 0, s.pull, false, by simp, ?_, ?_, ?_, by simp [pull_total], ?_, fun _ => rfl, Or.inr rfl, by simp⟩
      · rw [hb]; exact factors_micro true d b bs hg _ _ hm
      · unfold meas; simp [drank, h3]
      · have hl : (s.pull.cur.length == 0) = false := by simpa using hpc
        rw [fin_of_ne (by simp)]
        simp [SDec.step, h3, hop, hl]
      · rw [fin_of_ne (by simp), pull_total]
        have := hi.hok
        simp only [HOK, h3] at this
        exact ⟨⟨by simp, hi.inv.tbuf, by simp, by simp, by simp, by simp, by simp, by simp⟩, by simpa [HOK] using this, trivial⟩
    · obtain ⟨d1, j, hj, hf, hme, hh, hst, hpl, hgo⟩ := step_feed d ⟨total s, 0, true⟩ hi.inv hi.hok hr hg
      have hsame := step_same (zeroEnd k) rfl d ⟨total s, 0, true⟩ ⟨total s, []⟩ hi.inv
        ⟨rfl, rfl, by rw [if_neg (fun h => hg (Or.inl h))]; rfl⟩ hi.clean
      rw [step_zeroEnd k d ⟨total s, []⟩ (Or.inl h1)] at hsame
      have hlike := step_like k d s h2 h1 h3
      have hnp : d1.st ≠ .payload := by
        intro hp
        have hx : (fin true ((total s).drop j) d1).st = .payload := by rw [fin_of_ne (by simp [hp])]; exact hp
        exact step_not_payload hg h1 h2 h3 hst hx
      rw [hst] at hsame
      obtain ⟨eof, he, -, hcl⟩ := hsame
      rw [he] at hlike
      cases hs : SDec.step k d s with
      | error e => rw [hs] at hlike; exact hlike.elim
      | ok x =>
        obtain ⟨d', s', eof'⟩ := x
        rw [hs] at hlike
        obtain ⟨e1, e2, e3⟩ := hlike
        subst e1 e2
        rw [total_one, remainder_add, hrem] at e3
        simp only at hcl hst
        have hr0 : Ctx.remainder ⟨total s, 0 + j, true⟩ = (total s).drop j := by simp [Ctx.remainder]
        rw [hr0, hrem] at hcl
        have hnd : (fin true ((total s).drop j) d1).st ≠ .done := by
          unfold fin
          split
          · simp
          · rcases hgo with h | h
            · intro h'; exact h (by simp [h'])
            · simp [h]
        refine ⟨d1, j, s', eof', hj, hf, hme, rfl, e3, ?_, fun h => absurd h hnp, hgo, fun h => absurd h ?_⟩
        rotate_left
        · obtain ⟨n1, n2⟩ := step_not_options hg h1 h2 h3 hst
          unfold fin at n1 n2
          split at n2
          · exact absurd rfl n2
          · rename_i hc; rw [if_neg hc] at n1; exact n1
        rw [e3]
        refine ⟨?_, ?_, hcl hnd⟩
        · rcases step_inv d ⟨total s, 0, true⟩ hi.inv with ⟨e, _⟩ | ⟨d', c', e, hi', _⟩
          · rw [hst] at e; cases e
          · rw [hst] at e; cases e
            exact DInv.move hi' (by simp) (fun _ => rfl) (by rw [hr0]; rfl)
        · unfold fin
          split
          · rename_i hx
            have := hh
            simp only [HOK, hx.2.2.1] at this
            simpa [HOK] using this
          · exact hh

/-- No payload event. -/
def NoPay (evs : List Event) : Prop := ∀ e ∈ evs, ∀ c l, e ≠ .payload c l

theorem NoPay.append {a b : List Event} (ha : NoPay a) (hb : NoPay b) : NoPay (a ++ b) := by
  intro e he
  rcases List.mem_append.1 he with h | h
  · exact ha e h
  · exact hb e h

/-- The event of a step before the payload, compared with the one that sees all bytes that are left. -/
theorem snotify_part (d : Dec) (s : Sb) (hi : DInv d ⟨total s, 0, true⟩) (hp : d.st ≠ .payload) :
    ∃ evs, SDec.notify d s = .ok (s, evs) ∧ NoPay evs ∧ Parts evs (note d (total s) true) ∧
      optsOf evs = (spotNote d s.cur).map Spot.shown := by
  have hone : ∀ e : Event, (∀ c l, e ≠ .payload c l) → NoPay [e] := by
    intro e he x hx; rw [List.mem_singleton.1 hx]; exact he
  cases hs : d.st <;> simp only [SDec.notify, note, Dec.notify, hs]
  case payload => exact absurd hs hp
  case tokenDone =>
    have h8 : d.hdr.tokenLength.toNat ≤ d.tbuf.length := by rw [hi.tbuf]; exact hi.tokenDone hs
    simp only [h8, if_true]
    exact ⟨_, rfl, hone _ (by simp), Parts.refl _, by simp [spotNote, optsOf, hs, Spot.shown, *]⟩
  case options =>
    by_cases hv : d.opt.st = .valueStart
    · by_cases hl : d.holder.length > 0
      · simp only [hv, beq_self_eq_true, if_true, hl]
        refine ⟨_, rfl, hone _ (by simp), .cons ?_ .nil, ?_⟩
        rotate_left
        · simp [spotNote, optsOf, hs, hv, hl, Spot.shown, SDec.optionValue]
          omega
        refine ⟨_, _, rfl, ?_, ?_⟩
        · simp only [SDec.optionValue, Dec.optionValue, Ctx.remainder, List.drop_zero, total]
          split
          · exact take_prefix_append _ _ _
          · exact (List.take_prefix _ _).trans (List.prefix_append _ _)
        · simp only [SDec.optionValue, Dec.optionValue, Ctx.remainder, List.drop_zero, total, decide_eq_true_eq]
          intro h
          have h' : d.opt.length.toNat ≤ s.cur.length := by
            rw [List.length_take] at h; omega
          rw [if_pos (by simp; omega)]
          exact ⟨by simp [List.take_append_of_le_length h'], rfl⟩
      · simp only [hv, beq_self_eq_true, if_true, hl, if_false]
        exact ⟨_, rfl, hone _ (by simp), Parts.refl _, by simp [spotNote, optsOf, hs, Spot.shown, *]⟩
    · simp only [beq_eq_false_iff_ne.2 hv, Bool.false_eq_true, if_false]
      exact ⟨_, rfl, by simp [NoPay], .nil, by simp [spotNote, optsOf, hs, *]⟩
  case headerDone => exact ⟨_, rfl, hone _ (by simp), Parts.refl _, by simp [spotNote, optsOf, hs, Spot.shown, *]⟩
  case optionsStart => exact ⟨_, rfl, hone _ (by simp), Parts.refl _, by simp [spotNote, optsOf, hs, Spot.shown, *]⟩
  case optionsDone => exact ⟨_, rfl, hone _ (by simp), Parts.refl _, by simp [spotNote, optsOf, hs, Spot.shown, *]⟩
  case done => exact ⟨_, rfl, hone _ (by simp), Parts.refl _, by simp [spotNote, optsOf, hs, Spot.shown, *]⟩
  all_goals exact ⟨_, rfl, by simp [NoPay], .nil, by simp [spotNote, optsOf, hs, *]⟩

/-- Prefix the events of a result. -/
def preS (e : List Event) : Except Fault (Dec × List Event) → Except Fault (Dec × List Event)
  | .error x => .error x
  | .ok (d, e') => .ok (d, e ++ e')

theorem preS_preS (a b : List Event) (x : Except Fault (Dec × List Event)) : preS a (preS b x) = preS (a ++ b) x := by
  cases x <;> simp [preS]

theorem toDone_succ {k : SbKind} {d d' : Dec} {s s' : Sb} {evs : List Event} {eof : Bool}
    (h : SDec.stepNotify k d s = .ok (d', s', evs, eof)) (hd : d'.st ≠ .done) (f : Nat) :
    SDec.processToDone k (f + 1) d s = preS evs (SDec.processToDone k f d' s') := by
  simp only [SDec.processToDone, h, beq_eq_false_iff_ne.2 hd, Bool.false_eq_true, if_false]
  cases SDec.processToDone k f d' s' <;> rfl

theorem Going.not_done {d : Dec} (h : Going d) : d.st ≠ .done := fun e => h (by simp [e])
theorem Going.not_payload {d : Dec} (h : Going d) : d.st ≠ .payload := fun e => h (by simp [e])

/-- The rest of a stream is cut where the stream is. -/
def Later (s s' : Sb) : Prop :=
  ∀ r : List UInt8, r.length ≤ (total s').length → firstPart r (s.cur :: s.more) = firstPart r (s'.cur :: s'.more)

/-- `s'` is what is left of the stream `s` after some bytes. -/
def Tail (s s' : Sb) : Prop := ∃ pre x, s.cur :: s.more = pre ++ (x ++ s'.cur) :: s'.more

theorem Tail.refl (s : Sb) : Tail s s := ⟨[], [], rfl⟩

theorem Tail.trans {a b c : Sb} (h : Tail a b) (h2 : Tail b c) : Tail a c := by
  obtain ⟨p, x, h⟩ := h
  obtain ⟨q, y, h2⟩ := h2
  cases q with
  | nil =>
    simp only [List.nil_append, List.cons.injEq] at h2
    exact ⟨p, x ++ y, by rw [h, h2.1, h2.2, List.append_assoc]⟩
  | cons q0 q =>
    simp only [List.cons_append, List.cons.injEq] at h2
    exact ⟨p ++ (x ++ b.cur) :: q, y, by rw [h, h2.2]; simp⟩

theorem tail_drop (c : List UInt8) (m : List (List UInt8)) (j : Nat) : Tail ⟨c, m⟩ ⟨c.drop j, m⟩ :=
  ⟨[], c.take j, by simp⟩

theorem tail_pullFrom (c : List UInt8) (m : List (List UInt8)) : Tail ⟨c, m⟩ (Sb.pullFrom c m) := by
  induction m generalizing c with
  | nil => cases c <;> exact Tail.refl _
  | cons x m ih =>
    cases c with
    | nil =>
      rw [Sb.pullFrom]
      exact Tail.trans ⟨[[]], [], rfl⟩ (ih x)
    | cons b c => exact Tail.refl _

theorem tail_pull (s : Sb) : Tail s s.pull := tail_pullFrom s.cur s.more

theorem firstPart_skip (r : List UInt8) (pre bufs : List (List UInt8)) (h : r.length ≤ bufs.flatten.length) :
    firstPart r (pre ++ bufs) = firstPart r bufs := by
  induction pre with
  | nil => rfl
  | cons c pre ih =>
    rw [List.cons_append, firstPart, if_neg (by rw [List.flatten_append, List.length_append]; omega), ih]

theorem Tail.later {s s' : Sb} (h : Tail s s') : Later s s' := by
  obtain ⟨p, x, h⟩ := h
  intro r hr
  unfold total at hr
  rw [h, firstPart_skip _ _ _ (by rw [List.length_append] at hr; rw [List.flatten_cons, List.length_append, List.length_append]; omega), firstPart, firstPart]

theorem bumpc_tail (k : SbKind) (s : Sb) : Tail s (s.bumpc k).2 := by
  unfold Sb.bumpc
  cases h : s.pull.cur with
  | nil => exact tail_pull s
  | cons b r =>
    refine (tail_pull s).trans ?_
    exact ⟨[], [b], by simp only [h]; rfl⟩

theorem headerLoop_tail (k : SbKind) (f : Nat) (d : Dec) (s : Sb) {d' : Dec} {s' : Sb} {b : Bool}
    (h : SDec.headerLoop k f d s = .ok (d', s', b)) : Tail s s' := by
  induction f generalizing d s with
  | zero => cases h
  | succ f ih =>
    have h1 := bumpc_tail k s
    rw [SDec.headerLoop] at h
    cases hb : s.bumpc k with
    | mk o s1 =>
      rw [hb] at h h1
      simp only at h h1
      cases o with
      | none => cases h; exact h1
      | some x =>
        simp only at h
        cases hw : Dec.writeHeader d.hdr d.hpos x with
        | error e => rw [hw] at h; cases h
        | ok hdr =>
          rw [hw] at h
          simp only at h
          split at h
          · cases h; exact h1
          · exact h1.trans (ih _ _ h)

theorem tokenLoop_tail (k : SbKind) (f : Nat) (d : Dec) (s : Sb) {d' : Dec} {s' : Sb} {b : Bool}
    (h : SDec.tokenLoop k f d s = .ok (d', s', b)) : Tail s s' := by
  induction f generalizing d s with
  | zero => cases h
  | succ f ih =>
    have h1 := bumpc_tail k s
    rw [SDec.tokenLoop] at h
    cases hb : s.bumpc k with
    | mk o s1 =>
      rw [hb] at h h1
      simp only at h h1
      cases o with
      | none => cases h; exact h1
      | some x =>
        simp only at h
        cases hw : writeAt d.tbuf d.tpos.toNat x with
        | none => rw [hw] at h; cases h
        | some hdr =>
          rw [hw] at h
          simp only at h
          split at h
          · cases h; exact h1
          · exact h1.trans (ih _ _ h)

theorem optProcess_tail (k : SbKind) (o : OptDec) (h : Holder) (s : Sb) {o' : OptDec} {h' : Holder} {s' : Sb}
    (e : SDec.optProcess k o h s = .ok (o', h', s')) : Tail s s' := by
  unfold SDec.optProcess at e
  split at e
  · split at e
    · cases e
    · split at e
      · cases e
      · cases e; exact Tail.refl _
  · split at e
    · cases e
    · cases e
      exact tail_drop s.cur s.more _

/-- One step of the decoder. -/
theorem step_tail (k : SbKind) (d : Dec) (s : Sb) {d' : Dec} {s' : Sb} {b : Bool}
    (e : SDec.step k d s = .ok (d', s', b)) : Tail s s' := by
  have base : Tail s s.pull := tail_pull s
  unfold SDec.step at e
  cases hs : d.st <;> simp only [hs] at e
  case optionsDone =>
    split at e
    · cases e; exact base
    · split at e
      · cases e; exact base
      · split at e
        · cases e
          exact base.trans (tail_drop s.pull.cur s.pull.more 1)
        · cases e; exact base
  case header =>
    cases hl : SDec.headerLoop k 5 d s.pull with
    | error x => rw [hl] at e; cases e
    | ok x => rw [hl] at e; cases e; exact base.trans (headerLoop_tail k 5 d _ hl)
  case token =>
    cases hl : SDec.tokenLoop k 17 d s.pull with
    | error x => rw [hl] at e; cases e
    | ok x => rw [hl] at e; cases e; exact base.trans (tokenLoop_tail k 17 d _ hl)
  case headerDone => split at e <;> (cases e; exact base)
  case optionsStart =>
    split at e
    · cases e; exact base
    · cases hl : SDec.optProcess k { d.opt with st := .firstByte } ⟨0, 0⟩ s.pull with
      | error x => rw [hl] at e; cases e
      | ok x => rw [hl] at e; cases e; exact base.trans (optProcess_tail k _ _ _ hl)
  case options =>
    cases hl : SDec.optProcess k d.opt d.holder s.pull with
    | error x => rw [hl] at e; cases e
    | ok x =>
      obtain ⟨o, h, s1⟩ := x
      have h2 : Tail s s1.pull := (base.trans (optProcess_tail k _ _ _ hl)).trans (tail_pull s1)
      rw [hl] at e
      simp only at e
      split at e
      · cases e; exact h2
      · split at e <;> (cases e; exact h2)
  all_goals (cases e; exact base)

/-- The option of a step, and those after it. -/
theorem spots_step {d d1 : Dec} {s s1 : Sb} (hl : Later s s1) (hf : spots d (total s) = spotNote d1 (total s1) ++ spots d1 (total s1))
    (hv : d1.st = .options → d1.opt.st = .valueStart → s1.cur ≠ []) :
    ((spots d (total s)).map fun sp => (sp.cut (s.cur :: s.more)).shown) =
      (spotNote d1 s1.cur).map Spot.shown ++ (spots d1 (total s1)).map fun sp => (sp.cut (s1.cur :: s1.more)).shown := by
  rw [hf, List.map_append]
  congr 1
  · unfold spotNote
    split
    · rename_i h
      have hc := List.length_pos_iff.2 (hv h.1 h.2)
      simp only [List.map_cons, List.map_nil, Spot.cut]
      rw [hl _ (Nat.le_refl _)]
      have : firstPart (total s1) (s1.cur :: s1.more) = s1.cur := by
        rw [firstPart, total, List.length_append, if_pos (by omega)]
        simp
      rw [this]
    · rfl
  · refine List.map_congr_left fun sp hsp => ?_
    rw [Spot.cut, Spot.cut, hl _ (spots_rest d1 _ sp hsp).2]

/-- All segments up to the payload: the stream decoder does what `feed` says about all bytes together, except that
an option value may be cut. -/
theorem seg_run (k : SbKind) (d : Dec) (s : Sb) (hi : SegInv k d (total s)) (hg : Going d)
    (hr : total s ≠ []) :
    ((feed true d (total s)).2.1.st ≠ .payload ∧ ∃ n evs s', total s' = [] ∧ NoPay evs ∧
      (optsOf evs = (spots d (total s)).map fun sp => (sp.cut (s.cur :: s.more)).shown) ∧
      Parts evs ((feed true d (total s)).1 ++ finEv true [] (feed true d (total s)).2.1) ∧
      SegInv k (fin true [] (feed true d (total s)).2.1) [] ∧
      ∀ f, SDec.processToDone k (n + f) d s = preS evs (SDec.processToDone k f (fin true [] (feed true d (total s)).2.1) s')) ∨
    ((feed true d (total s)).2.1.st = .payload ∧ ∃ n front ffront s',
      (feed true d (total s)).1 = ffront ++ [.payload (feed true d (total s)).2.2 true] ∧ NoPay front ∧
      (optsOf front = (spots d (total s)).map fun sp => (sp.cut (s.cur :: s.more)).shown) ∧ Parts front ffront ∧ Tail s s' ∧
      total s' = (feed true d (total s)).2.2 ∧ s'.cur ≠ [] ∧
      ∀ f, SDec.processToDone k (n + f) d s = preS (front ++ [.payload s'.cur (s'.more.all (·.isEmpty))])
        (SDec.processToDone k f (feed true d (total s)).2.1 ⟨[], s'.more⟩)) := by
  generalize hm : meas d (total s) = m
  induction m using Nat.strongRecOn generalizing d s with
  | ind m ih =>
    obtain ⟨d1, j, s1, eof, hj, hf, hme, hst, ht, hi1, hpp, hgo, hvc⟩ := sstep_feed k d s hi hr hg
    obtain ⟨hf, hfs⟩ := hf
    rw [← ht] at hfs
    rw [hf]
    rcases hgo with hgo | hpay
    · by_cases hr1 : (total s).drop j = []
      · -- the end
        left
        rw [hr1] at hst ht hi1 ⊢
        rw [feed_nil]
        have hnp : (fin true [] d1).st ≠ .payload := by
          unfold fin; split
          · simp
          · exact hgo.not_payload
        have hnd : (fin true [] d1).st ≠ .done := by
          unfold fin; split
          · simp
          · exact hgo.not_done
        obtain ⟨evs, e, hn, hp, hop⟩ := snotify_part _ s1 hi1.inv hnp
        have hl := (step_tail k d s hst).later
        refine ⟨hgo.not_payload, 1, evs, s1, ht, hn, ?_, ?_, ?_, fun f => ?_⟩
        · rw [spots_step hl hfs hvc, ht, spots_nil, hop, List.map_nil, List.append_nil]
          unfold fin
          split
          · rename_i hx; simp [spotNote, hx]
          · rfl
        · rw [ht, note_fin] at hp
          simpa using hp
        · rw [ht] at hi1; exact hi1
        · rw [Nat.add_comm]
          exact toDone_succ (eof := eof) (by simp only [SDec.stepNotify, hst, e]) hnd f
      · rw [fin_of_r hr1] at hst hi1
        obtain ⟨evs, e, hn, hp, hop⟩ := snotify_part _ s1 hi1.inv hgo.not_payload
        have hstep : ∀ f, SDec.processToDone k (f + 1) d s = preS evs (SDec.processToDone k f d1 s1) := fun f =>
          toDone_succ (eof := eof) (by simp only [SDec.stepNotify, hst, e]) hgo.not_done f
        rw [← ht] at hr1 hme ⊢
        have hl := (step_tail k d s hst).later
        rcases ih _ (by omega) d1 s1 hi1 hgo hr1 rfl with ⟨h1, n, evs2, s2, a1, a2, ao, a3, a4, a5⟩ | ⟨h1, n, fr, ffr, s2, a1, a2, ao, a3, a3', a4, a5, a6⟩
        · left
          refine ⟨h1, n + 1, evs ++ evs2, s2, a1, hn.append a2, ?_, ?_, a4, fun f => ?_⟩
          · rw [optsOf_append, hop, ao, spots_step hl hfs hvc]
          · rw [List.append_assoc]; exact hp.append a3
          · rw [show n + 1 + f = (n + f) + 1 by omega, hstep, a5, preS_preS]
        · right
          refine ⟨h1, n + 1, evs ++ fr, note d1 (total s1) true ++ ffr, s2, ?_, hn.append a2, ?_, hp.append a3, (step_tail k d s hst).trans a3', a4, a5, fun f => ?_⟩
          · simp only [a1, List.append_assoc]
          · rw [optsOf_append, hop, ao, spots_step hl hfs hvc]
          · rw [show n + 1 + f = (n + f) + 1 by omega, hstep, a6, preS_preS, List.append_assoc]
    · right
      have hs1 := hpp hpay
      subst hs1
      rw [fin_of_ne (by simp [hpay])] at hst hi1
      rw [pull_total] at ht
      rw [← ht, feed_stop true d1 _ (by simp [Going, hpay])]
      refine ⟨hpay, 1, [], [], s.pull, by simp [note, Dec.notify, hpay, Ctx.remainder], by simp [NoPay], ?_, .nil, tail_pull s, pull_total s,
        fun h => hr ((pull_nil_iff s).1 h), fun f => ?_⟩
      · rw [hfs, spots_stop d1 _ (by simp [Going, hpay])]
        simp [spotNote, hpay, optsOf]
      rw [Nat.add_comm]
      exact toDone_succ (eof := eof) (by simp only [SDec.stepNotify, hst, SDec.notify, hpay]; rfl) (by simp [hpay]) f

/-- The payload events of the segments after the first one. -/
def pays : List (List UInt8) → List Event
  | [] => []
  | x :: m => if x.isEmpty then pays m else .payload x (m.all (·.isEmpty)) :: pays m

theorem payload_phase (k : SbKind) (d : Dec) (hd : d.st = .payload) (more : List (List UInt8)) :
    ∃ n d', d'.st = .done ∧ ∀ f, SDec.processToDone k (n + f) d ⟨[], more⟩ = .ok (d', pays more ++ [.completed]) := by
  induction more with
  | nil =>
    refine ⟨2, { d with st := .done }, rfl, fun f => ?_⟩
    rw [show 2 + f = (f + 1) + 1 by omega]
    simp [SDec.processToDone, SDec.stepNotify, SDec.step, SDec.notify, hd, Sb.pull, Sb.pullFrom, pays]
  | cons x m ih =>
    obtain ⟨n, d', h1, h2⟩ := ih
    cases x with
    | nil =>
      refine ⟨n, d', h1, fun f => ?_⟩
      have : pays ([] :: m) = pays m := by simp [pays]
      rw [this, ← h2 f]
      cases hnf : n + f with
      | zero => rfl
      | succ g =>
        have hp : (⟨[], [] :: m⟩ : Sb).pull = (⟨[], m⟩ : Sb).pull := by simp [Sb.pull, Sb.pullFrom]
        simp only [SDec.processToDone, SDec.stepNotify, SDec.step, hp]
    | cons b x =>
      refine ⟨n + 1, d', h1, fun f => ?_⟩
      rw [show n + 1 + f = (n + f) + 1 by omega]
      have hst : SDec.stepNotify k d ⟨[], (b :: x) :: m⟩ = .ok (d, ⟨[], m⟩, [.payload (b :: x) (m.all (·.isEmpty))], false) := by
        have hdd : ({ d with st := .payload } : Dec) = d := by rw [← hd]
        simp [SDec.stepNotify, SDec.step, SDec.notify, hd, Sb.pull, Sb.pullFrom, hdd]
      rw [toDone_succ hst (by simp [hd]), h2 f]
      simp [pays, preS]

end Verif.Proofs
