import Verif.Proofs.Legacy

/-! # Runs of the older dispatch -/
namespace Verif.Proofs
open Verif.Model Verif.Spec Header Dec

/-- What is still owed (`X`) when the decoder is in state `d` and `rest` is the rest of the message. -/
def Owed (d : Dec) (rest : List UInt8) (X : List LEvent) : Prop :=
  (d.st = .payload ∧ X = [.payload rest true, .complete]) ∨
  (d.st = .options ∧ d.opt.st = .optionValue ∧ d.holder.length = d.opt.valueLength ∧ 0 < d.opt.valueLength.toNat ∧
    X = (if rest = [] then []
      else [.value d.holder.number (rest.take d.opt.valueLength.toNat) (decide (d.opt.valueLength.toNat ≤ rest.length))]) ++
      lfeed d rest) ∨
  (Going d ∧ ¬ (d.st = .options ∧ d.opt.st = .optionValue) ∧ X = lfeed d rest)

theorem setLen_dinv {d : Dec} {c : Ctx} (x : UInt16) (h : DInv d c) : DInv (setLen d x) c :=
  ⟨h.pos, h.tbuf, h.header, h.tokenStart, h.token, h.tokenDone, h.options, h.optionsDone⟩

theorem fin_opt (l : Bool) (r : List UInt8) (d : Dec) : (fin l r d).opt = d.opt ∧ (fin l r d).holder = d.holder := by
  unfold fin; split <;> exact ⟨rfl, rfl⟩

theorem setLen_quiet {d d1 : Dec} {r r1 : List UInt8} (x : UInt16) (q : Quiet (setLen d x) r d1 r1) (f : List UInt8) :
    lfeed d (r ++ f) = lnote d (r ++ f) ++ lfeed d1 (r1 ++ f) := by
  rw [← lfeed_setLen d x, quiet_lfeed q, lnote_setLen]

/-- Calls after which nothing is left to be joined, or which came at the end of the buffer. -/
def AllJoined (evs : List LEvent) (r : List UInt8) : Prop :=
  (r ≠ [] → ∀ Z, evs.foldr glueCons Z = evs ++ Z) ∧ evs.foldr glueCons [] = evs

/-- One pass of the dispatch loop with bytes left and the payload not yet reached. -/
theorem iterate_going (d : Dec) (c : Ctx) (fut : List UInt8) (X : List LEvent) (hj : Owed d (c.remainder ++ fut) X)
    (hg : Going d) (hl : LInv d) (hi : DInv d c) (hh : HOK d (c.remainder ++ fut)) (hr : c.remainder ≠ []) :
    ∃ d1 k evs X', k ≤ c.remainder.length ∧
      d.legacyIterate c = .ok (fin c.last (c.remainder.drop k) d1, { c with pos := c.pos + k }, evs) ∧
      X = evs.foldr glueCons X' ∧ Owed d1 (c.remainder.drop k ++ fut) X' ∧ LInv d1 ∧
      HOK d1 (c.remainder.drop k ++ fut) ∧ meas d1 (c.remainder.drop k) < meas d c.remainder ∧
      (d1.st = .payload → c.remainder.drop k ≠ []) ∧ (Going d1 ∨ d1.st = .payload) ∧
      DInv (fin c.last (c.remainder.drop k) d1) { c with pos := c.pos + k } ∧
      (d1.st = .options → c.remainder.drop k = [] → d1.opt.st ≠ .valueStart) ∧ LEvent.complete ∉ evs ∧
      AllJoined evs (c.remainder.drop k) := by
  have hh' : HOK d c.remainder := hh.left hr
  by_cases hval : d.st = .options ∧ (d.opt.st = .optionValue ∨ (d.opt.st = .valueStart ∧ d.opt.length ≠ 0))
  · -- inside an option value
    obtain ⟨hs, ho⟩ := hval
    obtain ⟨pre, V, hV0, hlen, hV, hpre, hX⟩ : ∃ (pre : List LEvent) (V : Nat), 0 < V ∧ d.holder.length.toNat = V ∧
        ((d.opt.st = .optionValue ∧ d.opt.valueLength.toNat = V) ∨ (d.opt.st = .valueStart ∧ d.opt.length.toNat = V)) ∧
        ((pre = [] ∧ d.opt.st = .optionValue) ∨ (pre = [.option d.holder.number d.holder.length] ∧ d.opt.st = .valueStart)) ∧
        (∀ d1 r1, (∃ y, Quiet (setLen d y) c.remainder d1 r1) →
          X = pre ++ .value d.holder.number ((c.remainder ++ fut).take V) (decide (V ≤ (c.remainder ++ fut).length)) :: lfeed d1 (r1 ++ fut)) := by
      have hne : c.remainder ++ fut ≠ [] := by simp [hr]
      rcases ho with ho | ⟨ho, h0⟩
      · rcases hj with ⟨h, -⟩ | ⟨-, -, h1, h2, h3⟩ | ⟨-, h, -⟩
        · simp [hs] at h
        · refine ⟨[], d.opt.valueLength.toNat, h2, by rw [h1], Or.inl ⟨ho, rfl⟩, Or.inl ⟨rfl, ho⟩, ?_⟩
          rintro d1 r1 ⟨y, q⟩
          rw [h3, if_neg hne, setLen_quiet y q]
          simp [lnote, hs, ho]
        · exact absurd ⟨hs, ho⟩ h
      · have hL : d.holder.length = d.opt.length := by have := hl.2.1 hs; simpa [ho] using this
        rcases hj with ⟨h, -⟩ | ⟨-, h, -⟩ | ⟨-, -, h3⟩
        · simp [hs] at h
        · simp [ho] at h
        · refine ⟨[.option d.holder.number d.holder.length], d.opt.length.toNat, ?_, by rw [hL], Or.inr ⟨ho, rfl⟩, Or.inr ⟨rfl, ho⟩, ?_⟩
          · apply Nat.pos_of_ne_zero; intro h; exact h0 (UInt16.toNat_inj.1 h)
          · rintro d1 r1 ⟨y, q⟩
            rw [h3, setLen_quiet y q]
            simp [lnote, hs, ho, h0, hL]
    -- the state after the report
    have hl0 : d.holder.length ≠ 0 := by intro h; rw [h] at hlen; simp at hlen; omega
    obtain ⟨y, hdis⟩ : ∃ y, d.legacyDispatch c = .ok (pre ++ [if c.remainder.length < V then .value d.holder.number c.remainder false
        else .value d.holder.number (c.remainder.take V) true], setLen d y) ∧
        (c.remainder.length < V → y.toNat = V - c.remainder.length) := by
      by_cases hlt : c.remainder.length < V
      · refine ⟨d.holder.length - UInt16.ofNat c.remainder.length, ?_, fun _ => ?_⟩
        · rcases hpre with ⟨rfl, ho⟩ | ⟨rfl, ho⟩ <;> simp [legacyDispatch, hs, legacyOption, ho, legacyValue, hlen, hlt, setLen, hl0]
        · have : V < 65536 := by rw [← hlen]; exact UInt16.toNat_lt _
          have h2 : (UInt16.ofNat c.remainder.length).toNat = c.remainder.length := by
            simp only [UInt16.toNat_ofNat']; omega
          rw [UInt16.toNat_sub_of_le _ _ (by rw [UInt16.le_iff_toNat_le, h2, hlen]; omega), h2, hlen]
      · refine ⟨d.holder.length, ?_, fun h => absurd h hlt⟩
        have hsl : setLen d d.holder.length = d := rfl
        rw [hsl]
        rcases hpre with ⟨rfl, ho⟩ | ⟨rfl, ho⟩ <;> simp [legacyDispatch, hs, legacyOption, ho, legacyValue, hlen, hlt, hl0]
    obtain ⟨hdis, hy⟩ := hdis
    have hgs : Going (setLen d y) := hg
    obtain ⟨d1, k, hk, hq, hm, -, hst, hpl, hgo, -, hnv⟩ := step_quiet (setLen d y) c (setLen_dinv y hi) hh' hr hgs
    obtain ⟨o', s', hst', hc1, hc2, hss⟩ := step_value (setLen d y) c V hs hi.pos hr hV0 hV
    have hX := hX d1 _ ⟨y, hq⟩
    have hd1 : DInv (fin c.last (c.remainder.drop k) d1) { c with pos := c.pos + k } := by
      rcases step_inv (setLen d y) c (setLen_dinv y hi) with ⟨h, -⟩ | ⟨d', c', h, h', -⟩
      · rw [hst] at h; cases h
      · rw [hst] at h; cases h; exact h'
    have heq : k = min V c.remainder.length ∧ fin c.last (c.remainder.drop k) d1 = { setLen d y with opt := o', st := s' } := by
      rw [hst'] at hst
      simp only [Except.ok.injEq, Prod.mk.injEq, Ctx.mk.injEq] at hst
      exact ⟨by omega, hst.1.symm⟩
    obtain ⟨hkv, hfin⟩ := heq
    have hopt : d1.opt = o' := by rw [← (fin_opt c.last (c.remainder.drop k) d1).1, hfin]
    have hhol : d1.holder = (setLen d y).holder := by rw [← (fin_opt c.last (c.remainder.drop k) d1).2, hfin]
    have hhdr : d1.hdr = d.hdr := by
      have : (fin c.last (c.remainder.drop k) d1).hdr = d1.hdr := by unfold fin; split <;> rfl
      rw [← this, hfin]; rfl
    have hd1s : d1.st = .options ∨ d1.st = .optionsDone := by
      by_cases h : fin c.last (c.remainder.drop k) d1 = d1
      · rw [h] at hfin; rw [hfin]; exact hss
      · left; unfold fin at h; split at h
        · rename_i h'; exact h'.2.2.1
        · exact absurd rfl h
    have hos : o'.st = .optionValue ∨ o'.st = .optionValueDone := by
      by_cases hlt : c.remainder.length < V
      · exact Or.inl (hc1 hlt).1
      · exact Or.inr (hc2 (by omega))
    have hl1 : LInv d1 := by
      refine ⟨fun h => ?_, fun h => ?_, fun h => ?_, fun h => by rw [hopt]; rcases hos with h' | h' <;> simp [h']⟩
      · rw [hopt]; rcases hos with h' | h' <;> simp [OInv, h']
      · rw [hopt]; rcases hos with h' | h' <;> simp [h']
      · rcases hd1s with h' | h' <;> simp [h'] at h
    have hhk : HOK d1 (c.remainder.drop k ++ fut) := by
      have : d.hdr.tokenLength.toNat ≤ 8 := by simpa [HOK, hs] using hh
      rcases hd1s with h' | h' <;> simp [HOK, h', hhdr, this]
    by_cases hlt : c.remainder.length < V
    · have hkl : k = c.remainder.length := by omega
      have hdrop : c.remainder.drop k = [] := by rw [hkl]; simp
      obtain ⟨e1, e2, e3⟩ := hc1 hlt
      have hst1 : d1.st = .options := by
        rcases hd1s with h | h
        · exact h
        · rw [fin_of_ne (by simp [h])] at hfin
          rw [hfin] at h; simp [e3] at h
      have hvl : d1.holder.length = d1.opt.valueLength := by
        apply UInt16.toNat_inj.1
        rw [hopt, e2, hhol]; exact hy hlt
      refine ⟨d1, k, pre ++ [if c.remainder.length < V then .value d.holder.number c.remainder false
        else .value d.holder.number (c.remainder.take V) true], (if fut = [] then []
        else [.value d1.holder.number (fut.take d1.opt.valueLength.toNat) (decide (d1.opt.valueLength.toNat ≤ fut.length))]) ++ lfeed d1 fut,
        hk, by simp only [legacyIterate, hdis, hst], ?_, ?_, hl1, hhk, hm, hpl, hgo, hd1, hnv, ?_⟩
      · rw [hX, hdrop, if_pos hlt, hopt, e2]
        have hn : d1.holder.number = d.holder.number := by rw [hhol]; rfl
        have tail : ∀ Y Z, Y :: Z = glueCons (.value d.holder.number c.remainder false)
            ((if fut = [] then []
              else [.value d1.holder.number (fut.take (V - c.remainder.length)) (decide (V - c.remainder.length ≤ fut.length))]) ++ lfeed d1 fut) →
            pre ++ Y :: Z = List.foldr glueCons ((if fut = [] then []
              else [.value d1.holder.number (fut.take (V - c.remainder.length)) (decide (V - c.remainder.length ≤ fut.length))]) ++ lfeed d1 fut)
              (pre ++ [.value d.holder.number c.remainder false]) := by
          intro Y Z h
          rcases hpre with ⟨rfl, -⟩ | ⟨rfl, -⟩
          · simpa using h
          · simp only [List.foldr, List.cons_append, List.nil_append]
            rw [← h]; rfl
        apply tail
        by_cases hf : fut = []
        · subst hf
          simp [lfeed_nil, glueCons, List.take_of_length_le (Nat.le_of_lt hlt), hlt]
        · have a1 : (c.remainder ++ fut).take V = c.remainder ++ fut.take (V - c.remainder.length) := by
            rw [List.take_append, List.take_of_length_le (Nat.le_of_lt hlt)]
          have a2 : (V ≤ (c.remainder ++ fut).length) ↔ V - c.remainder.length ≤ fut.length := by
            rw [List.length_append]; omega
          simp [hf, glueCons, hn, a1, decide_eq_decide.mpr a2]
          omega
      · right; left
        refine ⟨hst1, by rw [hopt, e1], hvl, by rw [hopt, e2]; omega, by rw [hdrop]; rfl⟩
      · rcases hpre with ⟨rfl, -⟩ | ⟨rfl, -⟩ <;> simp [hlt, AllJoined, hdrop, glueCons]
    · have hkl : k = V := by omega
      refine ⟨d1, k, pre ++ [if c.remainder.length < V then .value d.holder.number c.remainder false
        else .value d.holder.number (c.remainder.take V) true], lfeed d1 (c.remainder.drop k ++ fut),
        hk, by simp only [legacyIterate, hdis, hst], ?_, ?_, hl1, hhk, hm, hpl, hgo, hd1, hnv, ?_⟩
      · rw [hX, if_neg hlt, List.take_append_of_le_length (by omega)]
        have a2 : decide (V ≤ (c.remainder ++ fut).length) = true := by
          simp only [List.length_append, decide_eq_true_eq]; omega
        rw [a2]
        rcases hpre with ⟨rfl, -⟩ | ⟨rfl, -⟩ <;> simp [glueCons]
      · right; right
        refine ⟨by rcases hd1s with h | h <;> simp [Going, h], ?_, rfl⟩
        rw [hopt, hc2 (by omega)]; simp
      · rcases hpre with ⟨rfl, -⟩ | ⟨rfl, -⟩ <;> simp [hlt, AllJoined, glueCons]
  · obtain ⟨d1, k, hk, hq, hm, -, hst, hpl, hgo, -, hnv⟩ := step_quiet d c hi hh' hr hg
    have hd1 : DInv (fin c.last (c.remainder.drop k) d1) { c with pos := c.pos + k } := by
      rcases step_inv d c hi with ⟨h, -⟩ | ⟨d', c', h, h', -⟩
      · rw [hst] at h; cases h
      · rw [hst] at h; cases h; exact h'
    have hX : X = lnote d (c.remainder ++ fut) ++ lfeed d1 (c.remainder.drop k ++ fut) := by
      rcases hj with ⟨h, -⟩ | ⟨h1, h2, -⟩ | ⟨-, -, h3⟩
      · exact absurd (Or.inl h) hg
      · exact absurd ⟨h1, Or.inl h2⟩ hval
      · rw [h3, quiet_lfeed hq]
    have hdis : d.legacyDispatch c = .ok (lnote d (c.remainder ++ fut), d) := by
      cases hs : d.st <;> simp only [legacyDispatch, lnote, hs]
      case tokenDone =>
        have h8 : d.hdr.tokenLength.toNat ≤ 8 := by simpa [HOK, hs] using hh
        by_cases h0 : d.hdr.tokenLength = 0
        · simp [legacyToken, h0]
        · have := hi.tbuf
          have h9 : d.hdr.tokenLength.toNat ≤ d.tbuf.length := by omega
          simp [legacyToken, h0, h9]
      case options =>
        cases ho : d.opt.st <;> simp [legacyOption, ho]
        case valueStart =>
          have h0 : d.opt.length = 0 := by
            by_cases h : d.opt.length = 0
            · exact h
            · exact absurd ⟨hs, Or.inr ⟨ho, h⟩⟩ hval
          have hL : d.holder.length = d.opt.length := by have := hl.2.1 hs; simpa [ho] using this
          simp [hL, h0]
        case optionValue => exact absurd ⟨hs, Or.inl ho⟩ hval
      case payload => exact absurd (Or.inl hs) hg
      case done => exact absurd (Or.inr (Or.inr hs)) hg
    refine ⟨d1, k, lnote d (c.remainder ++ fut), lfeed d1 (c.remainder.drop k ++ fut), hk, by simp only [legacyIterate, hdis, hst], ?_, ?_,
      quiet_linv hq hl, quiet_hok hq fut hl hh, hm, hpl, hgo, hd1, hnv, ?_⟩
    · rw [hX]
      cases hs : d.st <;> simp only [lnote, hs]
      case headerDone => simp [glueCons]
      case tokenDone => split <;> simp [glueCons]
      case options =>
        by_cases ho : d.opt.st = .valueStart
        · have h0 : d.opt.length = 0 := by
            by_cases h : d.opt.length = 0
            · exact h
            · exact absurd ⟨hs, Or.inr ⟨ho, h⟩⟩ hval
          simp [ho, h0, glueCons]
        · simp [ho]
      all_goals rfl
    · rcases hgo with hgo | hgo
      · right; right
        refine ⟨hgo, fun h => hval ?_, rfl⟩
        exact quiet_value hq hl h.1 h.2
      · left
        exact ⟨hgo, lfeed_payload _ _ hgo (by simp [hpl hgo])⟩
    · cases hs : d.st <;> simp only [lnote, hs]
      case tokenDone => split <;> simp [AllJoined, glueCons]
      case options =>
        by_cases ho : d.opt.st = .valueStart
        · have h0 : d.opt.length = 0 := by
            by_cases h : d.opt.length = 0
            · exact h
            · exact absurd ⟨hs, Or.inr ⟨ho, h⟩⟩ hval
          simp [ho, h0, AllJoined, glueCons]
        · simp [ho, AllJoined]
      all_goals simp [AllJoined, glueCons]

theorem remainder_at (c : Ctx) (k : Nat) (hp : c.pos ≤ c.chunk.length) (hk : k ≤ c.remainder.length) :
    ({ c with pos := c.pos + k } : Ctx).remainder = c.remainder.drop k ∧
    (c.remainder.drop k = [] → c.pos + k = c.chunk.length) ∧ (c.remainder.drop k ≠ [] → c.pos + k ≠ c.chunk.length) := by
  have hlen : c.remainder.length = c.chunk.length - c.pos := by simp [Ctx.remainder]
  refine ⟨by simp [Ctx.remainder, List.drop_drop], fun h => ?_, fun h h' => h ?_⟩
  · have := List.drop_eq_nil_iff.mp h; omega
  · apply List.drop_eq_nil_of_le; omega

/-- Inside `dispatch` the buffer is never left in the middle of announcing an option. -/
def Between (d : Dec) : Prop := d.st = .options → d.opt.st ≠ .valueStart

/-- What a call of `dispatch` leaves for the next one. -/
def Left (d : Dec) (c : Ctx) (fut : List UInt8) (X : List LEvent) : Prop :=
  Owed d fut X ∧ DInv d c ∧ HOK d fut ∧ LInv d ∧ Between d

theorem owed_nil {d : Dec} {X : List LEvent} (h : Owed d [] X) (hg : Going d) : X = [] := by
  rcases h with ⟨h, -⟩ | ⟨-, -, -, -, h⟩ | ⟨-, -, h⟩
  · exact absurd (Or.inl h) hg
  · simpa [lfeed_nil] using h
  · simpa [lfeed_nil] using h

theorem fin_last {l : Bool} {r : List UInt8} {d : Dec} (h : l = false) : fin l r d = d := by simp [fin, h]

theorem complete_of_glue {evs X : List LEvent} (h : LEvent.complete ∈ evs.foldr glueCons X) (hc : LEvent.complete ∉ evs) :
    LEvent.complete ∈ X := by
  induction evs with
  | nil => exact h
  | cons e es ih =>
    apply ih _ (fun h' => hc (by simp [h']))
    have he : e ≠ .complete := fun h' => hc (by simp [h'])
    simp only [List.foldr] at h
    revert h
    generalize es.foldr glueCons X = Z
    unfold glueCons
    split
    · split <;> simp
    · simp
    · simp [he.symm]

theorem legacy_chunk (n : Nat) : ∀ (d : Dec) (c : Ctx) (fut : List UInt8) (X : List LEvent), meas d c.remainder < n →
    Owed d (c.remainder ++ fut) X → LInv d → DInv d c → HOK d (c.remainder ++ fut) → (c.last = true → fut = []) →
    ((c.remainder ≠ [] ∧ Going d) ∨ d.st = .payload) →
    ∃ N d' evs X', (∀ fuel, N ≤ fuel → legacyRun fuel d c = .ok (d', { c with pos := c.chunk.length }, evs)) ∧
      X = evs.foldr glueCons X' ∧ (c.last = true → X' = [] ∧ (LEvent.complete ∈ X → d'.st = .payloadDone) ∧ evs.foldr glueCons [] = evs ∧ d'.st ≠ .done) ∧
      (c.last = false → Left d' { c with pos := c.chunk.length } fut X' ∧ LEvent.complete ∉ evs ∧ evs.foldr glueCons [] = evs) := by
  induction n with
  | zero => intro d c fut X hm; exact absurd hm (Nat.not_lt_zero _)
  | succ n ih =>
    intro d c fut X hm hj hl hi hh hlast hne
    rcases hne with ⟨hne, hg⟩ | hp
    · obtain ⟨d1, k, evs, X', hk, e, hX, hj1, hl1, hh1, hm1, hpl, hgo, hd1, hnv, hcm, hplain⟩ := iterate_going d c fut X hj hg hl hi hh hne
      obtain ⟨ra, rb, rc⟩ := remainder_at c k hi.pos hk
      by_cases hend : c.remainder.drop k = []
      · have hpos := rb hend
        have hg1 : Going d1 := by
          rcases hgo with h | h
          · exact h
          · exact absurd hend (hpl h)
        refine ⟨1, fin c.last (c.remainder.drop k) d1, evs, X', fun fuel hf => ?_, hX, fun h => ?_, fun h => ⟨?_, hcm, hplain.2⟩⟩
        · obtain ⟨f, rfl⟩ : ∃ f, fuel = f + 1 := ⟨fuel - 1, by omega⟩
          simp [legacyRun, e, atEnd, hpos]
        · rw [hend, hlast h] at hj1
          have hz := owed_nil hj1 hg1
          refine ⟨hz, fun hcx => ?_, hplain.2, ?_⟩
          rw [hX, hz] at hcx
          exact absurd (complete_of_glue hcx hcm) (by simp)
          unfold fin; split
          · simp
          · exact fun h => hg1 (Or.inr (Or.inr h))
        · rw [hpos] at hd1
          rw [hend] at hj1 hh1
          refine ⟨by rw [fin_last h]; exact hj1, hd1, by rw [fin_last h]; exact hh1, by rw [fin_last h]; exact hl1, ?_⟩
          rw [fin_last h]
          exact fun h' => hnv h' hend
      · have hpos := rc hend
        rw [fin_of_r hend] at e hd1
        obtain ⟨N, d', evs', X'', hrun, hX', hx1, hx2⟩ := ih d1 { c with pos := c.pos + k } fut X' (by rw [ra]; omega)
          (by rw [ra]; exact hj1) hl1 hd1 (by rw [ra]; exact hh1) hlast (by
            rcases hgo with h | h
            · exact Or.inl ⟨by rw [ra]; exact hend, h⟩
            · exact Or.inr h)
        have hnd : d1.st ≠ .done := by
          intro h; rcases hgo with h' | h'
          · exact h' (Or.inr (Or.inr h))
          · simp [h] at h'
        refine ⟨N + 1, d', evs ++ evs', X'', fun fuel hf => ?_, ?_, fun h => ⟨(hx1 h).1, fun hcx => (hx1 h).2.1 (complete_of_glue (hX ▸ hcx) hcm), ?_, (hx1 h).2.2.2⟩, fun h => ?_⟩
        · obtain ⟨f, rfl⟩ : ∃ f, fuel = f + 1 := ⟨fuel - 1, by omega⟩
          rw [legacyRun, e]
          simp only [atEnd, beq_iff_eq, hpos, hnd, Bool.or_eq_true, or_self, if_false]
          rw [hrun f (by omega)]
        · rw [hX, hX', List.foldr_append]
        · rw [List.foldr_append, (hx1 h).2.2.1, hplain.1 hend]
        · obtain ⟨k1, k2, k3⟩ := hx2 h
          exact ⟨k1, by simp [hcm, k2], by rw [List.foldr_append, k3, hplain.1 hend]⟩
    · have hX : X = [.payload (c.remainder ++ fut) true, .complete] := by
        rcases hj with ⟨-, h⟩ | ⟨h, -⟩ | ⟨h, -⟩
        · exact h
        · simp [hp] at h
        · exact absurd (Or.inl hp) h
      cases hcl : c.last
      · refine ⟨1, d, [.payload c.remainder false], [.payload fut true, .complete], fun fuel hf => ?_, ?_, by simp, fun _ => ⟨⟨?_, ?_, ?_, hl, ?_⟩, by simp, by simp [glueCons]⟩⟩
        · obtain ⟨f, rfl⟩ : ∃ f, fuel = f + 1 := ⟨fuel - 1, by omega⟩
          simp only [legacyRun, legacyIterate, legacyDispatch, hp, step, hcl, Bool.false_eq_true, if_false, atEnd, beq_self_eq_true, Bool.true_or, if_true]
          rw [← hp]
        · rw [hX]; simp [glueCons]
        · exact Or.inl ⟨hp, rfl⟩
        · exact ⟨Nat.le_refl _, hi.tbuf, hi.header, hi.tokenStart, hi.token, hi.tokenDone, hi.options, by simp [hp]⟩
        · simpa [HOK, hp] using hh
        · simp [Between, hp]
      · refine ⟨1, { d with st := .payloadDone }, [.payload c.remainder true, .complete], [], fun fuel hf => ?_, ?_, by simp [glueCons], by simp⟩
        · obtain ⟨f, rfl⟩ : ∃ f, fuel = f + 1 := ⟨fuel - 1, by omega⟩
          simp [legacyRun, legacyIterate, legacyDispatch, hp, step, hcl, atEnd]
        · rw [hX, hlast hcl]; simp [glueCons]

/-- A call with an empty buffer that is not the last one. -/
theorem legacy_empty (d : Dec) (fut : List UInt8) (X : List LEvent) (hl : Left d ⟨[], 0, false⟩ fut X)
    (hf : fut ≠ []) (hg : Going d) :
    ∃ d' evs X', (∀ fuel, 1 ≤ fuel → legacyRun fuel d ⟨[], 0, false⟩ = .ok (d', ⟨[], 0, false⟩, evs)) ∧
      X = evs.foldr glueCons X' ∧ Left d' ⟨[], 0, false⟩ fut X' ∧ LEvent.complete ∉ evs := by
  obtain ⟨hj, hi, hh, hlv, hb⟩ := hl
  obtain ⟨b, bs, rfl⟩ := List.exists_cons_of_ne_nil hf
  have run : ∀ d' evs, d.legacyIterate ⟨[], 0, false⟩ = .ok (d', ⟨[], 0, false⟩, evs) →
      ∀ fuel, 1 ≤ fuel → legacyRun fuel d ⟨[], 0, false⟩ = .ok (d', ⟨[], 0, false⟩, evs) := by
    intro d' evs e fuel hf
    obtain ⟨f, rfl⟩ : ∃ f, fuel = f + 1 := ⟨fuel - 1, by omega⟩
    simp [legacyRun, e, atEnd]
  -- a transition which needs no byte
  have move : ∀ d' evs, d.st ≠ .options → d.step ⟨[], 0, false⟩ = .ok (d', ⟨[], 0, false⟩) →
      d.legacyDispatch ⟨[], 0, false⟩ = .ok (evs, d) →
      micro d b = (d', false) → lnote d (b :: bs) = evs → (Going d' ∨ d'.st = .payload) →
      (∀ Y, evs ++ Y = evs.foldr glueCons Y) → LEvent.complete ∉ evs →
      (d'.st = .options → d'.opt.st = .firstByte) →
      ∃ d' evs X', (∀ fuel, 1 ≤ fuel → legacyRun fuel d ⟨[], 0, false⟩ = .ok (d', ⟨[], 0, false⟩, evs)) ∧
      X = evs.foldr glueCons X' ∧ Left d' ⟨[], 0, false⟩ (b :: bs) X' ∧ LEvent.complete ∉ evs := by
    intro d' evs hno e he hm hn hgo hgl hc hfb
    have hX : X = evs ++ lfeed d' (b :: bs) := by
      rcases hj with ⟨h, -⟩ | ⟨h, -⟩ | ⟨-, -, h⟩
      · exact absurd (Or.inl h) hg
      · exact absurd h hno
      · rw [h, lfeed_cons d b bs hg d' false hm, hn]; simp
    have h1 := micro_linv d b hlv
    have h2 := micro_hok d b bs hlv.2.2.1 hh
    rw [hm] at h1 h2
    refine ⟨d', evs, lfeed d' (b :: bs), run d' evs (by simp only [legacyIterate, he, e]), by rw [hX, hgl],
      ⟨?_, ?_, by simpa using h2, h1, ?_⟩, hc⟩
    · rcases hgo with h | h
      · right; right
        refine ⟨h, fun h' => ?_, rfl⟩
        rw [hfb h'.1] at h'; simp at h'
      · left; exact ⟨h, lfeed_payload _ _ h (by simp)⟩
    · rcases step_inv d ⟨[], 0, false⟩ hi with ⟨h, -⟩ | ⟨d2, c2, h, h', -⟩
      · rw [e] at h; cases h
      · rw [e] at h; cases h; exact h'
    · intro h; rw [hfb h]; simp
  -- a state which waits for a byte
  have stay : ∀ d' evs, d.step ⟨[], 0, false⟩ = .ok (d, ⟨[], 0, false⟩) →
      d.legacyDispatch ⟨[], 0, false⟩ = .ok (evs, d) → X = evs.foldr glueCons X → LEvent.complete ∉ evs → d' = d →
      ∃ d' evs X', (∀ fuel, 1 ≤ fuel → legacyRun fuel d ⟨[], 0, false⟩ = .ok (d', ⟨[], 0, false⟩, evs)) ∧
      X = evs.foldr glueCons X' ∧ Left d' ⟨[], 0, false⟩ (b :: bs) X' ∧ LEvent.complete ∉ evs := by
    intro d' evs e he hX hc _
    exact ⟨d, evs, X, run d evs (by simp only [legacyIterate, he, e]), hX, ⟨hj, hi, hh, hlv, hb⟩, hc⟩
  cases hs : d.st
  case uninitialized =>
    exact move { d with st := .header, hpos := 0 } [] (by simp [hs]) (by simp [step, hs]) (by simp [legacyDispatch, hs])
      (by simp [micro, hs]) (by simp [lnote, hs]) (by simp [Going]) (by simp) (by simp) (by simp)
  case header =>
    refine stay d [] ?_ (by simp [legacyDispatch, hs]) (by simp) (by simp) rfl
    simp only [step, hs, Ctx.remainder, headerLoop, List.drop]
    rw [← hs]; rfl
  case headerDone =>
    refine move { d with st := if d.hdr.tokenLength > 0 then .tokenStart else .tokenDone } [.header d.hdr] (by simp [hs]) ?_
      (by simp [legacyDispatch, hs]) (by simp [micro, hs]) (by simp [lnote, hs]) ?_ (by simp [glueCons]) (by simp) ?_
    · simp only [step, hs]; split <;> rfl
    · left; split <;> simp [Going]
    · split <;> simp
  case tokenStart =>
    exact move { d with st := .token, tpos := 0, opt := { d.opt with st := .garbage } } [] (by simp [hs]) (by simp only [step, hs]) (by simp [legacyDispatch, hs])
      (by simp [micro, hs]) (by simp [lnote, hs]) (by simp [Going]) (by simp) (by simp) (by simp)
  case token =>
    refine stay d [] ?_ (by simp [legacyDispatch, hs]) (by simp) (by simp) rfl
    simp only [step, hs, Ctx.remainder, tokenLoop, List.drop]
    rw [← hs]; rfl
  case tokenDone =>
    have h8 : d.hdr.tokenLength.toNat ≤ 8 := hi.tokenDone hs
    have h9 : d.hdr.tokenLength.toNat ≤ d.tbuf.length := by rw [hi.tbuf]; exact h8
    refine move { d with st := .optionsStart } (lnote d (b :: bs)) (by simp [hs]) (by simp [step, hs]) ?_
      (by simp [micro, hs]) rfl (by simp [Going]) ?_ ?_ (by simp)
    · by_cases h0 : d.hdr.tokenLength = 0 <;> simp [legacyDispatch, hs, lnote, legacyToken, h0, h9]
    · by_cases h0 : d.hdr.tokenLength = 0 <;> simp [lnote, hs, h0, glueCons]
    · by_cases h0 : d.hdr.tokenLength = 0 <;> simp [lnote, hs, h0]
  case optionsStart =>
    refine move { d with st := .options, opt := { d.opt with st := .firstByte }, holder := ⟨0, 0⟩ } [] (by simp [hs]) ?_
      (by simp [legacyDispatch, hs]) (by simp [micro, hs]) (by simp [lnote, hs]) (by simp [Going]) (by simp) (by simp) (by simp)
    simp [step, hs, Ctx.remainder, OptDec.process, OptDec.fuelFor, OptDec.loop]
  case options =>
    have hb' := hb hs
    have hp' := hlv.2.2.2 hs
    have hstep : ∀ x : Dec, x.st = .options → x.opt.st ≠ .payload → x.step ⟨[], 0, false⟩ = .ok (x, ⟨[], 0, false⟩) := by
      intro x hx hxp
      simp [step, hx, Ctx.remainder, OptDec.process, OptDec.fuelFor, OptDec.loop, hxp]
      rw [← hx]
    by_cases ho : d.opt.st = .optionValue
    · rcases hj with ⟨h, -⟩ | ⟨-, -, h1, h2, h3⟩ | ⟨-, h, -⟩
      · simp [hs] at h
      · have hpos : 0 < d.holder.length.toNat := by rw [h1]; exact h2
        have hz : ({ d with holder := { d.holder with length := d.holder.length - UInt16.ofNat 0 } } : Dec) = d := by simp
        refine stay d [.value d.holder.number [] false] (hstep d hs hp') ?_ ?_ (by simp) rfl
        · simp [legacyDispatch, hs, legacyOption, ho, legacyValue, Ctx.remainder, hpos]
          rw [← hs]
        · rw [h3]; simp [glueCons]
      · exact absurd ⟨hs, ho⟩ h
    · refine stay d [] (hstep d hs hp') ?_ (by simp) (by simp) rfl
      simp only [legacyDispatch, hs, legacyOption]
  case optionsDone =>
    have hop : d.opt.st = .payload := by
      rcases hi.optionsDone hs with h | ⟨h, -⟩
      · exact h
      · simp at h
    exact move { d with st := .payload } [] (by simp [hs]) (by simp [step, hs, hop]) (by simp [legacyDispatch, hs])
      (by simp [micro, hs]) (by simp [lnote, hs]) (by simp) (by simp) (by simp) (by simp)
  all_goals exact absurd hg (by simp [Going, hs])

theorem left_move {d : Dec} {c c' : Ctx} {fut : List UInt8} {X : List LEvent} (h : Left d c fut X) (hc : c.last = false)
    (hp : c'.pos = 0) : Left d c' fut X := by
  obtain ⟨h1, h2, h3, h4, h5⟩ := h
  refine ⟨h1, ⟨by omega, h2.tbuf, h2.header, h2.tokenStart, h2.token, h2.tokenDone, h2.options, fun h => Or.inl ?_⟩, h3, h4, h5⟩
  rcases h2.optionsDone h with h | ⟨h, -⟩
  · exact h
  · simp [hc] at h

/-- Calls of `dispatch` with the parts of a message. -/
theorem legacy_chunks (cs : List (List UInt8)) (l : List UInt8) : ∀ (d : Dec) (X : List LEvent),
    Left d ⟨[], 0, false⟩ (cs.flatten ++ l) X → (Going d ∨ d.st = .payload) → (l ≠ [] ∨ LEvent.complete ∈ X) →
    ∃ N d' evs, (∀ fuel, N ≤ fuel → legacyChunks fuel d cs l = .ok (d', evs)) ∧ glue evs = X ∧
      (LEvent.complete ∈ X → d'.st = .payloadDone) := by
  induction cs with
  | nil =>
    intro d X hl hg hne
    simp only [List.flatten_nil, List.nil_append] at hl
    obtain ⟨hj, hi, hh, hv, hb⟩ := left_move (c' := ⟨l, 0, true⟩) hl rfl rfl
    have hr : (⟨l, 0, true⟩ : Ctx).remainder = l := rfl
    have hcase : (l ≠ [] ∧ Going d) ∨ d.st = .payload := by
      rcases hg with hg | hg
      · left
        refine ⟨fun h => ?_, hg⟩
        subst h
        rcases hne with h | h
        · exact h rfl
        · rw [owed_nil hj hg] at h; simp at h
      · exact Or.inr hg
    obtain ⟨N, d', evs, X', hrun, hX, hX', -⟩ := legacy_chunk _ d ⟨l, 0, true⟩ [] X (Nat.lt_succ_self _)
      (by simpa [hr] using hj) hv hi (by simpa [hr] using hh) (fun _ => rfl) hcase
    refine ⟨N, d', evs, fun fuel hf => ?_, ?_, (hX' rfl).2.1⟩
    · simp only [legacyChunks, hrun fuel hf]
    · rw [hX, (hX' rfl).1]; rfl
  | cons c cs ih =>
    intro d X hl hg hne
    have key : ∃ N d' evs X', (∀ fuel, N ≤ fuel → ∃ c', legacyRun fuel d ⟨c, 0, false⟩ = .ok (d', c', evs)) ∧
        X = evs.foldr glueCons X' ∧ Left d' ⟨[], 0, false⟩ (cs.flatten ++ l) X' ∧ LEvent.complete ∉ evs := by
      by_cases hcase : (c ≠ [] ∧ Going d) ∨ d.st = .payload
      · obtain ⟨hj, hi, hh, hv, hb⟩ := left_move (c' := ⟨c, 0, false⟩) hl rfl rfl
        have hr : (⟨c, 0, false⟩ : Ctx).remainder = c := rfl
        have hfl : (c :: cs).flatten ++ l = c ++ (cs.flatten ++ l) := by simp
        rw [hfl] at hj hh
        obtain ⟨N, d', evs, X', hrun, hX, -, hX'⟩ := legacy_chunk _ d ⟨c, 0, false⟩ (cs.flatten ++ l) X (Nat.lt_succ_self _)
          (by rw [hr]; exact hj) hv hi (by rw [hr]; exact hh) (by simp) hcase
        obtain ⟨k1, k2⟩ := hX' rfl
        exact ⟨N, d', evs, X', fun fuel hf => ⟨_, hrun fuel hf⟩, hX, left_move k1 rfl rfl, k2.1⟩
      · have hg' : Going d := by
          rcases hg with h | h
          · exact h
          · exact absurd (Or.inr h) hcase
        have hc : c = [] := by
          by_cases h : c = []
          · exact h
          · exact absurd (Or.inl ⟨h, hg'⟩) hcase
        subst hc
        have hfl : ([] :: cs).flatten ++ l = cs.flatten ++ l := by simp
        rw [hfl] at hl
        have hf : cs.flatten ++ l ≠ [] := by
          intro h
          rcases hne with h' | h'
          · exact h' (List.append_eq_nil_iff.1 h).2
          · rw [h] at hl; rw [owed_nil hl.1 hg'] at h'; simp at h'
        obtain ⟨d', evs, X', hrun, hX, hl', hc⟩ := legacy_empty d _ X hl hf hg'
        exact ⟨1, d', evs, X', fun fuel hf => ⟨_, hrun fuel hf⟩, hX, hl', hc⟩
    obtain ⟨N, d', evs, X', hrun, hX, hl', hc⟩ := key
    have hg' : Going d' ∨ d'.st = .payload := by
      rcases hl'.1 with ⟨h, -⟩ | ⟨h, -⟩ | ⟨h, -⟩
      · exact Or.inr h
      · exact Or.inl (by simp [Going, h])
      · exact Or.inl h
    obtain ⟨N', d2, evs', hrun', hX', hpd⟩ := ih d' X' hl' hg' (by
      rcases hne with h | h
      · exact Or.inl h
      · rw [hX] at h; exact Or.inr (complete_of_glue h hc))
    refine ⟨max N N', d2, evs ++ evs', fun fuel hf => ?_, ?_, fun h => hpd (complete_of_glue (hX ▸ h) hc)⟩
    · obtain ⟨c', e⟩ := hrun fuel (by omega)
      simp only [legacyChunks, e, hrun' fuel (by omega)]
    · rw [hX, ← hX', glue, List.foldr_append]; rfl

end Verif.Proofs
