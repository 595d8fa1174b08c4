import Verif.Proofs.FeedRun

/-! # `feed` over a buffer that is cut in two -/
namespace Verif.Proofs
open Verif.Model Header Dec

/-- `Part e f`: `e` reports the same as `f`, except that an option value may be cut short, in which case
`e` is not flagged as the last part. -/
def Part (e f : Event) : Prop :=
  match e with
  | .option n v l => ∃ v' l', f = .option n v' l' ∧ v <+: v' ∧ (l = true → v' = v ∧ l' = true)
  | _ => f = e

theorem Part.refl (e : Event) : Part e e := by
  cases e
  case option n v l => exact ⟨v, l, rfl, List.prefix_refl v, fun h => ⟨rfl, h⟩⟩
  all_goals rfl

/-- Two event lists that agree up to cut option values. -/
inductive Parts : List Event → List Event → Prop
  | nil : Parts [] []
  | cons {e f es fs} : Part e f → Parts es fs → Parts (e :: es) (f :: fs)

theorem Parts.refl : (es : List Event) → Parts es es
  | [] => .nil
  | e :: es => .cons (Part.refl e) (Parts.refl es)

theorem Parts.append {a b c d : List Event} (h : Parts a b) (h2 : Parts c d) : Parts (a ++ c) (b ++ d) := by
  induction h with
  | nil => exact h2
  | cons p _ ih => exact .cons p ih

theorem Part.trans {e f g : Event} (h : Part e f) (h2 : Part f g) : Part e g := by
  cases e
  case option n v l =>
    obtain ⟨v1, l1, rfl, p1, c1⟩ := h
    obtain ⟨v2, l2, rfl, p2, c2⟩ := h2
    refine ⟨v2, l2, rfl, p1.trans p2, fun hl => ?_⟩
    obtain ⟨rfl, e1⟩ := c1 hl
    exact c2 e1
  all_goals (simp only [Part] at h; subst h; exact h2)

theorem Parts.trans {a b c : List Event} (h : Parts a b) (h2 : Parts b c) : Parts a c := by
  induction h generalizing c with
  | nil => exact h2
  | cons p _ ih => cases h2 with | cons p2 q => exact .cons (p.trans p2) (ih q)

theorem take_prefix_append (n : Nat) (r b : List UInt8) : r.take n <+: (r ++ b).take n := by
  rw [List.take_append]; exact List.prefix_append _ _

/-- The event fired on entering a state other than the payload state, with more bytes in the buffer. -/
theorem note_part (d : Dec) (r b : List UInt8) (l1 l2 : Bool) (hp : d.st ≠ .payload) :
    Parts (note d r l1) (note d (r ++ b) l2) := by
  have key : d.st ≠ .options → note d r l1 = note d (r ++ b) l2 := by
    intro h
    cases hs : d.st <;> simp [note, notify, hs] at h hp ⊢
  by_cases ho : d.st = .options
  · by_cases hv : d.opt.st = .valueStart
    · by_cases hl : d.holder.length > 0
      · simp only [note, notify, ho, hv, beq_self_eq_true, if_true, hl]
        refine .cons ?_ .nil
        simp only [Part, optionValue, Ctx.remainder, List.drop_zero]
        refine ⟨_, _, rfl, ?_, ?_⟩
        · by_cases h1 : d.opt.length.toNat ≤ r.length
          · have h2 : d.opt.length.toNat ≤ (r ++ b).length := by simp; omega
            rw [if_pos h1, if_pos h2]; exact take_prefix_append _ _ _
          · rw [if_neg h1]
            split
            · rw [List.take_append, List.take_of_length_le (by omega)]; exact List.prefix_append _ _
            · exact List.prefix_append _ _
        · by_cases h1 : d.opt.length.toNat ≤ r.length
          · have h2 : d.opt.length.toNat ≤ (r ++ b).length := by simp; omega
            rw [if_pos h1, if_pos h2]
            intro _
            exact ⟨by simp [List.take_append_of_le_length h1], rfl⟩
          · rw [if_neg h1]; simp
      · simp only [note, notify, ho, hv, beq_self_eq_true, if_true, hl, if_false]
        exact Parts.refl _
    · simp only [note, notify, ho, beq_iff_eq, hv, if_false]; exact .nil
  · rw [key ho]; exact Parts.refl _

/-- `feed` over a buffer that is cut in two, when the first part is used up. -/
theorem feed_append (l : Bool) (d : Dec) (a b : List UInt8) (h : (feed false d a).2.2 = []) :
    (feed l d (a ++ b)).2 = (feed l (feed false d a).2.1 b).2 ∧
    Parts ((feed false d a).1 ++ (feed l (feed false d a).2.1 b).1) (feed l d (a ++ b)).1 := by
  fun_induction feed false d a with
  | case1 d => simp [Parts.refl]
  | case2 d x bs hst => simp at h
  | case3 d x bs hst m hc f ih =>
    have hm : micro d x = (m.1, m.2) := rfl
    obtain ⟨i1, i2⟩ := ih h
    have hp : m.1.st ≠ .payload := by
      intro hp
      have h1 : m.1 = (micro d x).1 := rfl
      have h2 : (micro d x).2 = true := hc
      rw [h1] at hp
      unfold Going at *
      cases hs : d.st <;> simp only [micro, hs] at hp h2 <;> simp [hs] at hst hp h2
      case header => simp only [putHeader] at hp; split at hp <;> simp [hs] at hp
      case token => simp only [putToken] at hp; split at hp <;> simp [hs] at hp
      case options => split at hp <;> simp at hp
    rw [List.cons_append, feed_cons l d x (bs ++ b) hst m.1 m.2 hm, hc]
    simp only [if_true]
    refine ⟨i1, ?_⟩
    rw [List.append_assoc]
    exact (note_part m.1 bs b false l hp).append i2
  | case4 d x bs hst m hc f ih =>
    have hm : micro d x = (m.1, m.2) := rfl
    obtain ⟨i1, i2⟩ := ih h
    have hp : m.1.st ≠ .payload := by
      intro hp
      have hf : f = feed false m.1 (x :: bs) := rfl
      rw [feed_stop false m.1 _ (by simp [Going, hp])] at hf
      rw [hf] at h; simp at h
    rw [List.cons_append, feed_cons l d x (bs ++ b) hst m.1 m.2 hm]
    simp only [hc]
    refine ⟨i1, ?_⟩
    rw [List.append_assoc]
    exact (note_part m.1 (x :: bs) b false l hp).append i2

/-- If the first part is not used up, neither is the whole. -/
theorem feed_rest_append (l : Bool) (d : Dec) (a b : List UInt8) (h : (feed false d a).2.2 ≠ []) :
    (feed l d (a ++ b)).2.2 = (feed false d a).2.2 ++ b := by
  fun_induction feed false d a with
  | case1 d => simp at h
  | case2 d x bs hst =>
    rw [List.cons_append, feed_stop l d _ (by simp [Going, hst])]
  | case3 d x bs hst m hc f ih =>
    rw [List.cons_append, feed_cons l d x (bs ++ b) hst m.1 m.2 rfl, hc]
    exact ih h
  | case4 d x bs hst m hc f ih =>
    rw [List.cons_append, feed_cons l d x (bs ++ b) hst m.1 m.2 rfl]
    simp only [hc]
    exact ih h

theorem micro_going (d : Dec) (b : UInt8) (h : Going d) :
    Going (micro d b).1 ∨ ((micro d b).1.st = .payload ∧ (micro d b).2 = false) := by
  unfold Going at *
  cases hs : d.st <;> simp only [micro, hs] <;> simp [hs] at h ⊢
  case header => simp only [putHeader]; split <;> simp [hs]
  case token => simp only [putToken]; split <;> simp [hs]
  case headerDone => split <;> simp
  case options => split <;> simp

/-- A decoder that used up a non-final buffer is not in the payload. -/
theorem feed_going (l : Bool) (d : Dec) (a : List UInt8) (hg : Going d) (h : (feed l d a).2.2 = []) :
    Going (feed l d a).2.1 := by
  have gen : ∀ (d : Dec) (a : List UInt8), (Going d ∨ (d.st = .payload ∧ a ≠ [])) → (feed l d a).2.2 = [] →
      Going (feed l d a).2.1 := by
    intro d a
    fun_induction feed l d a with
    | case1 d => intro hg _; rcases hg with h | h; exact h; exact absurd rfl h.2
    | case2 d x bs hst => intro _ h; simp at h
    | case3 d x bs hst m hc f ih =>
      intro _ h
      apply ih ?_ h
      rcases micro_going d x hst with h1 | h1
      · exact Or.inl h1
      · have : (micro d x).2 = true := hc
        rw [h1.2] at this; cases this
    | case4 d x bs hst m hc f ih =>
      intro _ h
      apply ih ?_ h
      rcases micro_going d x hst with h1 | h1
      · exact Or.inl h1
      · exact Or.inr ⟨h1.1, by simp⟩
  exact gen d a (Or.inl hg) h

theorem micro_hp (d : Dec) (b : UInt8) :
    (micro d b).1.st = .header → (micro d b).1.hpos.toNat < 4 := by
  cases hs : d.st <;> simp only [micro, hs]
  case uninitialized => simp
  case header =>
    simp only [putHeader]
    split
    · simp
    · rename_i h
      intro _
      simpa [UInt8.le_iff_toNat_le] using h
  case headerDone => split <;> simp
  case token => simp only [putToken]; split <;> simp [hs]
  case options => split <;> simp
  all_goals simp

theorem micro_hok (d : Dec) (b : UInt8) (bs : List UInt8) (hp : d.st = .header → d.hpos.toNat < 4)
    (h : HOK d (b :: bs)) : HOK (micro d b).1 (if (micro d b).2 then bs else b :: bs) := by
  cases hs : d.st <;> simp only [micro, hs, HOK] at h ⊢
  case uninitialized => simpa using h
  case header =>
    have hp := hp hs
    have : d.hpos = 0 ∨ d.hpos = 1 ∨ d.hpos = 2 ∨ d.hpos = 3 := by
      simp only [← UInt8.toNat_inj]; simp; omega
    rcases this with h0 | h0 | h0 | h0 <;>
      simp_all [putHeader, writeHeader, Header.tokenLength]
  case headerDone =>
    by_cases ht : d.hdr.tokenLength > 0 <;> simpa [ht] using h
  case token =>
    simp only [putToken]
    by_cases ht : d.tpos + 1 ≥ d.hdr.tokenLength <;> simpa [ht, hs] using h
  case options =>
    by_cases ho : (pureStep d.opt b).1.st = .payload <;> simpa [ho] using h
  all_goals simpa [hs] using h

theorem feed_hok (l : Bool) (d : Dec) (a t : List UInt8) (hp : d.st = .header → d.hpos.toNat < 4)
    (h : HOK d (a ++ t)) (hr : (feed l d a).2.2 = []) : HOK (feed l d a).2.1 t := by
  fun_induction feed l d a with
  | case1 d => exact h
  | case2 d x bs hst => simp at hr
  | case3 d x bs hst m hc f ih =>
    have := micro_hok d x (bs ++ t) hp h
    have hc' : (micro d x).2 = true := hc
    rw [hc'] at this
    exact ih (micro_hp d x) this hr
  | case4 d x bs hst m hc f ih =>
    have := micro_hok d x (bs ++ t) hp h
    have hc' : (micro d x).2 = false := by simpa using hc
    rw [hc'] at this
    exact ih (micro_hp d x) this hr

theorem HOK.left {d : Dec} {a t : List UInt8} (h : HOK d (a ++ t)) (ha : a ≠ []) : HOK d a := by
  obtain ⟨x, xs, rfl⟩ := List.exists_cons_of_ne_nil ha
  simpa [HOK] using h

end Verif.Proofs
