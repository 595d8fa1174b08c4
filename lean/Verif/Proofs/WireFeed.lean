import Verif.Proofs.AnyOptions

/-! # `feed` over options with any of the header encodings the decoder understands -/
namespace Verif.Proofs
open Verif.Model Header Dec OptDec Spec

theorem ofNat_mod16 (x : Nat) : UInt16.ofNat (x % 65536) = UInt16.ofNat x := by
  apply UInt16.toNat_inj.1; simp

/-- Reading a complete option header in any encoding. -/
theorem header_wire (o : OptDec) (h : Holder) (hdr : List UInt8) (delta len : Nat) (bs : List UInt8) (hs : Ready o)
    (hh : HdrOf hdr delta len) :
    ∃ o', Q o h (hdr ++ bs) o' ⟨h.number + UInt16.ofNat delta, UInt16.ofNat len⟩ bs ∧ HEnd o' len := by
  obtain ⟨w, e1, e2, rfl, hne, r1, r2⟩ := hh
  obtain ⟨x, hx, rfl⟩ := r1 (e2 ++ bs)
  obtain ⟨y, hy, rfl⟩ := r2 bs
  have := any_header o h w (e1 ++ (e2 ++ bs)) hs hne
  simp only [hx, hy] at this
  obtain ⟨o', -, q, he⟩ := this
  refine ⟨o', ?_, ?_⟩
  · rw [ofNat_mod16, ofNat_mod16]
    simpa using q
  · obtain ⟨a, b, c⟩ := he
    exact ⟨a, by rw [b, ofNat_mod16], c⟩

/-- A complete option followed by `t`. -/
theorem wire_option_feed (last : Bool) (d : Dec) (hdr : List UInt8) (delta : Nat) (v t : List UInt8) (hds : d.st = .options)
    (hr : Ready d.opt) (hd : HdrOf hdr delta v.length) (hl : v.length < 65536) (hne : v ++ t ≠ []) :
    ∃ o', o'.st = .optionValueDone ∧
      feed last d (hdr ++ v ++ t) =
        (.option (d.holder.number + UInt16.ofNat delta) v true ::
          (feed last { d with opt := o', holder := ⟨d.holder.number + UInt16.ofNat delta, UInt16.ofNat v.length⟩ } t).1,
         (feed last { d with opt := o', holder := ⟨d.holder.number + UInt16.ofNat delta, UInt16.ofNat v.length⟩ } t).2) := by
  obtain ⟨o1, q, he⟩ := header_wire d.opt d.holder hdr delta v.length (v ++ t) hr hd
  obtain ⟨o', h1, h2⟩ := hend_phase last
    { d with opt := o1, holder := ⟨d.holder.number + UInt16.ofNat delta, UInt16.ofNat v.length⟩ } v t hds he hl rfl hne
  refine ⟨o', h1, ?_⟩
  rw [List.append_assoc, q.1 d last hds rfl rfl, h2]

/-- A final option with an empty value: only its header has been read. -/
theorem wire_option_feed_empty (last : Bool) (d : Dec) (hdr : List UInt8) (delta : Nat) (hds : d.st = .options) (hr : Ready d.opt)
    (hd : HdrOf hdr delta 0) :
    ∃ o', HEnd o' 0 ∧
      feed last d hdr =
        ([], { d with opt := o', holder := ⟨d.holder.number + UInt16.ofNat delta, 0⟩ }, []) := by
  obtain ⟨o1, q, he⟩ := header_wire d.opt d.holder hdr delta 0 [] hr hd
  refine ⟨o1, he, ?_⟩
  have := q.1 d last hds rfl rfl
  rw [List.append_nil] at this
  rw [this, feed_nil]; rfl

/-- All options, followed by something. -/
theorem wire_options_feed (last : Bool) (os : List Opt) (prev : Nat) (d : Dec) (t : List UInt8)
    (hds : d.st = .options) (hr : Ready d.opt) (hn : d.holder.number = UInt16.ofNat prev)
    (ob : List UInt8) (hok : IsOpts prev os ob) (ht : t ≠ []) :
    ∃ o' h', Ready o' ∧
      feed last d (ob ++ t) =
        (optEvents os ++ (feed last { d with opt := o', holder := h' } t).1,
          (feed last { d with opt := o', holder := h' } t).2) := by
  induction hok generalizing d with
  | nil => exact ⟨d.opt, d.holder, hr, by simp [optEvents]⟩
  | @cons prev o os hdr ob h1 h2 h3 hh h4 ih =>
    obtain ⟨o1, g1, g2⟩ := wire_option_feed last d hdr (o.number - prev) o.value (ob ++ t) hds hr
      hh h3 (by simp [ht])
    have hnum : d.holder.number + UInt16.ofNat (o.number - prev) = UInt16.ofNat o.number := by
      rw [hn]; apply UInt16.toNat_inj.1; simp [UInt16.toNat_add]; omega
    obtain ⟨o2, hh, g3, g4⟩ := ih
      { d with opt := o1, holder := ⟨d.holder.number + UInt16.ofNat (o.number - prev), UInt16.ofNat o.value.length⟩ }
      hds (Or.inr g1) hnum
    refine ⟨o2, hh, g3, ?_⟩
    rw [List.append_assoc (_ ++ _), g2, g4, hnum]
    simp [optEvents]

/-- All options, at the very end of the input. -/
theorem wire_options_feed_end (last : Bool) (os : List Opt) (prev : Nat) (d : Dec)
    (hds : d.st = .options) (hr : Ready d.opt) (hn : d.holder.number = UInt16.ofNat prev)
    (ob : List UInt8) (hok : IsOpts prev os ob) (hos : os ≠ []) :
    ∃ o' h' es, feed last d ob = (es, { d with opt := o', holder := h' }, []) ∧
      ((es = optEvents os ∧ o'.st = .optionValueDone ∧ ∀ o ∈ os.getLast?, o.value ≠ [] ∧ h'.number = UInt16.ofNat o.number) ∨
       (∃ n, es ++ [.option n [] true] = optEvents os ∧ HEnd o' 0 ∧ h' = ⟨n, 0⟩)) := by
  induction hok generalizing d with
  | nil => exact absurd rfl hos
  | @cons prev o os hdr ob h1 h2 h3 hh h4 ih =>
    have hnum : d.holder.number + UInt16.ofNat (o.number - prev) = UInt16.ofNat o.number := by
      rw [hn]; apply UInt16.toNat_inj.1; simp [UInt16.toNat_add]; omega
    by_cases hne : o.value ++ ob = []
    · simp only [List.append_eq_nil_iff] at hne
      have hos' : os = [] := h4.nil_iff.1 hne.2
      subst hos'
      rw [hne.1] at hh
      obtain ⟨o1, g1, g2⟩ := wire_option_feed_empty last d hdr (o.number - prev) hds hr hh
      refine ⟨o1, _, [], ?_, Or.inr ⟨UInt16.ofNat o.number, ?_, g1, rfl⟩⟩
      · rw [hne.1, hne.2, List.append_nil, List.append_nil, g2, hnum]
      · simp [optEvents, hne.1]
    · obtain ⟨o1, g1, g2⟩ := wire_option_feed last d hdr (o.number - prev) o.value ob hds hr
        hh h3 hne
      rw [g2, hnum]
      by_cases hos' : os = []
      · subst hos'
        rw [h4.nil_iff.2 rfl, feed_nil]
        refine ⟨o1, _, _, rfl, Or.inl ⟨by simp [optEvents], g1, ?_⟩⟩
        have hob : ob = [] := h4.nil_iff.2 rfl
        simpa [hob] using hne
      · obtain ⟨o2, hh, es, g3, g4⟩ := ih
          { d with opt := o1, holder := ⟨UInt16.ofNat o.number, UInt16.ofNat o.value.length⟩ }
          hds (Or.inr g1) rfl hos'
        rw [g3]
        refine ⟨o2, hh, _, rfl, ?_⟩
        rcases g4 with ⟨ge, gs, gl⟩ | ⟨n, ge, gs, gh⟩
        · left; exact ⟨by simp [optEvents, ge], gs, by rw [List.getLast?_cons_of_ne_nil hos']; exact gl⟩
        · right; exact ⟨n, by simp only [List.cons_append, ge]; simp [optEvents], gs, gh⟩

end Verif.Proofs
