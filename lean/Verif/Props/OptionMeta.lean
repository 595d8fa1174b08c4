import Verif.Model.OptionMeta
import Verif.Spec.OptionMeta

/-! # C43: option meta-data -/
namespace Verif.Props
open Verif.Model.OptionMeta Verif.Spec

/-- The model's name for a format. -/
def fmt : VFormat → Format
  | .empty => .empty
  | .opaque => .opaque
  | .uint => .uint
  | .string => .string

/-- Options whose format `get_format` does not know: Observe, Max-Age, Location-Query, Proxy-Uri, Proxy-Scheme, Size1. -/
def formatGaps : List Nat := [6, 14, 20, 35, 39, 60]

theorem getFormat_key (n : UInt16) (h : getFormat n ≠ .unknown) : n.toNat ∈ [1, 3, 4, 5, 7, 8, 11, 12, 15, 17, 23, 27] := by
  have hk : n ∈ ([1, 3, 4, 5, 7, 8, 11, 12, 15, 17, 23, 27] : List UInt16) := by
    by_cases hk : n ∈ ([1, 3, 4, 5, 7, 8, 11, 12, 15, 17, 23, 27] : List UInt16)
    · exact hk
    · simp only [List.mem_cons, List.not_mem_nil, or_false, not_or] at hk
      obtain ⟨k1, k2, k3, k4, k5, k6, k7, k8, k9, k10, k11, k12⟩ := hk
      simp only [getFormat, beq_iff_eq, k1, k2, k3, k4, k5, k6, k7, k8, k9, k10, k11, k12, if_false] at h
      exact absurd rfl h
  simpa using List.mem_map_of_mem (f := UInt16.toNat) hk

/-- C43 (partial: all numbers but the six of `formatGaps`): for every option number, `get_format` gives a format if and
only if RFC 7252, 7641 or 7959 defines one, and then that one. -/
theorem get_format_exact_partial (n : UInt16) (hgap : n.toNat ∉ formatGaps) (f : VFormat) :
    getFormat n = fmt f ↔ ∃ x ∈ optionTable, x.1 = n.toNat ∧ x.2.1 = f := by
  constructor
  · intro h
    have hk := getFormat_key n (by rw [h]; cases f <;> simp [fmt])
    have hn : n = UInt16.ofNat n.toNat := by simp
    generalize n.toNat = m at hk hn
    subst hn
    simp only [List.mem_cons, List.not_mem_nil, or_false] at hk
    rcases hk with rfl | rfl | rfl | rfl | rfl | rfl | rfl | rfl | rfl | rfl | rfl | rfl <;> cases f <;>
      first | exact absurd h (by decide) | decide
  · rintro ⟨⟨a, f', lo, hi⟩, h, h1, h2⟩
    simp only at h1 h2
    subst h1 h2
    have hn : n = UInt16.ofNat n.toNat := by simp
    generalize n.toNat = m at h hn hgap
    subst hn
    simp only [optionTable, List.mem_cons, List.not_mem_nil, or_false, Prod.mk.injEq] at h
    simp only [formatGaps, List.mem_cons, List.not_mem_nil, or_false, not_or] at hgap
    rcases h with h | h | h | h | h | h | h | h | h | h | h | h | h | h | h | h | h | h <;>
      (obtain ⟨rfl, rfl, -, -⟩ := h; first | rfl | omega)

/-- C43 fails for these six: they have a format, which is reported as unknown. -/
theorem format_gaps : ∀ k ∈ formatGaps, getFormat (UInt16.ofNat k) = .unknown ∧ ∃ x ∈ optionTable, x.1 = k := by decide

theorem traits_in_table : ∀ x ∈ traits, ∃ y ∈ optionTable, x.1.toNat = y.1 ∧ x.2.format = fmt y.2.1 ∧
    x.2.min = y.2.2.1 ∧ x.2.max = y.2.2.2 := by decide

theorem runtimeTrait_mem (n : UInt16) : ∀ (ts : List (UInt16 × Trait)),
    (n, runtimeTrait n ts) ∈ ts ∨ (runtimeTrait n ts = ⟨.unknown, -1, -1⟩ ∧ n ∉ ts.map (·.1))
  | [] => Or.inr ⟨rfl, by simp⟩
  | (k, t) :: ts => by
    by_cases h : n = k
    · subst h
      simp [runtimeTrait]
    · simp only [runtimeTrait, beq_iff_eq, h, if_false, List.mem_cons, Prod.mk.injEq, false_and, false_or, List.map_cons]
      exact runtimeTrait_mem n ts

/-- C43: for every option number, the run-time traits are those of the RFCs - format, shortest and longest value - or
say that the option is unknown; and the three single queries agree with them. -/
theorem traits_sound (n : UInt16) :
    (format n traits = (runtimeTrait n traits).format ∧ minLen n traits = (runtimeTrait n traits).min ∧
      maxLen n traits = (runtimeTrait n traits).max) ∧
    ((runtimeTrait n traits = ⟨.unknown, -1, -1⟩ ∧ n ∉ traits.map (·.1)) ∨
      ∃ f lo hi, (n.toNat, f, lo, hi) ∈ optionTable ∧ runtimeTrait n traits = ⟨fmt f, (lo : Nat), (hi : Nat)⟩) := by
  constructor
  · have : ∀ ts : List (UInt16 × Trait), format n ts = (runtimeTrait n ts).format ∧ minLen n ts = (runtimeTrait n ts).min ∧
        maxLen n ts = (runtimeTrait n ts).max := by
      intro ts
      induction ts with
      | nil => exact ⟨rfl, rfl, rfl⟩
      | cons x ts ih =>
        obtain ⟨k, t⟩ := x
        by_cases h : n = k
        · simp [format, minLen, maxLen, runtimeTrait, h]
        · simpa only [format, minLen, maxLen, runtimeTrait, beq_iff_eq, h, if_false] using ih
    exact this traits
  · rcases runtimeTrait_mem n traits with h | h
    · obtain ⟨⟨a, f, lo, hi⟩, hy, h1, h2, h3, h4⟩ := traits_in_table _ h
      simp only at h1 h2 h3 h4
      subst h1
      refine Or.inr ⟨f, lo, hi, hy, ?_⟩
      rw [← h2, ← h3, ← h4]
    · exact Or.inl h

/-- C43: the two sources never contradict each other. -/
theorem formats_agree (n : UInt16) (h1 : getFormat n ≠ .unknown) (h2 : format n traits ≠ .unknown) :
    getFormat n = format n traits := by
  have hk := getFormat_key n h1
  have hn : n = UInt16.ofNat n.toNat := by simp
  generalize n.toNat = m at hk hn
  subst hn
  simp only [List.mem_cons, List.not_mem_nil, or_false] at hk
  rcases hk with rfl | rfl | rfl | rfl | rfl | rfl | rfl | rfl | rfl | rfl | rfl | rfl <;>
    first | rfl | exact absurd (by decide) h2

/-- C43: between them, they leave two defined options without a format: Observe and Max-Age. -/
theorem formats_together : ∀ x ∈ optionTable, x.1 ≠ 6 → x.1 ≠ 14 →
    getFormat (UInt16.ofNat x.1) = fmt x.2.1 ∨ format (UInt16.ofNat x.1) traits = fmt x.2.1 := by decide

example : getFormat 11 = .string ∧ runtimeTrait 35 traits = ⟨.string, 1, 1034⟩ ∧ getFormat 2 = .unknown := by decide

end Verif.Props
