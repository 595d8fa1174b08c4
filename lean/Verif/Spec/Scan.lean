import Verif.Spec.Wire

/-!
# A scan of arbitrary bytes for option numbers

`Spec.Wire` describes well-formed messages.  This file gives a meaning to every byte string standing in
the place of the options, so that statements can be made about malformed messages too.  Two leniencies
of the decoder are part of the definition: a reserved nibble 15 skips one byte and counts as zero, and
a length counts modulo 65536.  Option numbers are unbounded here.
-/
namespace Verif.Spec

/-- Value of a delta or length nibble with its extended bytes, and what follows; `none` if the bytes end
too early. -/
def readExt (nib : Nat) (bs : List UInt8) : Option (Nat × List UInt8) :=
  if nib < 13 then some (nib, bs)
  else match bs with
    | [] => none
    | b :: bs =>
      if nib = 13 then some (13 + b.toNat, bs)
      else if nib = 14 then
        match bs with
        | [] => none
        | c :: bs => some (269 + 256 * b.toNat + c.toNat, bs)
      else some (0, bs)

theorem readExt_length {nib : Nat} {bs : List UInt8} {v : Nat} {r : List UInt8}
    (h : readExt nib bs = some (v, r)) : r.length ≤ bs.length := by
  unfold readExt at h
  split at h
  · cases h; omega
  · cases bs with
    | nil => simp at h
    | cons b bs =>
      simp only at h
      split at h
      · cases h; simp
      · split at h
        · cases bs with
          | nil => simp at h
          | cons c bs => simp only at h; cases h; simp; omega
        · cases h; simp

/-- Numbers of the options in `bs`, the previous number being `prev`: each is the sum of all deltas so
far.  An option whose header is cut off counts with the part of the sum that is known. -/
def scan (prev : Nat) (bs : List UInt8) : List Nat :=
  match bs with
  | [] => []
  | b :: bs =>
    if b = 0xFF then []
    else
      match h1 : readExt (b.toNat / 16) bs with
      | none => [prev]
      | some (delta, bs1) =>
        match h2 : readExt (b.toNat % 16) bs1 with
        | none => [prev + delta]
        | some (len, bs2) => (prev + delta) :: scan (prev + delta) (bs2.drop (len % 65536))
termination_by bs.length
decreasing_by
  have := readExt_length h1
  have := readExt_length h2
  simp; omega

theorem scan_cut_delta {prev : Nat} {b : UInt8} {bs : List UInt8} (hb : b ≠ 0xFF)
    (h1 : readExt (b.toNat / 16) bs = none) : scan prev (b :: bs) = [prev] := by
  rw [scan, if_neg hb]
  split
  · rfl
  · rename_i h; rw [h1] at h; cases h

theorem scan_cut_length {prev delta : Nat} {b : UInt8} {bs bs1 : List UInt8} (hb : b ≠ 0xFF)
    (h1 : readExt (b.toNat / 16) bs = some (delta, bs1)) (h2 : readExt (b.toNat % 16) bs1 = none) :
    scan prev (b :: bs) = [prev + delta] := by
  rw [scan, if_neg hb]
  split
  · rename_i h; rw [h1] at h; cases h
  · rename_i h; rw [h1] at h; cases h
    split
    · rfl
    · rename_i h; rw [h2] at h; cases h

theorem scan_option {prev delta len : Nat} {b : UInt8} {bs bs1 bs2 : List UInt8} (hb : b ≠ 0xFF)
    (h1 : readExt (b.toNat / 16) bs = some (delta, bs1)) (h2 : readExt (b.toNat % 16) bs1 = some (len, bs2)) :
    scan prev (b :: bs) = (prev + delta) :: scan (prev + delta) (bs2.drop (len % 65536)) := by
  rw [scan, if_neg hb]
  split
  · rename_i h; rw [h1] at h; cases h
  · rename_i h; rw [h1] at h; cases h
    split
    · rename_i h; rw [h2] at h; cases h
    · rename_i h; rw [h2] at h; cases h; rfl

theorem scan_ge (prev : Nat) (bs : List UInt8) : ∀ n ∈ scan prev bs, prev ≤ n := by
  fun_induction scan prev bs with
  | case1 => simp
  | case2 => simp
  | case3 => simp
  | case4 prev b bs _ delta bs1 h1 h2 => simp
  | case5 prev b bs _ delta bs1 h1 len bs2 h2 ih =>
    intro n hn
    rcases List.mem_cons.mp hn with rfl | hn
    · omega
    · have := ih n hn; omega

/-- The sums never decrease. -/
theorem scan_sorted (prev : Nat) (bs : List UInt8) : (scan prev bs).Pairwise (· ≤ ·) := by
  fun_induction scan prev bs with
  | case1 => simp
  | case2 => simp
  | case3 => simp
  | case4 => simp
  | case5 prev b bs _ delta bs1 h1 len bs2 h2 ih =>
    exact List.pairwise_cons.mpr ⟨fun n hn => scan_ge _ _ n hn, ih⟩

/-- The bytes `e` behind a nibble stand for `v`, counted modulo 65536. -/
def Reads (nib : Nat) (e : List UInt8) (v : Nat) : Prop :=
  ∀ t, ∃ x, readExt nib (e ++ t) = some (x, t) ∧ x % 65536 = v

/-- `hdr` is an option header for this delta and length: the one of RFC 7252 or a longer one. -/
def HdrOf (hdr : List UInt8) (delta len : Nat) : Prop :=
  ∃ w e1 e2, hdr = w :: (e1 ++ e2) ∧ w ≠ 0xFF ∧ Reads (w.toNat / 16) e1 delta ∧ Reads (w.toNat % 16) e2 len

/-- `bs` is an encoding of the options. -/
inductive IsOpts : Nat → List Opt → List UInt8 → Prop
  | nil {prev} : IsOpts prev [] []
  | cons {prev o os hdr bs} : prev ≤ o.number → o.number < 65536 → o.value.length < 65536 →
      HdrOf hdr (o.number - prev) o.value.length → IsOpts o.number os bs →
      IsOpts prev (o :: os) (hdr ++ o.value ++ bs)

theorem reads_ext (v : Nat) (h : v < 65536) : Reads (nibble v) (extBytes v) v := by
  intro t
  unfold nibble extBytes
  by_cases c1 : v < 13
  · exact ⟨v, by simp [c1, readExt], by omega⟩
  · by_cases c2 : v < 269
    · refine ⟨v, ?_, by omega⟩
      simp [c1, c2, readExt]; omega
    · refine ⟨v, ?_, by omega⟩
      simp [c1, c2, readExt]; omega

theorem hdrOf_optHeader (delta len : Nat) (hd : delta < 65536) (hl : len < 65536) :
    HdrOf (optHeader delta len) delta len := by
  have n1 : nibble delta ≤ 14 := by unfold nibble; split <;> (try split) <;> omega
  have n2 : nibble len ≤ 14 := by unfold nibble; split <;> (try split) <;> omega
  have hw : (UInt8.ofNat (16 * nibble delta + nibble len)).toNat = 16 * nibble delta + nibble len := by
    simp; omega
  refine ⟨_, _, _, rfl, ?_, ?_, ?_⟩
  · intro h
    have := congrArg UInt8.toNat h
    rw [hw] at this; simp at this; omega
  · rw [hw, show (16 * nibble delta + nibble len) / 16 = nibble delta by omega]; exact reads_ext delta hd
  · rw [hw, show (16 * nibble delta + nibble len) % 16 = nibble len by omega]; exact reads_ext len hl

/-- The encoding of RFC 7252 is one of them. -/
theorem isOpts_encOpts (prev : Nat) (os : List Opt) (h : OptsOk prev os) : IsOpts prev os (encOpts prev os) := by
  induction os generalizing prev with
  | nil => exact .nil
  | cons o os ih =>
    obtain ⟨h1, h2, h3, h4⟩ := h
    exact .cons h1 h2 h3 (hdrOf_optHeader _ _ (by omega) h3) (ih _ h4)

theorem IsOpts.ok {prev : Nat} {os : List Opt} {bs : List UInt8} (h : IsOpts prev os bs) : OptsOk prev os := by
  induction h with
  | nil => trivial
  | cons h1 h2 h3 _ _ ih => exact ⟨h1, h2, h3, ih⟩

theorem IsOpts.nil_iff {prev : Nat} {os : List Opt} {bs : List UInt8} (h : IsOpts prev os bs) : bs = [] ↔ os = [] := by
  cases h with
  | nil => simp
  | cons _ _ _ hh _ => obtain ⟨w, e1, e2, rfl, -⟩ := hh; simp

end Verif.Spec
