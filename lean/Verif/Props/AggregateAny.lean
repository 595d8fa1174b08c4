import Verif.Props.AggregateMessage
import Verif.Props.LegacyAny

/-! # C70: aggregates of message observers and arbitrary bytes -/
namespace Verif.Props
open Verif.Model Verif.Proofs Verif.Spec Dec

variable {χ : Type}

/-- No more calls for options than bytes. -/
theorem toldOpts_length (S : Nat) (r : List UInt8) : (toldOpts S r).length ≤ r.length := by
  fun_induction toldOpts S r with
  | case1 | case2 | case3 | case4 | case5 => simp
  | case6 S b bs hb delta bs1 h1 len bs2 h2 hne ih =>
    have l1 := readExt_length h1
    have l2 := readExt_length h2
    simp only [List.length_cons, List.length_append, List.length_drop] at ih ⊢
    split
    · simp; omega
    · have : 0 < bs2.length := List.length_pos_iff.2 hne
      simp; omega

/-- C70, for header, token and arbitrary bytes in one buffer: the aggregate makes exactly these calls. -/
theorem aggregate_any (junk : Dec) (hj : junk.tbuf.length = 8) (b0 b1 b2 b3 : UInt8) (tok rest : List UInt8)
    (ht : tok.length = (b0 &&& 0x0F).toNat) (h8 : tok.length ≤ 8) (os : List (MObs χ)) (a : AggCtx χ) :
    ∃ N d', ∀ fuel, N ≤ fuel → aggDispatch fuel (fresh junk) os a [] (b0 :: b1 :: b2 :: b3 :: (tok ++ rest)) =
      .ok (d', aggRun os a ((toldAny b0 b1 b2 b3 tok rest).filter isHead)) := by
  obtain ⟨N, d', h⟩ := legacy_any_one junk hj b0 b1 b2 b3 tok rest ht h8
  refine ⟨N, d', fun fuel hf => ?_⟩
  rw [aggDispatch, h fuel hf]
  simp only
  rw [← aggregate_untold]

/-- C70: whatever bytes stand behind header and token, a datagram takes at most the size of all observers times two more
than it has bytes there, and that memory is never given back. -/
theorem aggregate_any_memory (junk : Dec) (hj : junk.tbuf.length = 8) (b0 b1 b2 b3 : UInt8) (tok rest : List UInt8)
    (ht : tok.length = (b0 &&& 0x0F).toNat) (h8 : tok.length ≤ 8) (os : List (MObs χ)) (a : AggCtx χ) :
    ∃ N d' a' k, k ≤ rest.length + 2 ∧ a'.used = a.used + k * (os.map (·.size)).sum ∧
      ∀ fuel, N ≤ fuel → aggDispatch fuel (fresh junk) os a [] (b0 :: b1 :: b2 :: b3 :: (tok ++ rest)) = .ok (d', a') := by
  obtain ⟨N, d', h⟩ := legacy_any_one junk hj b0 b1 b2 b3 tok rest ht h8
  refine ⟨N, d', aggRun os a (toldAny b0 b1 b2 b3 tok rest), ((toldAny b0 b1 b2 b3 tok rest).filter isHead).length, ?_, ?_, fun fuel hf => ?_⟩
  · have hl := toldOpts_length 0 rest
    have hp : ((toldPayload (readRest 0 0 rest).2).filter isHead).length = 0 := by
      cases (readRest 0 0 rest).2 with
      | none => rfl
      | some p => cases p <;> rfl
    have h1 : ∀ es : List LEvent, (es.filter isHead).length ≤ es.length := fun es => List.length_filter_le _ _
    have ha := h1 (if tok = [] ∧ rest = [] then [] else [.header ⟨b0, b1, b2, b3⟩])
    have hb := h1 (if tok = [] ∨ rest = [] then [] else [.token tok true])
    have hc := h1 (toldOpts 0 rest)
    have ha' : (if tok = [] ∧ rest = [] then [] else [LEvent.header ⟨b0, b1, b2, b3⟩]).length ≤ 1 := by split <;> simp
    have hb' : (if tok = [] ∨ rest = [] then [] else [LEvent.token tok true]).length ≤ 1 := by split <;> simp
    simp only [toldAny, List.filter_append, List.length_append]
    omega
  · rw [aggregate_used]
  · rw [aggDispatch, h fuel hf]

/-- C70: the bound is met but for one: bytes zero are one empty option each. -/
theorem toldOpts_zeros (n : Nat) : (toldOpts 0 (List.replicate (n + 1) 0)).length = n := by
  have : ∀ n, (toldOpts 0 (List.replicate (n + 1) 0)) = List.replicate n (.option 0 0) := by
    intro n
    induction n with
    | zero => rw [show List.replicate (0 + 1) (0 : UInt8) = [0] from rfl, toldOpts_option (b := 0) (delta := 0) (len := 0) (bs1 := []) (bs2 := []) (by decide) (by rfl) (by rfl)]; rfl
    | succ n ih =>
      have e : List.replicate (n + 1 + 1) (0 : UInt8) = 0 :: List.replicate (n + 1) 0 := rfl
      have hr : ∀ bs, readExt ((0 : UInt8).toNat / 16) bs = some (0, bs) := fun bs => by simp [readExt]
      have hr' : ∀ bs, readExt ((0 : UInt8).toNat % 16) bs = some (0, bs) := fun bs => by simp [readExt]
      rw [e, toldOpts_option (b := 0) (by decide) (hr _) (hr' _), if_neg (by simp)]
      simp only [Nat.zero_mod, if_true, List.nil_append, List.drop_zero]
      rw [ih]
      rfl
  rw [this n]; simp

end Verif.Props
