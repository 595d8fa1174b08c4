import Verif.Proofs.EndOpen
import Verif.Props.DecoderReport
import Verif.Props.StreamDecoder

/-! # C27 for arbitrary bytes behind header and token, in any number of segments -/
namespace Verif.Props
open Verif.Model Verif.Proofs Verif.Spec Header Dec

theorem glue_report (b0 b1 b2 b3 : UInt8) (tok rest : List UInt8) : glue (reportOf b0 b1 b2 b3 tok rest) = reportOf b0 b1 b2 b3 tok rest := by
  unfold reportOf
  rw [List.append_assoc, glue_noPay]
  · cases (readRest 0 0 rest).2 <;> simp [glue]
  · intro e he c l
    simp only [List.mem_append, List.mem_cons, List.mem_map, List.not_mem_nil, or_false] at he
    rcases he with ((rfl | rfl | rfl) | ⟨o, -, rfl⟩) | rfl <;> simp

theorem Finish.unique {k1 k2 : Nat} {d : Dec} {c : Ctx} {e1 e2 : List Event} (h1 : Finish k1 d c e1) (h2 : Finish k2 d c e2) : e1 = e2 := by
  obtain ⟨d1, -, h1⟩ := h1
  obtain ⟨d2, -, h2⟩ := h2
  have a := h1 k2
  rw [Nat.add_comm, h2] at a
  simp only [Except.ok.injEq, Prod.mk.injEq] at a
  exact a.2.2.symm

/-- C27 (partial: `in_avail()` is 0 at the end or the bytes do not end within an option; with a signed character type no byte of header and
token is 0xFF; the one case of C13): whatever follows header and token, and however it is cut into segments, the decoder completes and reports
what it reports for one buffer, except that the payload comes segment by segment and of an option value that is cut only the beginning. -/
theorem stream_any_delivered_partial (k : SbKind) (junk : Dec) (hj : junk.tbuf.length = 8) (b0 b1 b2 b3 : UInt8) (tok rest : List UInt8)
    (ht : tok.length = (b0 &&& 0x0F).toNat) (h8 : tok.length ≤ 8) (hst : junk.opt.st ≠ .payload ∨ tok ≠ [] ∨ rest ≠ [])
    (hc : k.charSigned = true → ∀ b ∈ [b0, b1, b2, b3] ++ tok, b ≠ 0xFF) (hk : k.endNeg = false ∨ endsOpen rest = false)
    (cur : List UInt8) (more : List (List UInt8)) (hcut : cur ++ more.flatten = [b0, b1, b2, b3] ++ tok ++ rest) :
    ∃ N d' evs, d'.st = .done ∧ Parts (glue evs) (reportOf b0 b1 b2 b3 tok rest) ∧
      ∀ fuel, N ≤ fuel → SDec.processToDone k fuel (fresh junk) ⟨cur, more⟩ = .ok (d', evs) := by
  generalize hB : b0 :: b1 :: b2 :: b3 :: (tok ++ rest) = B
  obtain ⟨hnd, n, e, hf, he⟩ := any_says junk hj b0 b1 b2 b3 tok rest ht h8 hst
  have hend := end_options_any junk hj b0 b1 b2 b3 tok rest ht h8
  rw [hB] at hnd hf he hend
  have hh : HOK (fresh junk) B := by
    rw [← hB]
    simp only [HOK, fresh, List.head?_cons, Option.mem_def, Option.some.injEq]
    rintro b rfl; omega
  have hcl : StreamClean k (fresh junk) B := by
    show Clean k (4 + (B.headD 0 &&& 0x0F).toNat) B
    rw [← hB, List.headD_cons, ← ht, Clean]
    cases hs : k.charSigned with
    | false => simp; omega
    | true =>
      have := hc hs
      rw [if_pos rfl]
      intro b hb
      apply this b
      rw [show b0 :: b1 :: b2 :: b3 :: (tok ++ rest) = ([b0, b1, b2, b3] ++ tok) ++ rest by simp, List.take_left' (by simp; omega)] at hb
      exact hb
  have htot : total ⟨cur, more⟩ = B := by rw [← hB]; simpa [total] using hcut
  have hg : Going (fresh junk) := by simp [Going, fresh]
  have hi : DInv (fresh junk) ⟨B, 0, true⟩ := reach_inv (Reach.init junk B true hj)
  have hrun := seg_run k (fresh junk) ⟨cur, more⟩ (by rw [htot]; exact ⟨hi, hh, hcl⟩) hg (by rw [htot, ← hB]; simp)
  rw [htot] at hrun
  rcases hrun with ⟨h1, n1, evs, s', a1, a2, -, a3, a4, a5⟩ | ⟨h1, n1, fr, ffr, s', a1, a2, -, a3, -, a4, a5, a6⟩
  · have hce : chunkEnd true (feed true (fresh junk) B) =
        ((feed true (fresh junk) B).1 ++ finEv true [] (feed true (fresh junk) B).2.1,
          fin true [] (feed true (fresh junk) B).2.1) := by simp [chunkEnd, h1]
    rw [hce] at hnd hf he
    have hnp : (fin true [] (feed true (fresh junk) B).2.1).st ≠ .payload := by
      unfold fin; split
      · simp
      · exact h1
    have hend' : k.endNeg = false ∨ (fin true [] (feed true (fresh junk) B).2.1).st ≠ .options := by
      rcases hk with hk | hk
      · exact Or.inl hk
      · refine Or.inr fun h => ?_
        rw [hend.1 h] at hk
        cases hk
    obtain ⟨d', hd', hall⟩ := finish_stream hend' a4 hnp (hf _ ⟨rfl, rfl⟩) s' a1
    refine ⟨n1 + n, d', evs ++ e, hd', ?_, fun fuel hfu => ?_⟩
    · have hx : NoPay ((feed true (fresh junk) B).1 ++ finEv true [] (feed true (fresh junk) B).2.1) := Parts.noPay a3 a2
      have hge : glue e = e := by
        have h2 := glue_report b0 b1 b2 b3 tok rest
        rw [← he, glue_noPay _ _ hx] at h2
        exact List.append_cancel_left h2
      rw [glue_noPay _ _ a2, hge, ← he]
      exact a3.append (Parts.refl e)
    · obtain ⟨g, rfl⟩ := Nat.exists_eq_add_of_le hfu
      rw [Nat.add_assoc, a5, hall]; rfl
  · have he' : e = [.completed] := by
      have := hf ⟨[], 0, true⟩ ⟨rfl, rfl⟩
      exact Finish.unique this (finish_payloadDone (by simp [chunkEnd, h1]))
    subst he'
    have hce : (chunkEnd true (feed true (fresh junk) B)).1 = (feed true (fresh junk) B).1 := by
      simp [chunkEnd, h1]
    rw [hce, a1] at he
    obtain ⟨n2, d', hd', hall⟩ := payload_phase k _ h1 s'.more
    refine ⟨n1 + n2, d', fr ++ .payload s'.cur (s'.more.all (·.isEmpty)) :: (pays s'.more ++ [.completed]), hd', ?_, fun fuel hfu => ?_⟩
    · rw [glue_noPay _ _ a2, glue_pays, ← he, ← a4, List.append_assoc]
      exact a3.append (Parts.refl _)
    · obtain ⟨g, rfl⟩ := Nat.exists_eq_add_of_le hfu
      rw [Nat.add_assoc, a6, hall]
      simp [preS]

/-- The decoder on a buffer never reads past its end. -/
theorem toDone_no_overread (fuel : Nat) (d : Dec) (c : Ctx) (hi : DInv d c) : Dec.processToDone fuel d c ≠ .error .chunkOverread := by
  induction fuel generalizing d c with
  | zero => intro h; cases h
  | succ n ih =>
    rw [Dec.processToDone]
    rcases stepNotify_inv d c hi with ⟨e', _⟩ | ⟨d2, c2, evs2, e', hi2, _⟩
    · rw [e']; intro h; cases h
    · rw [e']
      simp only
      by_cases hdn : (d2.st == .done) = true
      · simp [hdn]
      · simp only [hdn, Bool.false_eq_true, if_false]
        have := ih d2 c2 hi2
        intro h
        cases e : Dec.processToDone n d2 c2 with
        | error x =>
          rw [e] at h this
          simp only at h
          exact this (by rw [Except.error.inj h])
        | ok x => rw [e] at h; cases h

/-- C27: where the data do not end within an option, it makes no difference what `in_avail()` is at the end, for any number of steps. -/
theorem stream_any_same (k : SbKind) (junk : Dec) (hj : junk.tbuf.length = 8) (b0 b1 b2 b3 : UInt8) (tok rest : List UInt8)
    (ht : tok.length = (b0 &&& 0x0F).toNat) (h8 : tok.length ≤ 8)
    (hc : k.charSigned = true → ∀ b ∈ [b0, b1, b2, b3] ++ tok, b ≠ 0xFF) (hk : endsOpen rest = false)
    (cur : List UInt8) (more : List (List UInt8)) (hcut : cur ++ more.flatten = [b0, b1, b2, b3] ++ tok ++ rest) (fuel : Nat) :
    SDec.processToDone k fuel (fresh junk) ⟨cur, more⟩ = SDec.processToDone ⟨k.charSigned, false⟩ fuel (fresh junk) ⟨cur, more⟩ := by
  rcases toDone_zeroEnd_or k fuel (fresh junk) ⟨cur, more⟩ with h | h
  · exact h
  exfalso
  generalize hB : b0 :: b1 :: b2 :: b3 :: (tok ++ rest) = B
  have hend := end_options_any junk hj b0 b1 b2 b3 tok rest ht h8
  rw [hB, hk] at hend
  have hh : HOK (fresh junk) B := by
    rw [← hB]
    simp only [HOK, fresh, List.head?_cons, Option.mem_def, Option.some.injEq]
    rintro b rfl; omega
  have hcl : StreamClean k (fresh junk) B := by
    show Clean k (4 + (B.headD 0 &&& 0x0F).toNat) B
    rw [← hB, List.headD_cons, ← ht, Clean]
    cases hs : k.charSigned with
    | false => simp; omega
    | true =>
      have := hc hs
      rw [if_pos rfl]
      intro b hb
      apply this b
      rw [show b0 :: b1 :: b2 :: b3 :: (tok ++ rest) = ([b0, b1, b2, b3] ++ tok) ++ rest by simp, List.take_left' (by simp; omega)] at hb
      exact hb
  have htot : total ⟨cur, more⟩ = B := by rw [← hB]; simpa [total] using hcut
  have hg : Going (fresh junk) := by simp [Going, fresh]
  have hi : DInv (fresh junk) ⟨B, 0, true⟩ := reach_inv (Reach.init junk B true hj)
  have hrun := seg_run k (fresh junk) ⟨cur, more⟩ (by rw [htot]; exact ⟨hi, hh, hcl⟩) hg (by rw [htot, ← hB]; simp)
  rw [htot] at hrun
  rcases hrun with ⟨h1, n1, evs, s', a1, a2, -, a3, a4, a5⟩ | ⟨h1, n1, fr, ffr, s', a1, a2, -, a3, -, a4, a5, a6⟩
  · have hnp : (fin true [] (feed true (fresh junk) B).2.1).st ≠ .payload := by
      unfold fin; split
      · simp
      · exact h1
    have hno : (fin true [] (feed true (fresh junk) B).2.1).st ≠ .options := fun h => by cases hend.1 h
    have hm := toDone_more k fuel n1 (fresh junk) ⟨cur, more⟩ (by rw [h]; simp)
    rw [h, Nat.add_comm, a5] at hm
    generalize fin true [] (feed true (fresh junk) B).2.1 = d1 at hnp hno hm a4
    have hp : SDec.processToDone k fuel d1 s' = SDec.processToDone k fuel d1 ⟨[], []⟩ := by
      have : s'.pull = (⟨[], []⟩ : Sb).pull := by
        rw [pull_nil ((pull_nil_iff s').2 a1), pull_one]
      cases fuel with
      | zero => rfl
      | succ g => simp only [SDec.processToDone, SDec.stepNotify, SDec.step, this]
    rw [hp, ← toDone_zeroEnd_end k fuel d1 ⟨[], []⟩ hno rfl,
      toDone_same (zeroEnd k) rfl fuel d1 ⟨[], 0, true⟩ ⟨[], []⟩ a4.inv ⟨rfl, rfl, by rw [if_neg hnp]; rfl⟩ a4.clean] at hm
    have := toDone_no_overread fuel d1 ⟨[], 0, true⟩ a4.inv
    cases e : Dec.processToDone fuel d1 ⟨[], 0, true⟩ with
    | error x =>
      rw [e] at hm this
      simp only [preS] at hm
      exact this (by rw [Except.error.inj hm])
    | ok x => rw [e] at hm; simp only [preS] at hm; cases hm
  · obtain ⟨n2, d', hd', hall⟩ := payload_phase k _ h1 s'.more
    have hm := toDone_more k fuel (n1 + n2) (fresh junk) ⟨cur, more⟩ (by rw [h]; simp)
    rw [h, show fuel + (n1 + n2) = n1 + (n2 + fuel) by omega, a6, hall] at hm
    simp [preS] at hm

/-- C27 fails where `in_avail()` is -1 at the end, for every datagram, however cut into segments, that ends within an option: the decoder reads
past the end. -/
theorem stream_any_overreads (k : SbKind) (hn : k.endNeg = true) (junk : Dec) (hj : junk.tbuf.length = 8) (b0 b1 b2 b3 : UInt8)
    (tok rest : List UInt8) (ht : tok.length = (b0 &&& 0x0F).toNat) (h8 : tok.length ≤ 8)
    (hc : k.charSigned = true → ∀ b ∈ [b0, b1, b2, b3] ++ tok, b ≠ 0xFF) (hk : endsOpen rest = true)
    (cur : List UInt8) (more : List (List UInt8)) (hcut : cur ++ more.flatten = [b0, b1, b2, b3] ++ tok ++ rest) :
    ∃ N, ∀ fuel, N ≤ fuel → SDec.processToDone k fuel (fresh junk) ⟨cur, more⟩ = .error .chunkOverread := by
  generalize hB : b0 :: b1 :: b2 :: b3 :: (tok ++ rest) = B
  have hend := (end_options_any junk hj b0 b1 b2 b3 tok rest ht h8).2 hk
  rw [hB] at hend
  have hh : HOK (fresh junk) B := by
    rw [← hB]
    simp only [HOK, fresh, List.head?_cons, Option.mem_def, Option.some.injEq]
    rintro b rfl; omega
  have hcl : StreamClean k (fresh junk) B := by
    show Clean k (4 + (B.headD 0 &&& 0x0F).toNat) B
    rw [← hB, List.headD_cons, ← ht, Clean]
    cases hs : k.charSigned with
    | false => simp; omega
    | true =>
      have := hc hs
      rw [if_pos rfl]
      intro b hb
      apply this b
      rw [show b0 :: b1 :: b2 :: b3 :: (tok ++ rest) = ([b0, b1, b2, b3] ++ tok) ++ rest by simp, List.take_left' (by simp; omega)] at hb
      exact hb
  have htot : total ⟨cur, more⟩ = B := by rw [← hB]; simpa [total] using hcut
  have hg : Going (fresh junk) := by simp [Going, fresh]
  have hi : DInv (fresh junk) ⟨B, 0, true⟩ := reach_inv (Reach.init junk B true hj)
  have hrun := seg_run k (fresh junk) ⟨cur, more⟩ (by rw [htot]; exact ⟨hi, hh, hcl⟩) hg (by rw [htot, ← hB]; simp)
  rw [htot] at hrun
  rcases hrun with ⟨h1, n1, evs, s', a1, -, -, -, -, a5⟩ | ⟨h1, -⟩
  · refine ⟨n1 + 1, fun fuel hf => ?_⟩
    obtain ⟨g, rfl⟩ := Nat.exists_eq_add_of_le hf
    rw [show n1 + 1 + g = n1 + (g + 1) by omega, a5]
    simp only [SDec.processToDone, SDec.stepNotify, step_starved k hn _ s' hend ((pull_nil_iff s').2 a1), preS]
  · rw [fin_of_ne (by simp [h1])] at hend
    rw [h1] at hend; cases hend

/-- C27, exactly, for all datagrams that hold their header and token, and all divisions into segments: the decoder completes if and only if
`in_avail()` is 0 at the end of the data or the data do not end within an option. -/
theorem stream_any_completes_iff (k : SbKind) (junk : Dec) (hj : junk.tbuf.length = 8) (b0 b1 b2 b3 : UInt8) (tok rest : List UInt8)
    (ht : tok.length = (b0 &&& 0x0F).toNat) (h8 : tok.length ≤ 8) (hst : junk.opt.st ≠ .payload ∨ tok ≠ [] ∨ rest ≠ [])
    (hc : k.charSigned = true → ∀ b ∈ [b0, b1, b2, b3] ++ tok, b ≠ 0xFF)
    (cur : List UInt8) (more : List (List UInt8)) (hcut : cur ++ more.flatten = [b0, b1, b2, b3] ++ tok ++ rest) :
    (∃ fuel x, SDec.processToDone k fuel (fresh junk) ⟨cur, more⟩ = .ok x) ↔ (k.endNeg = false ∨ endsOpen rest = false) := by
  constructor
  · rintro ⟨fuel, x, hx⟩
    by_cases h1 : k.endNeg = true
    · by_cases h2 : endsOpen rest = true
      · obtain ⟨N, hN⟩ := stream_any_overreads k h1 junk hj b0 b1 b2 b3 tok rest ht h8 hc h2 cur more hcut
        have := toDone_more k fuel N (fresh junk) ⟨cur, more⟩ (by rw [hx]; simp)
        rw [hN (fuel + N) (by omega), hx] at this
        cases this
      · exact Or.inr (by simpa using h2)
    · exact Or.inl (by simpa using h1)
  · intro hk
    obtain ⟨N, d', evs, -, -, hN⟩ := stream_any_delivered_partial k junk hj b0 b1 b2 b3 tok rest ht h8 hst hc hk cur more hcut
    exact ⟨N, _, hN N (Nat.le_refl _)⟩

/-- A datagram that ends within the value of its last option, in three segments: read past the end or reported as cut off. -/
example : SDec.processToDone ⟨true, true⟩ 30 Dec.zero ⟨[0x41, 1, 0], [[1, 0xAA, 0xB1, 0x61], [0x43, 5]]⟩ = .error .chunkOverread ∧
    (SDec.processToDone ⟨true, false⟩ 30 Dec.zero ⟨[0x41, 1, 0], [[1, 0xAA, 0xB1, 0x61], [0x43, 5]]⟩).map (·.2) =
      .ok [.header ⟨0x41, 1, 0, 1⟩, .token [0xAA], .optionStart, .option 11 [0x61] true, .option 15 [5] false, .optionsCompleted, .completed] := by
  decide +kernel

example : endsOpen [0xB1, 0x61, 0x43, 5] = true := by simp [endsOpen, readExt]

end Verif.Props
