import Verif.Props.LegacyAny

/-! # The older dispatch, buffer by buffer (C47) -/
namespace Verif.Props
open Verif.Model Verif.Proofs Verif.Spec Header Dec OptDec

/-- Buffers handed over one by one, none of them the last one, and the calls made so far. -/
def legacySoFar (fuel : Nat) (d : Dec) : List (List UInt8) → Except Fault (Dec × List LEvent)
  | [] => .ok (d, [])
  | c :: cs =>
    match legacyRun fuel d ⟨c, 0, false⟩ with
    | .error e => .error e
    | .ok (d, _, evs) =>
      match legacySoFar fuel d cs with
      | .error e => .error e
      | .ok (d, evs') => .ok (d, evs ++ evs')

/-- The calls for a message are those made with the first buffers, then those made with the others. -/
theorem legacyChunks_append (fuel : Nat) (cs ds : List (List UInt8)) (l : List UInt8) : ∀ (d d1 : Dec) (e1 : List LEvent),
    legacySoFar fuel d cs = .ok (d1, e1) →
    legacyChunks fuel d (cs ++ ds) l =
      match legacyChunks fuel d1 ds l with
      | .error e => .error e
      | .ok (d2, e2) => .ok (d2, e1 ++ e2) := by
  induction cs with
  | nil =>
    intro d d1 e1 h
    simp only [legacySoFar, Except.ok.injEq, Prod.mk.injEq] at h
    obtain ⟨rfl, rfl⟩ := h
    rw [List.nil_append]
    cases legacyChunks fuel d ds l <;> simp
  | cons c cs ih =>
    intro d d1 e1 h
    simp only [legacySoFar] at h
    rw [List.cons_append, legacyChunks]
    split at h
    · cases h
    · rename_i d' c' evs e
      split at h
      · cases h
      · rename_i d'' evs' e'
        simp only [Except.ok.injEq, Prod.mk.injEq] at h
        obtain ⟨rfl, rfl⟩ := h
        rw [e]
        simp only
        rw [ih d' d'' evs' e']
        cases legacyChunks fuel d'' ds l <;> simp

theorem legacy_so_far (cs : List (List UInt8)) (fut : List UInt8) : ∀ (d : Dec) (X : List LEvent), (∀ c ∈ cs, c ≠ []) →
    Left d ⟨[], 0, false⟩ (cs.flatten ++ fut) X → (Going d ∨ d.st = .payload) →
    ∃ N d' evs X', (∀ fuel, N ≤ fuel → legacySoFar fuel d cs = .ok (d', evs)) ∧ X = evs.foldr glueCons X' ∧
      Left d' ⟨[], 0, false⟩ fut X' ∧ LEvent.complete ∉ evs ∧ (Going d' ∨ d'.st = .payload) := by
  induction cs with
  | nil => intro d X _ hl hg; exact ⟨0, d, [], X, fun _ _ => rfl, rfl, by simpa using hl, by simp, hg⟩
  | cons c cs ih =>
    intro d X hne hl hg
    have hc : c ≠ [] := hne c (by simp)
    have hcase : (c ≠ [] ∧ Going d) ∨ d.st = .payload := hg.imp (fun h => ⟨hc, h⟩) id
    obtain ⟨hj, hi, hh, hv, hb⟩ := left_move (c' := ⟨c, 0, false⟩) hl rfl rfl
    have hr : (⟨c, 0, false⟩ : Ctx).remainder = c := rfl
    have hfl : (c :: cs).flatten ++ fut = c ++ (cs.flatten ++ fut) := by simp
    rw [hfl] at hj hh
    obtain ⟨N, d', evs, X', hrun, hX, -, hX'⟩ := legacy_chunk _ d ⟨c, 0, false⟩ (cs.flatten ++ fut) X (Nat.lt_succ_self _)
      (by rw [hr]; exact hj) hv hi (by rw [hr]; exact hh) (by simp) hcase
    obtain ⟨k1, k2⟩ := hX' rfl
    have hl' := left_move (c' := ⟨[], 0, false⟩) k1 rfl rfl
    have hg' : Going d' ∨ d'.st = .payload := by
      rcases hl'.1 with ⟨h, -⟩ | ⟨h, -⟩ | ⟨h, -⟩
      · exact Or.inr h
      · exact Or.inl (by simp [Going, h])
      · exact Or.inl h
    obtain ⟨N', d2, evs', X2, hrun', hX2, hl2, hc2, hg2⟩ := ih d' X' (fun x hx => hne x (by simp [hx])) hl' hg'
    refine ⟨max N N', d2, evs ++ evs', X2, fun fuel hf => ?_, ?_, hl2, ?_, hg2⟩
    · simp only [legacySoFar, hrun fuel (by omega), hrun' fuel (by omega)]
    · rw [hX, hX2, List.foldr_append]
    · simp [k2.1, hc2]

/-- The end of a payload put behind calls that may end in the middle of it. -/
def endPayload : List LEvent → List LEvent
  | [] => [.payload [] true, .complete]
  | [.payload q false] => [.payload q true, .complete]
  | e :: es => e :: endPayload es

theorem endPayload_cons (e : LEvent) (es : List LEvent) (h : ∀ q, e = .payload q false → es ≠ []) :
    endPayload (e :: es) = e :: endPayload es := by
  cases e with
  | payload q l =>
    cases l with
    | false =>
      cases es with
      | nil => exact absurd rfl (h q rfl)
      | cons x xs => rfl
    | true => rfl
  | _ => rfl

theorem glueCons_endPayload (e : LEvent) (G : List LEvent) : glueCons e (endPayload G) = endPayload (glueCons e G) := by
  have other : (∀ q, e ≠ .payload q false) → (∀ n a, e ≠ .value n a false) → glueCons e (endPayload G) = endPayload (glueCons e G) := by
    intro h1 h2
    have : ∀ es, glueCons e es = e :: es := by
      intro es
      cases e with
      | value n a l => cases l <;> first | exact absurd rfl (h2 n a) | rfl
      | payload a l => cases l <;> first | exact absurd rfl (h1 a) | rfl
      | _ => rfl
    rw [this, this, endPayload_cons e G (fun q h => absurd h (h1 q))]
  cases e with
  | value n a l =>
    cases l with
    | true => exact other (by simp) (by simp)
    | false =>
      cases G with
      | nil => rfl
      | cons g G =>
        cases g with
        | value m b l =>
          rw [endPayload_cons _ _ (by simp)]
          simp only [glueCons]
          split
          · rw [endPayload_cons _ _ (by simp)]
          · rw [endPayload_cons _ _ (by simp), endPayload_cons _ _ (by simp)]
        | payload b l =>
          cases l <;> cases G <;> rfl
        | _ => rfl
  | payload a l =>
    cases l with
    | true => exact other (by simp) (by simp)
    | false =>
      cases G with
      | nil => simp [endPayload, glueCons]
      | cons g G =>
        cases g with
        | payload b l => cases l <;> cases G <;> rfl
        | _ => rfl
  | _ => exact other (by simp) (by simp)

theorem foldr_endPayload (evs : List LEvent) : evs.foldr glueCons [.payload [] true, .complete] = endPayload (glue evs) := by
  induction evs with
  | nil => rfl
  | cons e es ih => rw [List.foldr_cons, ih, glueCons_endPayload]; rfl

theorem endPayload_inv (G : List LEvent) : ∀ (A : List LEvent) (x : UInt8) (xs : List UInt8), LEvent.complete ∉ A → LEvent.complete ∉ G →
    endPayload G = A ++ [.payload (x :: xs) true, .complete] → G = A ++ [.payload (x :: xs) false] := by
  induction G with
  | nil =>
    intro A x xs hA _ h
    have := congrArg List.length h
    simp [endPayload] at this
    subst this
    simp [endPayload] at h
  | cons g G ih =>
    intro A x xs hA hG h
    by_cases hg : ∃ q, g = .payload q false ∧ G = []
    · obtain ⟨q, rfl, rfl⟩ := hg
      have := congrArg List.length h
      simp [endPayload] at this
      subst this
      simp only [endPayload, List.nil_append, List.cons.injEq, LEvent.payload.injEq, and_true] at h
      rw [h]; rfl
    · rw [endPayload_cons g G (fun q h1 h2 => hg ⟨q, h1, h2⟩)] at h
      cases A with
      | nil =>
        simp only [List.nil_append, List.cons.injEq] at h
        exfalso
        have h2 := h.2
        cases G with
        | nil => simp [endPayload] at h2
        | cons y ys =>
          by_cases hy : ∃ q, y = .payload q false ∧ ys = []
          · obtain ⟨q, rfl, rfl⟩ := hy; simp [endPayload] at h2
          · rw [endPayload_cons y ys (fun q h1 h2 => hy ⟨q, h1, h2⟩)] at h2
            simp only [List.cons.injEq] at h2
            rw [h2.1] at hG
            simp at hG
      | cons a A =>
        simp only [List.cons_append, List.cons.injEq] at h
        obtain ⟨rfl, h⟩ := h
        rw [ih A x xs (by simp at hA; exact hA.2) (by simp at hG; exact hG.2) h]
        rfl

theorem endPayload_mem (G : List LEvent) : LEvent.complete ∈ endPayload G := by
  induction G with
  | nil => simp [endPayload]
  | cons g G ih =>
    by_cases hg : ∃ q, g = .payload q false ∧ G = []
    · obtain ⟨q, rfl, rfl⟩ := hg; simp [endPayload]
    · rw [endPayload_cons g G (fun q h1 h2 => hg ⟨q, h1, h2⟩)]; simp [ih]

/-- The calls made before the last buffer: the payload so far is not the last part, and nothing is completed. -/
def openEnd (es : List LEvent) : List LEvent :=
  (es.filter (· ≠ .complete)).map fun e => match e with | .payload p _ => .payload p false | e => e

theorem glue_complete (evs : List LEvent) (h : LEvent.complete ∉ evs) : LEvent.complete ∉ glue evs := by
  intro hc
  have := complete_of_glue (X := []) hc h
  cases this

theorem toldAny_shape (b0 b1 b2 b3 : UInt8) (tok rest : List UInt8) :
    ∃ A, toldAny b0 b1 b2 b3 tok rest = A ++ toldPayload (readRest 0 0 rest).2 ∧
      ∀ e ∈ A, e ≠ .complete ∧ ∀ p l, e ≠ .payload p l := by
  refine ⟨(if tok = [] ∧ rest = [] then [] else [.header ⟨b0, b1, b2, b3⟩]) ++
    ((if tok = [] ∨ rest = [] then [] else [.token tok true]) ++ toldOpts 0 rest), by simp [toldAny], ?_⟩
  intro e he
  rcases List.mem_append.mp he with he | he
  · split at he
    · cases he
    · rw [List.mem_singleton.mp he]; simp
  · rcases List.mem_append.mp he with he | he
    · split at he
      · cases he
      · rw [List.mem_singleton.mp he]; simp
    · rcases toldOpts_kind 0 rest e he with ⟨n, l, rfl⟩ | ⟨n, v, l, rfl⟩ <;> simp

theorem openEnd_plain (A : List LEvent) (h : ∀ e ∈ A, e ≠ .complete ∧ ∀ p l, e ≠ .payload p l) : openEnd A = A := by
  unfold openEnd
  rw [List.filter_eq_self.2 (fun e he => by simpa using (h e he).1)]
  conv => rhs; rw [← List.map_id A]
  apply List.map_congr_left
  intro e he
  cases e with
  | payload p l => exact absurd rfl ((h _ he).2 p l)
  | _ => rfl

/-- C47, buffer by buffer: when non-empty buffers holding header, token and arbitrary bytes have been handed over, more of
them to come, the observer has been told exactly what these bytes say, with the parts joined; of a payload the part so
far, not marked as the last one; and no completion. -/
theorem legacy_prompt (junk : Dec) (hj : junk.tbuf.length = 8) (b0 b1 b2 b3 : UInt8) (tok rest : List UInt8)
    (ht : tok.length = (b0 &&& 0x0F).toNat) (h8 : tok.length ≤ 8) (cs : List (List UInt8)) (hne : ∀ c ∈ cs, c ≠ [])
    (hcut : cs.flatten = b0 :: b1 :: b2 :: b3 :: (tok ++ rest)) :
    ∃ N d' evs, (∀ fuel, N ≤ fuel → legacySoFar fuel (fresh junk) cs = .ok (d', evs)) ∧
      glue evs = openEnd (toldAny b0 b1 b2 b3 tok rest) := by
  have hh : HOK (fresh junk) (b0 :: b1 :: b2 :: b3 :: (tok ++ rest)) := by rw [ht] at h8; simpa [HOK, fresh] using h8
  obtain ⟨N, d', evs, X', h1, h2, h3, h4, h5⟩ := legacy_so_far cs [] (fresh junk) _ hne
    (by rw [List.append_nil, hcut]; exact fresh_left junk hj _ hh) (Or.inl (by simp [Going, fresh]))
  refine ⟨N, d', evs, h1, ?_⟩
  rw [lfeed_any junk hj b0 b1 b2 b3 tok rest ht h8] at h2
  obtain ⟨A, hA, hA'⟩ := toldAny_shape b0 b1 b2 b3 tok rest
  have hgc := glue_complete evs h4
  have hAc : LEvent.complete ∉ A := fun h => (hA' _ h).1 rfl
  rw [hA] at h2 ⊢
  rcases h5 with hg | hp
  · rw [owed_nil h3.1 hg] at h2
    have h2' : glue evs = A ++ toldPayload (readRest 0 0 rest).2 := h2.symm
    cases hq : (readRest 0 0 rest).2 with
    | none => rw [h2', hq]; simp only [toldPayload, List.append_nil]; exact (openEnd_plain A hA').symm
    | some p =>
      cases p with
      | nil => rw [h2', hq]; simp only [toldPayload, List.append_nil]; exact (openEnd_plain A hA').symm
      | cons x xs => rw [h2', hq] at hgc; simp [toldPayload] at hgc
  · have hX : X' = [.payload [] true, .complete] := by
      rcases h3.1 with ⟨-, h⟩ | ⟨h, -⟩ | ⟨h, -⟩
      · exact h
      · rw [hp] at h; cases h
      · exact absurd (Or.inl hp) h
    rw [hX, foldr_endPayload] at h2
    cases hq : (readRest 0 0 rest).2 with
    | some p =>
      cases p with
      | cons x xs =>
        rw [hq] at h2
        rw [endPayload_inv (glue evs) A x xs hAc hgc h2.symm]
        have := openEnd_plain A hA'
        simp only [openEnd, toldPayload, List.filter_append, List.map_append] at this ⊢
        rw [this]
        simp
      | nil =>
        rw [hq] at h2
        simp only [toldPayload, List.append_nil] at h2
        exact absurd (h2 ▸ endPayload_mem _) hAc
    | none =>
      rw [hq] at h2
      simp only [toldPayload, List.append_nil] at h2
      exact absurd (h2 ▸ endPayload_mem _) hAc

/-- C47: in every message the calls begin with those for its first buffers: the first buffers - non-empty, holding at least
header and token - are told before anything behind them is looked at, whatever comes behind them. -/
theorem legacy_prompt_prefix (junk : Dec) (hj : junk.tbuf.length = 8) (b0 b1 b2 b3 : UInt8) (tok rest : List UInt8)
    (ht : tok.length = (b0 &&& 0x0F).toNat) (h8 : tok.length ≤ 8) (cs : List (List UInt8)) (hne : ∀ c ∈ cs, c ≠ [])
    (hcut : cs.flatten = b0 :: b1 :: b2 :: b3 :: (tok ++ rest)) :
    ∃ N e1, glue e1 = openEnd (toldAny b0 b1 b2 b3 tok rest) ∧ ∀ fuel, N ≤ fuel → ∀ ds l d2 evs,
      legacyChunks fuel (fresh junk) (cs ++ ds) l = .ok (d2, evs) → ∃ e2, evs = e1 ++ e2 := by
  obtain ⟨N, d', e1, h1, h2⟩ := legacy_prompt junk hj b0 b1 b2 b3 tok rest ht h8 cs hne hcut
  refine ⟨N, e1, h2, fun fuel hf ds l d2 evs h => ?_⟩
  rw [legacyChunks_append fuel cs ds l _ _ _ (h1 fuel hf)] at h
  split at h
  · cases h
  · simp only [Except.ok.injEq, Prod.mk.injEq] at h
    exact ⟨_, h.2.symm⟩

-- two buffers, the second ending inside the payload
example : (∃ d e, legacySoFar 60 (fresh Dec.zero) [[0x41, 1, 0, 7, 0xAA, 0xB3, 0x61], [0x62, 0x63, 0xFF, 1]] = .ok (d, e) ∧
      glue e = [.header ⟨0x41, 1, 0, 7⟩, .token [0xAA] true, .option 11 3, .value 11 [0x61, 0x62, 0x63] true, .payload [1] false]) ∧
    openEnd (toldAny 0x41 1 0 7 [0xAA] [0xB3, 0x61, 0x62, 0x63, 0xFF, 1]) =
      [.header ⟨0x41, 1, 0, 7⟩, .token [0xAA] true, .option 11 3, .value 11 [0x61, 0x62, 0x63] true, .payload [1] false] :=
  ⟨⟨_, _, rfl, by decide⟩, by simp [toldAny, toldOpts, readRest, readExt, toldPayload, openEnd]⟩

end Verif.Props
