import Verif.Spec.CborWalk
import Verif.Props.CborDoc

/-! # C82: the loop of the CBOR example on any bytes -/
namespace Verif.Props
open Verif.Model Verif.Model.Cbor Verif.Spec Verif.Proofs Verif.Proofs.Cbor

/-! ## It ends -/

theorem iterate_cases {d d' : CDec} {b : UInt8} {adv : Bool} (e : d.iterate b = some (d', adv)) :
    d.st = .headerStart ∧ d'.st = .header ∧ adv = false ∧ d'.hdr = d.hdr ∨
    d.st = .header ∧ d'.st = .headerDone ∧ adv = true ∧ d'.hdr = b ∨
    d.st = .headerDone ∧ (d'.st = .itemDone ∨ d'.st = .longStart ∨ d'.st = .additionalStart) ∧ adv = false ∧ d'.hdr = d.hdr ∨
    d.st = .additionalStart ∧ d'.st = .additional ∧ adv = false ∧ d'.hdr = d.hdr ∨
    d.st = .additional ∧ (d'.st = .additionalDone ∨ d'.st = .additional) ∧ adv = true ∧ d'.hdr = d.hdr ∨
    d.st = .additionalDone ∧ (d'.st = .itemDone ∨ d'.st = .longStart) ∧ adv = false ∧ d'.hdr = d.hdr ∨
    (d.st = .longStart ∨ d.st = .long ∨ d.st = .longDone) ∧ d' = d ∧ adv = false ∨
    d.st = .itemDone ∧ d'.st = .headerStart ∧ adv = false ∧ d'.hdr = d.hdr := by
  obtain ⟨buf, hdr, p, st⟩ := d
  cases st <;> simp only [CDec.iterate] at e
  case headerStart => cases e; simp
  case header => cases e; simp
  case headerDone =>
    split at e
    · cases e; simp only [reduceCtorEq, false_and, true_and, false_or, and_true, or_false]; split <;> simp
    · cases e; simp
  case additionalStart => cases e; simp
  case additional =>
    split at e
    · cases e
    · cases e; simp only [reduceCtorEq, false_and, true_and, false_or, and_true, or_false]; split <;> simp
  case additionalDone => cases e; simp only [reduceCtorEq, false_and, true_and, false_or, and_true, or_false]; split <;> simp
  case longStart => cases e; simp
  case long => cases e; simp
  case longDone => cases e; simp
  case itemDone => cases e; simp

/-- How many steps without a byte may lie ahead. -/
def walkRank : CState → Nat
  | .headerStart => 1
  | .itemDone => 2
  | .headerDone => 3
  | .additionalDone => 3
  | .additionalStart => 1
  | _ => 0

/-- A state the loop can be in. -/
def WalkState (s : CState) : Prop := s ≠ .longStart ∧ s ≠ .long ∧ s ≠ .longDone

theorem printing_fuel {ls : List WLine} {r : Except WFault (List WLine)} (h : r ≠ .error .outOfFuel) :
    printing ls r ≠ .error .outOfFuel := by
  cases r with
  | error e => simpa [printing] using h
  | ok r => simp [printing]

theorem walk_ends (mem : Nat → Option UInt8) (chunk : List UInt8) : ∀ (n : Nat) (d : CDec) (pos : Nat), WalkState d.st →
    4 * (chunk.length + 1 - pos) + walkRank d.st = n → ∃ r, r ≠ .error .outOfFuel ∧ ∀ fuel, n < fuel → walk mem chunk fuel d pos = r := by
  intro n
  induction n using Nat.strongRecOn with
  | _ n ih =>
    intro d pos hs hn
    by_cases hc : (pos < chunk.length || (pos == chunk.length && d.st != .itemDone)) = true
    · have hpos : pos ≤ chunk.length := by simp at hc; omega
      cases hp : peek mem chunk pos with
      | none =>
        refine ⟨.error .unreadable, by simp, fun fuel hf => ?_⟩
        obtain ⟨f, rfl⟩ : ∃ f, fuel = f + 1 := ⟨fuel - 1, by omega⟩
        rw [walk, if_pos hc, hp]
      | some b =>
        cases hi : d.iterate b with
        | none =>
          refine ⟨.error .overflow, by simp, fun fuel hf => ?_⟩
          obtain ⟨f, rfl⟩ : ∃ f, fuel = f + 1 := ⟨fuel - 1, by omega⟩
          simp only [walk, if_pos hc, hp, hi]
        | some y =>
          obtain ⟨d', adv⟩ := y
          generalize hpp : (if adv then pos + 1 else pos) = pos'
          have step : ∀ (d1 : CDec) (pos1 : Nat), WalkState d1.st → pos' ≤ pos1 →
              (4 * (chunk.length + 1 - pos') + walkRank d1.st < n) →
              ∃ r, r ≠ .error .outOfFuel ∧ ∀ f, n ≤ f → walk mem chunk f d1 pos1 = r := by
            intro d1 pos1 h1 h2 h3
            obtain ⟨r, hr, e⟩ := ih (4 * (chunk.length + 1 - pos1) + walkRank d1.st) (by omega) d1 pos1 h1 rfl
            exact ⟨r, hr, fun f hf => e f (by omega)⟩
          have hmove : WalkState d'.st ∨ d'.st = .longStart := by
            rcases iterate_cases hi with h | h | h | h | h | h | h | h
            · left; rw [h.2.1]; simp [WalkState]
            · left; rw [h.2.1]; simp [WalkState]
            · rcases h.2.1 with h | h | h <;> rw [h] <;> simp [WalkState]
            · left; rw [h.2.1]; simp [WalkState]
            · rcases h.2.1 with h | h <;> rw [h] <;> simp [WalkState]
            · rcases h.2.1 with h | h <;> rw [h] <;> simp [WalkState]
            · left; rw [h.2.1]; exact hs
            · left; rw [h.2.1]; simp [WalkState]
          have hless : WalkState d'.st → 4 * (chunk.length + 1 - pos') + walkRank d'.st < n := by
            intro hw
            subst hpp
            rw [← hn]
            rcases iterate_cases hi with h | h | h | h | h | h | h | h
            · rw [h.1, h.2.1, h.2.2.1]; simp [walkRank]
            · rw [h.1, h.2.1, h.2.2.1]; simp [walkRank]; omega
            · rcases h.2.1 with h' | h' | h'
              · rw [h.1, h', h.2.2.1]; simp [walkRank]
              · exact absurd h' hw.1
              · rw [h.1, h', h.2.2.1]; simp [walkRank]
            · rw [h.1, h.2.1, h.2.2.1]; simp [walkRank]
            · rcases h.2.1 with h' | h' <;> rw [h.1, h', h.2.2.1] <;> simp [walkRank] <;> omega
            · rcases h.2.1 with h' | h'
              · rw [h.1, h', h.2.2.1]; simp [walkRank]
              · exact absurd h' hw.1
            · rcases h.1 with h' | h' | h'
              · exact absurd h' hs.1
              · exact absurd h' hs.2.1
              · exact absurd h' hs.2.2
            · rw [h.1, h.2.1, h.2.2.1]; simp [walkRank]
          have hlong : d'.st = .longStart → 4 * (chunk.length + 1 - pos') + walkRank d'.fastForward.st < n := by
            intro hw
            subst hpp
            rw [← hn]
            rcases iterate_cases hi with h | h | h | h | h | h | h | h
            · rw [h.2.1] at hw; cases hw
            · rw [h.2.1] at hw; cases hw
            · rw [h.1, h.2.2.1]; simp [walkRank, CDec.fastForward]
            · rw [h.2.1] at hw; cases hw
            · rcases h.2.1 with h' | h' <;> rw [h'] at hw <;> cases hw
            · rw [h.1, h.2.2.1]; simp [walkRank, CDec.fastForward]
            · rw [h.2.1] at hw; exact absurd hw hs.1
            · rw [h.2.1] at hw; cases hw
          have hff : WalkState d'.fastForward.st := by simp [CDec.fastForward, WalkState]
          have fin : ∀ (ls : List WLine) (d1 : CDec) (pos1 : Nat), WalkState d1.st → pos' ≤ pos1 →
              (4 * (chunk.length + 1 - pos') + walkRank d1.st < n) →
              ∃ r, r ≠ .error .outOfFuel ∧ ∀ f, n ≤ f → printing ls (walk mem chunk f d1 pos1) = r := by
            intro ls d1 pos1 h1 h2 h3
            obtain ⟨r, hr, e⟩ := step d1 pos1 h1 h2 h3
            exact ⟨printing ls r, printing_fuel hr, fun f hf => by rw [e f hf]⟩
          have last : ∃ r, r ≠ .error .outOfFuel ∧ ∀ f, n ≤ f → walk mem chunk (f + 1) d pos = r := by
            by_cases hl : d'.st = .longStart
            · by_cases hind : d'.isIndeterminate = true
              · obtain ⟨r, hr, e⟩ := fin [.enter] d'.fastForward pos' hff (Nat.le_refl _) (hlong hl)
                refine ⟨r, hr, fun f hf => ?_⟩
                simp only [walk, if_pos hc, hp, hi, hpp, hl, beq_self_eq_true, if_true, hind]
                exact e f hf
              · by_cases hty : (d'.type == 3) = true
                · cases ht : peekText mem chunk pos' (d'.unsigned 16) with
                  | none =>
                    refine ⟨.error .unreadable, by simp, fun f hf => ?_⟩
                    simp only [walk, if_pos hc, hp, hi, hpp, hl, beq_self_eq_true, if_true, hind, hty, ht]; simp
                  | some s =>
                    obtain ⟨r, hr, e⟩ := fin [.text s, .skip (d'.unsigned 16)] d'.fastForward (pos' + d'.unsigned 16) hff (by omega) (hlong hl)
                    refine ⟨r, hr, fun f hf => ?_⟩
                    simp only [walk, if_pos hc, hp, hi, hpp, hl, beq_self_eq_true, if_true, hind, hty, ht]
                    simpa using e f hf
                · obtain ⟨r, hr, e⟩ := fin [.skip (d'.unsigned 16)] d'.fastForward (pos' + d'.unsigned 16) hff (by omega) (hlong hl)
                  refine ⟨r, hr, fun f hf => ?_⟩
                  simp only [walk, if_pos hc, hp, hi, hpp, hl, beq_self_eq_true, if_true, hind, hty]
                  simpa using e f hf
            · have hw : WalkState d'.st := hmove.resolve_right hl
              have hlb : (d'.st == .longStart) = false := by simpa using hl
              by_cases hdn : (d'.st == .itemDone) = true
              · obtain ⟨r, hr, e⟩ := fin [.int (d'.integer 16)] d' pos' hw (Nat.le_refl _) (hless hw)
                refine ⟨r, hr, fun f hf => ?_⟩
                simp only [walk, if_pos hc, hp, hi, hpp, hlb, hdn]
                simpa using e f hf
              · by_cases hhd : (d'.st == .headerDone) = true
                · obtain ⟨r, hr, e⟩ := fin [.type d'.type] d' pos' hw (Nat.le_refl _) (hless hw)
                  refine ⟨r, hr, fun f hf => ?_⟩
                  simp only [walk, if_pos hc, hp, hi, hpp, hlb, hdn, hhd]
                  simpa using e f hf
                · obtain ⟨r, hr, e⟩ := step d' pos' hw (Nat.le_refl _) (hless hw)
                  refine ⟨r, hr, fun f hf => ?_⟩
                  simp only [walk, if_pos hc, hp, hi, hpp, hlb, hdn, hhd]
                  simpa using e f hf
          obtain ⟨r, hr, e⟩ := last
          refine ⟨r, hr, fun fuel hf => ?_⟩
          obtain ⟨f, rfl⟩ : ∃ f, fuel = f + 1 := ⟨fuel - 1, by omega⟩
          exact e f (by omega)
    · refine ⟨.ok [], by simp, fun fuel hf => ?_⟩
      obtain ⟨f, rfl⟩ : ∃ f, fuel = f + 1 := ⟨fuel - 1, by omega⟩
      rw [walk, if_neg hc]

/-- C82: over any bytes, whatever lies in memory behind them and in the decoder, the loop comes to an end. -/
theorem cbor_walk_ends (mem : Nat → Option UInt8) (payload : List UInt8) (junk : CDec) :
    ∃ r, r ≠ .error .outOfFuel ∧ ∀ fuel, 4 * payload.length + 6 ≤ fuel → walkPayload mem fuel junk payload = r := by
  obtain ⟨r, hr, e⟩ := walk_ends mem payload _ junk.fresh 0 (by simp [CDec.fresh, WalkState]) rfl
  exact ⟨r, hr, fun fuel hf => e fuel (by simp [CDec.fresh, walkRank]; omega)⟩

/-! ## What it prints -/

/-- What the loop does where the decoder has stopped. -/
def walkAfter (mem : Nat → Option UInt8) (chunk : List UInt8) (fuel : Nat) (d : CDec) (pos : Nat) : Except WFault (List WLine) :=
  if d.st == .longStart then
    if d.isIndeterminate then printing [.enter] (walk mem chunk fuel d.fastForward pos)
    else
      if d.type == 3 then
        match peekText mem chunk pos (d.unsigned 16) with
        | none => .error .unreadable
        | some s => printing [.text s, .skip (d.unsigned 16)] (walk mem chunk fuel d.fastForward (pos + d.unsigned 16))
      else printing [.skip (d.unsigned 16)] (walk mem chunk fuel d.fastForward (pos + d.unsigned 16))
  else printing [.int (d.integer 16)] (walk mem chunk fuel d pos)

theorem printing_nil (r : Except WFault (List WLine)) : printing [] r = r := by cases r <;> rfl

theorem printing_append (a b : List WLine) (r : Except WFault (List WLine)) : printing a (printing b r) = printing (a ++ b) r := by
  cases r <;> simp [printing]

theorem process_forward (j : UInt8) (chunk : List UInt8) : ∀ (f : Nat) (d : CDec) (pos : Nat) (d' : CDec) (pos' : Nat) (eof : Bool),
    process j chunk f d pos = some (some (d', pos', eof)) → pos ≤ pos' := by
  intro f
  induction f with
  | zero => intro d pos d' pos' eof h; simp [process] at h
  | succ f ih =>
    intro d pos d' pos' eof h
    rw [process] at h
    split at h
    · split at h
      · cases h
      · rename_i d1 adv _
        have h1 : pos ≤ (if adv then pos + 1 else pos) := by split <;> omega
        simp only at h
        split at h
        · cases h; exact h1
        · exact Nat.le_trans h1 (ih _ _ _ _ _ h)
    · cases h; exact Nat.le_refl _

/-- The decoder has not yet read the first byte of the item it will stop at. -/
def Ahead (s : CState) : Bool := s == .headerStart || s == .header || s == .itemDone

theorem peek_in (mem : Nat → Option UInt8) (j : UInt8) (chunk : List UInt8) (pos : Nat) (h : pos < chunk.length) :
    peek mem chunk pos = some (chunk.getD pos j) := by
  rw [peek, if_pos h, List.getD_eq_getElem?_getD, List.getD_eq_getElem?_getD, List.getElem?_eq_getElem h]; rfl

/-- The loop goes where the streaming decoder goes. -/
theorem walk_process (mem : Nat → Option UInt8) (j : UInt8) (chunk : List UInt8) : ∀ (f : Nat) (d : CDec) (pos : Nat) (d' : CDec) (pos' : Nat),
    process j chunk f d pos = some (some (d', pos', false)) → (pos' < chunk.length ∨ mem 0 = some j) →
    (Ahead d.st = false → d'.hdr = d.hdr) ∧ ∃ k, k ≤ f ∧ ∀ F, walk mem chunk (F + k) d pos =
      printing (if Ahead d.st then [.type d'.type] else []) (walkAfter mem chunk F d' pos') := by
  intro f
  induction f with
  | zero => intro d pos d' pos' h; simp [process] at h
  | succ f ih =>
    intro d pos d' pos' h hm
    have hfw := process_forward _ _ _ _ _ _ _ _ h
    rw [process] at h
    split at h
    · rename_i hc
      have hp : peek mem chunk pos = some (chunk.getD pos j) := by
        by_cases hl : pos < chunk.length
        · exact peek_in mem j chunk pos hl
        · have hpl : pos = chunk.length := by simp at hc; omega
          have hmj := hm.resolve_left (by omega)
          rw [peek, if_neg hl, hpl, Nat.sub_self, hmj, List.getD_eq_getElem?_getD, List.getElem?_eq_none (by omega)]; rfl
      split at h
      · cases h
      · rename_i d1 adv hi
        simp only at h
        split at h
        · rename_i hst
          cases h
          have hcase : Ahead d.st = false ∧ d'.hdr = d.hdr := by
            rcases iterate_cases hi with h | h | h | h | h | h | h | h
            · rw [h.2.1] at hst; simp at hst
            · rw [h.2.1] at hst; simp at hst
            · exact ⟨by rw [h.1]; rfl, h.2.2.2⟩
            · rw [h.2.1] at hst; simp at hst
            · rcases h.2.1 with h' | h' <;> rw [h'] at hst <;> simp at hst
            · exact ⟨by rw [h.1]; rfl, h.2.2.2⟩
            · refine ⟨?_, by rw [h.2.1]⟩
              rcases h.1 with h' | h' | h' <;> rw [h'] <;> rfl
            · rw [h.2.1] at hst; simp at hst
          refine ⟨fun _ => hcase.2, 1, by omega, fun F => ?_⟩
          rw [hcase.1]
          simp only [Bool.false_eq_true, if_false, printing_nil]
          simp only [walk, if_pos hc, hp, hi, walkAfter]
          by_cases hl : (d'.st == .longStart) = true
          · simp only [hl, if_true]; rfl
          · have hdn : (d'.st == .itemDone) = true := by simp only [Bool.or_eq_true] at hst; exact hst.resolve_left hl
            simp only [hl, hdn, if_true]; simp
        · rename_i hst
          obtain ⟨g1, k, hk, g2⟩ := ih _ _ _ _ h hm
          have hl : (d1.st == .longStart) = false := by simp only [Bool.or_eq_true, not_or] at hst; simpa using hst.1
          have hdn : (d1.st == .itemDone) = false := by simp only [Bool.or_eq_true, not_or] at hst; simpa using hst.2
          refine ⟨?_, k + 1, by omega, fun F => ?_⟩
          · intro ha
            rcases iterate_cases hi with h | h | h | h | h | h | h | h
            · rw [h.1] at ha; simp [Ahead] at ha
            · rw [h.1] at ha; simp [Ahead] at ha
            · rw [g1, h.2.2.2]
              rcases h.2.1 with h' | h' | h' <;> rw [h'] <;> rw [h'] at hl hdn <;> simp at hl hdn ⊢ <;> rfl
            · rw [g1 (by rw [h.2.1]; rfl), h.2.2.2]
            · rw [g1 (by rcases h.2.1 with h' | h' <;> rw [h'] <;> rfl), h.2.2.2]
            · rcases h.2.1 with h' | h' <;> rw [h'] at hl hdn <;> simp at hl hdn
            · rw [g1 (by rw [h.2.1]; exact ha), h.2.1]
            · rw [h.1] at ha; simp [Ahead] at ha
          · rw [show F + (k + 1) = (F + k) + 1 from rfl]
            simp only [walk, if_pos hc, hp, hi, hl, hdn, Bool.false_eq_true, if_false, g2 F]
            by_cases hhd : (d1.st == .headerDone) = true
            · have h0 : d1.st = .headerDone := by simpa using hhd
              have hA : Ahead d1.st = false := by rw [h0]; rfl
              have hty : d1.type = d'.type := by simp only [CDec.type, g1 hA]
              have hB : Ahead d.st = true := by
                rcases iterate_cases hi with h | h | h | h | h | h | h | h
                · rw [h.2.1] at h0; cases h0
                · rw [h.1]; rfl
                · rcases h.2.1 with h' | h' | h' <;> rw [h'] at h0 <;> cases h0
                · rw [h.2.1] at h0; cases h0
                · rcases h.2.1 with h' | h' <;> rw [h'] at h0 <;> cases h0
                · rcases h.2.1 with h' | h' <;> rw [h'] at h0 <;> cases h0
                · rw [h.2.1] at h0; rcases h.1 with h' | h' | h' <;> rw [h'] at h0 <;> cases h0
                · rw [h.2.1] at h0; cases h0
              simp only [hhd, if_true, hA, hB, Bool.false_eq_true, if_false, printing_nil, hty]
            · have hsame : Ahead d1.st = Ahead d.st := by
                rcases iterate_cases hi with h | h | h | h | h | h | h | h
                · rw [h.1, h.2.1]; rfl
                · rw [h.2.1] at hhd; exact absurd rfl hhd
                · rw [h.1]
                  rcases h.2.1 with h' | h' | h' <;> rw [h'] at hl hdn <;> simp at hl hdn
                  rw [h']; rfl
                · rw [h.1, h.2.1]; rfl
                · rw [h.1]; rcases h.2.1 with h' | h' <;> rw [h'] <;> rfl
                · rcases h.2.1 with h' | h' <;> rw [h'] at hl hdn <;> simp at hl hdn
                · rw [h.2.1]
                · rw [h.1, h.2.1]; rfl
              simp only [hhd, hsame, Bool.false_eq_true, if_false]
    · cases h

/-- If the decoder stops right at the end, a byte behind the end is read. -/
theorem walk_process_behind (mem : Nat → Option UInt8) (hm : mem 0 = none) (j : UInt8) (chunk : List UInt8) :
    ∀ (f : Nat) (d : CDec) (pos : Nat) (d' : CDec), process j chunk f d pos = some (some (d', chunk.length, false)) →
    ∃ k, k ≤ f ∧ ∀ F, walk mem chunk (F + k) d pos = .error .unreadable := by
  intro f
  induction f with
  | zero => intro d pos d' h; simp [process] at h
  | succ f ih =>
    intro d pos d' h
    rw [process] at h
    split at h
    · rename_i hc
      by_cases hl : pos < chunk.length
      · split at h
        · cases h
        · rename_i d1 adv hi
          simp only at h
          have hp := peek_in mem j chunk pos hl
          split at h
          · rename_i hst
            have hadv : adv = false := by
              rcases iterate_cases hi with h | h | h | h | h | h | h | h
              · exact h.2.2.1
              · rw [h.2.1] at hst; simp at hst
              · exact h.2.2.1
              · exact h.2.2.1
              · rcases h.2.1 with h' | h' <;> rw [h'] at hst <;> simp at hst
              · exact h.2.2.1
              · exact h.2.2
              · exact h.2.2.1
            simp only [Option.some.injEq, Prod.mk.injEq, hadv, Bool.false_eq_true, if_false] at h
            omega
          · rename_i hst
            obtain ⟨k, hk, g2⟩ := ih _ _ _ h
            have hl1 : (d1.st == .longStart) = false := by simp only [Bool.or_eq_true, not_or] at hst; simpa using hst.1
            have hdn : (d1.st == .itemDone) = false := by simp only [Bool.or_eq_true, not_or] at hst; simpa using hst.2
            refine ⟨k + 1, by omega, fun F => ?_⟩
            rw [show F + (k + 1) = (F + k) + 1 from rfl]
            simp only [walk, if_pos hc, hp, hi, hl1, hdn, Bool.false_eq_true, if_false, g2 F]
            split <;> rfl
      · refine ⟨1, by omega, fun F => ?_⟩
        have hpl : pos = chunk.length := by simp at hc; omega
        have hp : peek mem chunk pos = none := by rw [peek, if_neg hl, hpl, Nat.sub_self, hm]
        simp only [walk, if_pos hc, hp]
    · cases h

theorem peekText_in (mem : Nat → Option UInt8) (chunk : List UInt8) : ∀ (n pos : Nat), pos + n ≤ chunk.length →
    peekText mem chunk pos n = some ((chunk.drop pos).take n) := by
  intro n
  induction n with
  | zero => intro pos h; simp [peekText]
  | succ n ih =>
    intro pos h
    rw [peekText, peek_in mem 0 chunk pos (by omega), ih (pos + 1) (by omega)]
    rw [List.drop_eq_getElem_cons (by omega : pos < chunk.length), List.take_succ_cons, List.getD_eq_getElem?_getD,
      List.getElem?_eq_getElem (by omega)]
    simp

/-- The 16 bits of the example at an item head. -/
theorem head16 (j : UInt8) (before head rest : List UInt8) (m a : Nat) (hh : CborHead head m a) (h5 : head.length ≤ 5) (d : CDec)
    (hst : d.st = .headerStart ∨ d.st = .itemDone) (hb : 4 ≤ d.buf.length) :
    ∃ d', process j (before ++ (head ++ rest)) 11 d before.length = some (some (d', before.length + head.length, false)) ∧
      d'.type = UInt8.ofNat m ∧ d'.unsigned 16 = a % 2 ^ 16 ∧ d'.buf.length = d.buf.length ∧
      d'.st = (if m = 0 ∨ m = 1 ∨ m = 6 ∨ m = 7 then .itemDone else .longStart) ∧
      (m ≠ 1 ∨ 24 ≤ a → a < 2 ^ 15 → d'.integer 16 = cborInt m a) := by
  have hm8 : m < 8 := by cases hh <;> assumption
  obtain ⟨d', h1, h2, h3, h4, h5'⟩ := process_head j (before ++ (head ++ rest)) head rest m a hh h5 d before.length hst hb (by simp)
  have hty : d'.type = UInt8.ofNat m := UInt8.toNat_inj.1 (by rw [h2]; simp; omega)
  refine ⟨d', h5' 11 (Nat.le_refl _), hty, ?_, h3, h1, ?_⟩
  · rcases h4 with ⟨e1, e2, -, e4⟩ | ⟨e1, e2, e3, e4, e5⟩
    · rw [CDec.unsigned, if_pos e1, e2, Nat.mod_eq_of_lt (by omega)]
    · rw [CDec.unsigned, if_neg (by simp [e1]), uintGet_eq 16 (by omega), e2]
  · intro hm hs
    rcases h4 with ⟨e1, e2, -, e4⟩ | ⟨e1, e2, e3, e4, e5⟩
    · have hm1 : m ≠ 1 := hm.resolve_right (by omega)
      rw [CDec.integer, if_pos e1, e2]; simp [cborInt, hm1]
    · have hg : uintGet 16 (d'.buf.take d'.additionalLength.toNat) = a := by
        rw [uintGet_eq 16 (by omega), e2, Nat.mod_eq_of_lt (by omega)]
      have hty1 : (d'.type == 1) = decide (m = 1) := type_eq h2 1
      simp only [CDec.integer, e1, hg, CDec.toSigned, hty1, if_pos (show a < 2 ^ (16 - 1) by simpa using hs)]
      by_cases hc : m = 1 <;> simp [cborInt, hc]

/-- One item head, with more behind it or a byte behind the end that can be read. -/
theorem walk_head (mem : Nat → Option UInt8) (j : UInt8) (before head rest : List UInt8) (m a : Nat) (hh : CborHead head m a)
    (h5 : head.length ≤ 5) (d : CDec) (hst : d.st = .headerStart ∨ d.st = .itemDone) (hb : 4 ≤ d.buf.length)
    (hm : rest ≠ [] ∨ mem 0 = some j) :
    ∃ d' k, k ≤ 11 ∧ d'.type = UInt8.ofNat m ∧ d'.unsigned 16 = a % 2 ^ 16 ∧ d'.buf.length = d.buf.length ∧
      d'.st = (if m = 0 ∨ m = 1 ∨ m = 6 ∨ m = 7 then .itemDone else .longStart) ∧
      (m ≠ 1 ∨ 24 ≤ a → a < 2 ^ 15 → d'.integer 16 = cborInt m a) ∧
      ∀ F, walk mem (before ++ (head ++ rest)) (F + k) d before.length =
        printing [.type (UInt8.ofNat m)] (walkAfter mem (before ++ (head ++ rest)) F d' (before.length + head.length)) := by
  have hA : Ahead d.st = true := by rcases hst with h | h <;> rw [h] <;> rfl
  obtain ⟨d', e1, e2, e3, e4, e5, e6⟩ := head16 j before head rest m a hh h5 d hst hb
  obtain ⟨-, k, hk, e⟩ := walk_process mem j _ _ _ _ _ _ e1 (by
    rcases hm with hm | hm
    · left
      have := List.length_pos_iff.2 hm
      simp only [List.length_append]; omega
    · exact Or.inr hm)
  refine ⟨d', k, hk, e2, e3, e4, e5, e6, fun F => ?_⟩
  rw [e F, hA, e2]; rfl

/-- One item of a document, with more behind it or a byte behind the end that can be read. -/
theorem walk_item (mem : Nat → Option UInt8) (j : UInt8) (before head content rest : List UInt8) (x : CborAtom)
    (hx : CborItem head content x) (h5 : head.length ≤ 5) (hf : Fits16 x) (d : CDec)
    (hst : d.st = .headerStart ∨ d.st = .itemDone) (hb : 4 ≤ d.buf.length) (hm : content ++ rest ≠ [] ∨ mem 0 = some j) :
    ∃ d' k, k ≤ 11 ∧ (isNumber x = true ∧ d'.st = .itemDone ∨ isNumber x = false ∧ d'.st = .headerStart) ∧ d'.buf.length = d.buf.length ∧
      ∀ F, walk mem (before ++ (head ++ content ++ rest)) (F + k) d before.length =
        printing (cborLines x) (walk mem (before ++ (head ++ content ++ rest)) F d' (before ++ (head ++ content)).length) := by
  have key := fun m a hh => walk_head mem j before head (content ++ rest) m a hh h5 d hst hb hm
  simp only [← List.append_assoc head] at key
  cases hx with
  | @int b m a hh hm1 =>
    obtain ⟨d', k, hk, e2, e3, e4, e5, e6, e⟩ := key m a hh
    have hs : d'.st = .itemDone := by rw [e5, if_pos (by omega)]
    refine ⟨d', k, hk, Or.inl ⟨rfl, hs⟩, e4, fun F => ?_⟩
    have hv : d'.integer 16 = cborInt m a := by
      have hm' : m = 0 ∨ m = 1 := by omega
      rcases hm' with rfl | rfl
      · apply e6 (Or.inl (by omega)); simp [Fits16, cborInt] at hf; omega
      · have ha : 24 ≤ a ∧ a < 2 ^ 15 := by simp [Fits16, cborInt] at hf; omega
        exact e6 (Or.inr ha.1) ha.2
    have ht : (if cborInt m a < 0 then (1 : UInt8) else 0) = UInt8.ofNat m := by
      have hm' : m = 0 ∨ m = 1 := by omega
      rcases hm' with rfl | rfl
      · simp [cborInt]
      · rw [if_pos (by simp [cborInt]; omega)]; rfl
    rw [e F]
    simp only [walkAfter, hs, hv, cborLines, ht]
    simp [printing_append, Nat.add_assoc]
  | @bytes b s hh =>
    obtain ⟨d', k, hk, e2, e3, e4, e5, e6, e⟩ := key 2 _ hh
    have hs : d'.st = .longStart := by rw [e5, if_neg (by omega)]
    refine ⟨d'.fastForward, k, hk, Or.inr ⟨rfl, rfl⟩, e4, fun F => ?_⟩
    have hn : content.length % 2 ^ 16 = content.length := Nat.mod_eq_of_lt hf
    rw [e F]
    simp only [walkAfter, hs, CDec.isIndeterminate, e2, e3, hn, cborLines]
    simp [printing_append, Nat.add_assoc]
  | @text b s hh =>
    obtain ⟨d', k, hk, e2, e3, e4, e5, e6, e⟩ := key 3 _ hh
    have hs : d'.st = .longStart := by rw [e5, if_neg (by omega)]
    refine ⟨d'.fastForward, k, hk, Or.inr ⟨rfl, rfl⟩, e4, fun F => ?_⟩
    have hn : content.length % 2 ^ 16 = content.length := Nat.mod_eq_of_lt hf
    have hp : peekText mem (before ++ (head ++ content ++ rest)) (before.length + head.length) content.length = some content := by
      rw [peekText_in mem _ _ _ (by simp only [List.length_append]; omega)]
      simp [List.append_assoc]
    rw [e F]
    simp only [walkAfter, hs, CDec.isIndeterminate, e2, e3, hn, cborLines, hp]
    simp [printing_append, Nat.add_assoc]
  | @array b n hh =>
    obtain ⟨d', k, hk, e2, e3, e4, e5, e6, e⟩ := key 4 _ hh
    have hs : d'.st = .longStart := by rw [e5, if_neg (by omega)]
    refine ⟨d'.fastForward, k, hk, Or.inr ⟨rfl, rfl⟩, e4, fun F => ?_⟩
    rw [e F]
    simp only [walkAfter, hs, CDec.isIndeterminate, e2, cborLines]
    simp [printing_append]
  | @map b n hh =>
    obtain ⟨d', k, hk, e2, e3, e4, e5, e6, e⟩ := key 5 _ hh
    have hs : d'.st = .longStart := by rw [e5, if_neg (by omega)]
    refine ⟨d'.fastForward, k, hk, Or.inr ⟨rfl, rfl⟩, e4, fun F => ?_⟩
    rw [e F]
    simp only [walkAfter, hs, CDec.isIndeterminate, e2, cborLines]
    simp [printing_append]
  | false =>
    obtain ⟨d', k, hk, e2, e3, e4, e5, e6, e⟩ := key 7 20 (CborHead.tiny (m := 7) (a := 20) (by omega) (by omega))
    have hs : d'.st = .itemDone := by rw [e5, if_pos (by omega)]
    have hv := e6 (Or.inl (by omega)) (by omega)
    refine ⟨d', k, hk, Or.inl ⟨rfl, hs⟩, e4, fun F => ?_⟩
    rw [e F]
    simp only [walkAfter, hs, hv, cborLines]
    simp [printing_append, cborInt]
  | true =>
    obtain ⟨d', k, hk, e2, e3, e4, e5, e6, e⟩ := key 7 21 (CborHead.tiny (m := 7) (a := 21) (by omega) (by omega))
    have hs : d'.st = .itemDone := by rw [e5, if_pos (by omega)]
    have hv := e6 (Or.inl (by omega)) (by omega)
    refine ⟨d', k, hk, Or.inl ⟨rfl, hs⟩, e4, fun F => ?_⟩
    rw [e F]
    simp only [walkAfter, hs, hv, cborLines]
    simp [printing_append, cborInt]
  | null =>
    obtain ⟨d', k, hk, e2, e3, e4, e5, e6, e⟩ := key 7 22 (CborHead.tiny (m := 7) (a := 22) (by omega) (by omega))
    have hs : d'.st = .itemDone := by rw [e5, if_pos (by omega)]
    have hv := e6 (Or.inl (by omega)) (by omega)
    refine ⟨d', k, hk, Or.inl ⟨rfl, hs⟩, e4, fun F => ?_⟩
    rw [e F]
    simp only [walkAfter, hs, hv, cborLines]
    simp [printing_append, cborInt]

theorem item_head {head content : List UInt8} {x : CborAtom} (hx : CborItem head content x) : ∃ m a, CborHead head m a := by
  cases hx with
  | int h _ => exact ⟨_, _, h⟩
  | bytes h => exact ⟨_, _, h⟩
  | text h => exact ⟨_, _, h⟩
  | array h => exact ⟨_, _, h⟩
  | map h => exact ⟨_, _, h⟩
  | false => exact ⟨7, 20, CborHead.tiny (m := 7) (a := 20) (by omega) (by omega)⟩
  | true => exact ⟨7, 21, CborHead.tiny (m := 7) (a := 21) (by omega) (by omega)⟩
  | null => exact ⟨7, 22, CborHead.tiny (m := 7) (a := 22) (by omega) (by omega)⟩

theorem item_nonempty {head content : List UInt8} {x : CborAtom} (hx : CborItem head content x) : 1 ≤ head.length := by
  obtain ⟨m, a, h⟩ := item_head hx
  cases h <;> simp

/-- A document somewhere in the payload, with more behind it or a byte behind the end that can be read. -/
theorem walk_seq (mem : Nat → Option UInt8) (j : UInt8) (bs : List UInt8) (xs : List CborAtom) (hs : CborSeq bs xs) (rest : List UInt8)
    (hm : rest ≠ [] ∨ mem 0 = some j) : (∀ x ∈ xs, Fits16 x) →
    ∀ (before : List UInt8) (d : CDec), (d.st = .headerStart ∨ d.st = .itemDone) → 4 ≤ d.buf.length →
    ∃ d' k, k ≤ 11 * bs.length ∧ (d'.st = .headerStart ∨ d'.st = .itemDone) ∧ d'.buf.length = d.buf.length ∧ (xs = [] → d' = d) ∧
      (xs ≠ [] → (endsWithNumber xs = true ↔ d'.st = .itemDone)) ∧
      ∀ F, walk mem (before ++ (bs ++ rest)) (F + k) d before.length =
        printing (xs.flatMap cborLines) (walk mem (before ++ (bs ++ rest)) F d' (before ++ bs).length) := by
  induction hs with
  | nil =>
    intro _ before d hst hb
    exact ⟨d, 0, by simp, hst, rfl, fun _ => rfl, fun h => absurd rfl h, fun F => by simp [printing_nil]⟩
  | @cons head content x bs xs hx h5 hseq ih =>
    intro hf before d hst hb
    have hpos := item_nonempty hx
    obtain ⟨d1, k1, hk1, hst1, hb1, e1⟩ := walk_item mem j before head content (bs ++ rest) x hx h5 (hf x (by simp)) d hst hb
      (by rcases hm with hm | hm
          · left; simp [hm]
          · exact Or.inr hm)
    obtain ⟨d2, k2, hk2, hst2, hb2, hn2, hl2, e2⟩ := ih (fun y hy => hf y (by simp [hy])) (before ++ (head ++ content)) d1
      (by rcases hst1 with h | h
          · exact Or.inr h.2
          · exact Or.inl h.2) (by omega)
    refine ⟨d2, k2 + k1, by simp only [List.length_append]; omega, hst2, by omega, by simp, fun _ => ?_, fun F => ?_⟩
    · by_cases hxs : xs = []
      · subst hxs
        rw [hn2 rfl]
        simp only [endsWithNumber, List.getLast?_singleton, Option.any_some]
        rcases hst1 with h | h <;> simp [h.1, h.2]
      · rw [← hl2 hxs]
        simp only [endsWithNumber]
        rw [List.getLast?_cons_of_ne_nil hxs]
    · have e1' := e1 (F + k2)
      have e2' := e2 F
      simp only [List.append_assoc] at e1' e2' ⊢
      rw [← Nat.add_assoc, e1', e2', printing_append]
      simp

/-- At the end of the payload behind a number the loop stops; otherwise it takes the byte behind the payload for the next
item. -/
theorem walk_end (mem : Nat → Option UInt8) (j : UInt8) (hm : mem 0 = some j) (chunk : List UInt8) (d : CDec) (F : Nat) :
    (d.st = .itemDone → walk mem chunk (F + 3) d chunk.length = .ok []) ∧
    (d.st = .headerStart → walk mem chunk (F + 3) d chunk.length = .ok [.type (j >>> 5)]) := by
  have hp : peek mem chunk chunk.length = some j := by rw [peek, if_neg (by omega), Nat.sub_self, hm]
  obtain ⟨buf, hdr, p, st⟩ := d
  refine ⟨fun h => ?_, fun h => ?_⟩ <;> simp only at h <;> subst h
  · rw [walk]; simp
  · rw [walk]
    simp only [hp, CDec.iterate]
    simp
    rw [walk]
    simp only [hp, CDec.iterate]
    simp
    rw [walk]
    simp only [Nat.not_lt.2 (Nat.le_succ chunk.length), decide_false, Bool.false_or]
    rw [if_neg (by simp)]
    rfl

/-- C82 (partial: heads of at most five bytes, numbers and lengths of 16 bits without -1 to -24, and the last item is a
number, a truth value or null): for a CBOR document the loop prints every item, in order, and nothing else, whatever
memory holds. -/
theorem cbor_walk_shows_partial (bs : List UInt8) (xs : List CborAtom) (hs : CborSeq bs xs) (hf : ∀ x ∈ xs, Fits16 x)
    (he : endsWithNumber xs = true) (mem : Nat → Option UInt8) (hm : mem 0 ≠ none) (junk : CDec) (hb : 4 ≤ junk.buf.length) (fuel : Nat)
    (hfu : 11 * bs.length + 6 ≤ fuel) : walkPayload mem fuel junk bs = .ok (xs.flatMap cborLines) := by
  obtain ⟨j, hj⟩ := Option.ne_none_iff_exists'.1 hm
  have hne : xs ≠ [] := by rintro rfl; simp [endsWithNumber] at he
  obtain ⟨d, k, hk, -, -, -, hl, e⟩ := walk_seq mem j bs xs hs [] (Or.inr hj) hf [] junk.fresh (Or.inl rfl) hb
  obtain ⟨f, rfl⟩ : ∃ f, fuel = (f + 3) + k := ⟨fuel - 3 - k, by omega⟩
  have := e (f + 3)
  simp only [List.nil_append, List.append_nil, List.length_nil] at this
  rw [walkPayload, this, (walk_end mem j hj bs d f).1 ((hl hne).1 he)]
  simp [printing]

/-- C82 fails: behind a document that is empty or ends with a string, a byte string or the start of a container, the loop
prints one more item, which it makes up from the byte behind the payload. -/
theorem cbor_walk_phantom (bs : List UInt8) (xs : List CborAtom) (hs : CborSeq bs xs) (hf : ∀ x ∈ xs, Fits16 x)
    (he : endsWithNumber xs = false) (mem : Nat → Option UInt8) (j : UInt8) (hm : mem 0 = some j) (junk : CDec) (hb : 4 ≤ junk.buf.length)
    (fuel : Nat) (hfu : 11 * bs.length + 6 ≤ fuel) :
    walkPayload mem fuel junk bs = .ok (xs.flatMap cborLines ++ [.type (j >>> 5)]) := by
  obtain ⟨d, k, hk, hst, -, hn, hl, e⟩ := walk_seq mem j bs xs hs [] (Or.inr hm) hf [] junk.fresh (Or.inl rfl) hb
  obtain ⟨f, rfl⟩ : ∃ f, fuel = (f + 3) + k := ⟨fuel - 3 - k, by omega⟩
  have hd : d.st = .headerStart := by
    by_cases hx : xs = []
    · rw [hn hx]; rfl
    · rcases hst with h | h
      · exact h
      · rw [(hl hx).2 h] at he; cases he
  have := e (f + 3)
  simp only [List.nil_append, List.append_nil, List.length_nil] at this
  rw [walkPayload, this, (walk_end mem j hm bs d f).2 hd]
  simp [printing]

theorem walk_start_behind (mem : Nat → Option UInt8) (hm : mem 0 = none) (chunk : List UInt8) (d : CDec) (h : d.st ≠ .itemDone) (F : Nat) :
    walk mem chunk (F + 1) d chunk.length = .error .unreadable := by
  have hp : peek mem chunk chunk.length = none := by rw [peek, if_neg (by omega), Nat.sub_self, hm]
  rw [walk, if_pos (by simp [h]), hp]

theorem walk_seq_behind (mem : Nat → Option UInt8) (hm : mem 0 = none) (bs : List UInt8) (xs : List CborAtom) (hs : CborSeq bs xs) :
    (∀ x ∈ xs, Fits16 x) → ∀ (before : List UInt8) (d : CDec), (d.st = .headerStart ∨ d.st = .itemDone) → 4 ≤ d.buf.length →
    (xs = [] → d.st = .headerStart) →
    ∃ k, k ≤ 11 * bs.length + 1 ∧ ∀ F, walk mem (before ++ bs) (F + k) d before.length = .error .unreadable := by
  induction hs with
  | nil =>
    intro _ before d _ _ h
    refine ⟨1, by omega, fun F => ?_⟩
    have := walk_start_behind mem hm before d (by rw [h rfl]; simp) F
    simpa using this
  | @cons head content x bs xs hx h5 hseq ih =>
    intro hf before d hst hb _
    by_cases hz : content ++ bs = []
    · have hc : content = [] := (List.append_eq_nil_iff.1 hz).1
      have hbs : bs = [] := (List.append_eq_nil_iff.1 hz).2
      subst hc hbs
      obtain ⟨m, a, hh⟩ := item_head hx
      have hpos := item_nonempty hx
      obtain ⟨d', e1, -⟩ := head16 0 before head [] m a hh h5 d hst hb
      obtain ⟨k, hk, e⟩ := walk_process_behind mem hm 0 (before ++ (head ++ [])) 11 d before.length d' (by rw [e1]; simp)
      refine ⟨k, by simp only [List.length_append]; omega, fun F => ?_⟩
      simpa using e F
    · obtain ⟨d1, k1, hk1, hst1, hb1, e1⟩ := walk_item mem 0 before head content bs x hx h5 (hf x (by simp)) d hst hb (Or.inl hz)
      have hpos := item_nonempty hx
      obtain ⟨k2, hk2, e2⟩ := ih (fun y hy => hf y (by simp [hy])) (before ++ (head ++ content)) d1
        (by rcases hst1 with h | h
            · exact Or.inr h.2
            · exact Or.inl h.2) (by omega) (by
          intro hxs
          subst hxs
          cases hseq
          rcases hst1 with h | h
          · exfalso
            cases hx <;> simp [isNumber] at h hz
          · exact h.2)
      refine ⟨k2 + k1, by simp only [List.length_append]; omega, fun F => ?_⟩
      have e1' := e1 (F + k2)
      have e2' := e2 F
      simp only [List.append_assoc] at e1' e2' ⊢
      rw [← Nat.add_assoc, e1', e2']; rfl

/-- C82 fails: on every document, the empty one included, the loop reads the byte behind the payload.  Where memory ends
with the payload, that is a crash. -/
theorem cbor_walk_reads_behind (bs : List UInt8) (xs : List CborAtom) (hs : CborSeq bs xs) (hf : ∀ x ∈ xs, Fits16 x)
    (mem : Nat → Option UInt8) (hm : mem 0 = none) (junk : CDec) (hb : 4 ≤ junk.buf.length) (fuel : Nat)
    (hfu : 11 * bs.length + 1 ≤ fuel) : walkPayload mem fuel junk bs = .error .unreadable := by
  obtain ⟨k, hk, e⟩ := walk_seq_behind mem hm bs xs hs hf [] junk.fresh (Or.inl rfl) hb (fun _ => rfl)
  obtain ⟨f, rfl⟩ : ∃ f, fuel = f + k := ⟨fuel - k, by omega⟩
  simpa [walkPayload] using e f

/-- C82, exactly which documents are shown right: those that end with a number, a truth value or null, where memory behind the payload
can be read. -/
theorem cbor_walk_shows_iff (bs : List UInt8) (xs : List CborAtom) (hs : CborSeq bs xs) (hf : ∀ x ∈ xs, Fits16 x)
    (mem : Nat → Option UInt8) (junk : CDec) (hb : 4 ≤ junk.buf.length) (fuel : Nat) (hfu : 11 * bs.length + 6 ≤ fuel) :
    walkPayload mem fuel junk bs = .ok (xs.flatMap cborLines) ↔ endsWithNumber xs = true ∧ mem 0 ≠ none := by
  cases hm : mem 0 with
  | none =>
    rw [cbor_walk_reads_behind bs xs hs hf mem hm junk hb fuel (by omega)]
    simp
  | some j =>
    cases he : endsWithNumber xs with
    | true => simp [cbor_walk_shows_partial bs xs hs hf he mem (by simp [hm]) junk hb fuel hfu]
    | false => simp [cbor_walk_phantom bs xs hs hf he mem j hm junk hb fuel hfu]

/-- The bytes that lie in memory behind the payload. -/
def bytesBehind (g : Nat → UInt8) (n : Nat) : List UInt8 := (List.range n).map g

theorem peekText_behind (mem : Nat → Option UInt8) (g : Nat → UInt8) (chunk : List UInt8) : ∀ (n off N : Nat),
    (∀ i, i < N → mem i = some (g i)) → off + n ≤ N →
    peekText mem chunk (chunk.length + off) n = some ((List.range' off n).map g) := by
  intro n
  induction n with
  | zero => intro off N _ _; simp [peekText]
  | succ n ih =>
    intro off N hg hN
    have hp : peek mem chunk (chunk.length + off) = some (g off) := by
      rw [peek, if_neg (by omega), Nat.add_sub_cancel_left, hg off (by omega)]
    have := ih (off + 1) N hg (by omega)
    rw [← Nat.add_assoc] at this
    rw [peekText, hp, this]
    simp [List.range'_succ]

theorem peekText_across (mem : Nat → Option UInt8) (g : Nat → UInt8) (N : Nat) (hg : ∀ i, i < N → mem i = some (g i)) (chunk : List UInt8) :
    ∀ (s before : List UInt8), chunk = before ++ s → ∀ n, s.length ≤ n → n - s.length ≤ N →
    peekText mem chunk before.length n = some (s ++ bytesBehind g (n - s.length)) := by
  intro s
  induction s with
  | nil =>
    intro before hc n _ hn
    have := peekText_behind mem g chunk n 0 N hg (by simpa using hn)
    subst hc
    simpa [bytesBehind, List.range_eq_range'] using this
  | cons b s ih =>
    intro before hc n hle hn
    obtain ⟨n, rfl⟩ : ∃ n', n = n' + 1 := ⟨n - 1, by simp at hle; omega⟩
    have h1 := ih (before ++ [b]) (by simp [hc]) n (by simpa using hle) (by simpa using hn)
    have hp : peek mem chunk before.length = some b := by
      rw [peek, hc, if_pos (by simp)]; simp
    rw [peekText, hp]
    simp only [List.length_append, List.length_singleton] at h1
    simp [h1]

/-- C82 fails: a string that is announced longer than what is left of the payload is shown with the memory behind the
payload in it. -/
theorem cbor_walk_leak (pre head s : List UInt8) (xs : List CborAtom) (hs : CborSeq pre xs) (hf : ∀ x ∈ xs, Fits16 x) (a : Nat)
    (hh : CborHead head 3 a) (h5 : head.length ≤ 5) (ha : a < 2 ^ 16) (hcut : s.length < a) (mem : Nat → Option UInt8) (g : Nat → UInt8)
    (hg : ∀ i, i < a - s.length → mem i = some (g i)) (junk : CDec) (hb : 4 ≤ junk.buf.length) (fuel : Nat)
    (hfu : 11 * (pre ++ (head ++ s)).length + 6 ≤ fuel) :
    walkPayload mem fuel junk (pre ++ (head ++ s)) =
      .ok (xs.flatMap cborLines ++ [.type 3, .text (s ++ bytesBehind g (a - s.length)), .skip a]) := by
  have hm0 : mem 0 = some (g 0) := hg 0 (by omega)
  have hpos : 1 ≤ head.length := by cases hh <;> simp
  obtain ⟨d, k, hk, hst, hb', -, -, e⟩ := walk_seq mem (g 0) pre xs hs (head ++ s) (Or.inr hm0) hf [] junk.fresh (Or.inl rfl) hb
  obtain ⟨d', k', hk', e2, e3, e4, e5, e6, e'⟩ := walk_head mem (g 0) pre head s 3 a hh h5 d hst (by rw [hb']; exact hb) (Or.inr hm0)
  simp only [List.length_append] at hfu
  obtain ⟨f, rfl⟩ : ∃ f, fuel = (f + 1) + k' + k := ⟨fuel - 1 - k' - k, by omega⟩
  have h1 := e (f + 1 + k')
  simp only [List.nil_append, List.length_nil] at h1
  have hl : d'.st = .longStart := by rw [e5, if_neg (by omega)]
  have hn : a % 2 ^ 16 = a := Nat.mod_eq_of_lt ha
  have ht := peekText_across mem g (a - s.length) hg (pre ++ (head ++ s)) s (pre ++ head) (by simp) a (by omega) (Nat.le_refl _)
  rw [List.length_append] at ht
  rw [walkPayload, h1, e' (f + 1)]
  simp only [walkAfter, hl, CDec.isIndeterminate, e2, e3, hn, ht]
  have hend : walk mem (pre ++ (head ++ s)) (f + 1) d'.fastForward (pre.length + head.length + a) = .ok [] := by
    rw [walk, if_neg]
    simp only [List.length_append, Bool.or_eq_true, decide_eq_true_eq, Bool.and_eq_true, beq_iff_eq]
    omega
  simp only [hend]
  simp [printing]

/-- C82 fails: of a length only the lowest 16 bits count.  A byte string of 65536 bytes or more, of which most is missing,
is taken for a short one, and what follows is shown as items of the document. -/
theorem cbor_walk_length_wraps (pre head inner post : List UInt8) (xs ys : List CborAtom) (hs : CborSeq pre xs) (hf : ∀ x ∈ xs, Fits16 x)
    (hs' : CborSeq post ys) (hf' : ∀ x ∈ ys, Fits16 x) (he : endsWithNumber ys = true) (a : Nat) (hh : CborHead head 2 a)
    (h5 : head.length ≤ 5) (hi : inner.length = a % 2 ^ 16) (mem : Nat → Option UInt8) (hm : mem 0 ≠ none) (junk : CDec)
    (hb : 4 ≤ junk.buf.length) (fuel : Nat) (hfu : 11 * (pre ++ (head ++ (inner ++ post))).length + 6 ≤ fuel) :
    walkPayload mem fuel junk (pre ++ (head ++ (inner ++ post))) =
      .ok (xs.flatMap cborLines ++ [.type 2, .skip inner.length] ++ ys.flatMap cborLines) := by
  obtain ⟨j, hj⟩ := Option.ne_none_iff_exists'.1 hm
  have hpos : 1 ≤ head.length := by cases hh <;> simp
  have hne : ys ≠ [] := by rintro rfl; simp [endsWithNumber] at he
  obtain ⟨d, k, hk, hst, hb', -, -, e⟩ := walk_seq mem j pre xs hs (head ++ (inner ++ post)) (Or.inr hj) hf [] junk.fresh (Or.inl rfl) hb
  obtain ⟨d', k', hk', e2, e3, e4, e5, e6, e'⟩ := walk_head mem j pre head (inner ++ post) 2 a hh h5 d hst (by rw [hb']; exact hb) (Or.inr hj)
  obtain ⟨d2, k2, hk2, -, -, -, hl2, e2'⟩ := walk_seq mem j post ys hs' [] (Or.inr hj) hf' (pre ++ (head ++ inner)) d'.fastForward (Or.inl rfl)
    (by rw [show d'.fastForward.buf.length = d'.buf.length from rfl, e4, hb']; exact hb)
  simp only [List.length_append] at hfu
  obtain ⟨f, rfl⟩ : ∃ f, fuel = (f + 3) + k2 + k' + k := ⟨fuel - 3 - k2 - k' - k, by omega⟩
  have h1 := e (f + 3 + k2 + k')
  simp only [List.nil_append, List.length_nil] at h1
  have hl : d'.st = .longStart := by rw [e5, if_neg (by omega)]
  have h2 := e2' (f + 3)
  have hend := (walk_end mem j hj (pre ++ (head ++ (inner ++ post))) d2 f).1 ((hl2 hne).1 he)
  simp only [List.append_nil, List.append_assoc] at h2
  rw [walkPayload, h1, e' (f + 3 + k2)]
  simp only [walkAfter, hl, CDec.isIndeterminate, e2, e3, ← hi]
  have hp : pre.length + head.length + inner.length = (pre ++ (head ++ inner)).length := by simp; omega
  rw [hp, h2, hend]
  simp [printing]

theorem additional_overflow (j : UInt8) (chunk : List UInt8) : ∀ (n : Nat) (d : CDec) (pos : Nat), d.st = .additional →
    8 ≤ d.additionalLength.toNat → d.buf.length = 4 → d.pos + n = 4 → pos + n ≤ chunk.length →
    ∀ fuel, process j chunk (fuel + (n + 1)) d pos = none := by
  intro n
  induction n with
  | zero =>
    intro d pos hst h8 hb hp hl fuel
    rw [process, if_pos (by simp [hst]; omega)]
    simp only [CDec.iterate, hst, writeAt, hb]
    rw [if_neg (by omega)]
  | succ n ih =>
    intro d pos hst h8 hb hp hl fuel
    have hal : ∀ buf' p' st', CDec.additionalLength ⟨buf', d.hdr, p', st'⟩ = d.additionalLength := fun _ _ _ => rfl
    have hne : (d.pos + 1 == d.additionalLength.toNat) = false := by simp; omega
    have hmod : (d.pos + 1) % 8 = d.pos + 1 := Nat.mod_eq_of_lt (by omega)
    have hi : d.iterate (chunk.getD pos j) = some (⟨d.buf.set d.pos (chunk.getD pos j), d.hdr, d.pos + 1, .additional⟩, true) := by
      simp only [CDec.iterate, hst, writeAt, hb, if_pos (show d.pos < 4 by omega), hmod, hal, hne, Bool.false_eq_true, if_false]
    rw [show fuel + (n + 1 + 1) = (fuel + (n + 1)) + 1 from rfl, process_step j chunk _ _ _ _ _ (Or.inl (by omega)) hi, if_neg (by simp)]
    exact ih ⟨d.buf.set d.pos (chunk.getD pos j), d.hdr, d.pos + 1, .additional⟩ (pos + 1) rfl h8 (by simpa using hb) (by simp only; omega) (by omega) fuel

/-- A head with 27 to 31 in its low bits and four more bytes: the streaming decoder writes outside its buffer. -/
theorem process_overflow (j : UInt8) (before rest : List UInt8) (b : UInt8) (hb : 27 ≤ b.toNat % 32) (h4 : 4 ≤ rest.length) (d : CDec)
    (hst : d.st = .headerStart ∨ d.st = .itemDone) (hl : d.buf.length = 4) :
    process j (before ++ b :: rest) 10 d before.length = none := by
  obtain ⟨k, hk, e⟩ := start_run j (before ++ b :: rest) rest d before.length b hst (by simp)
  have hx : ¬((b &&& 0x1F) < 24) ∧ 8 ≤ ((1 : UInt8) <<< ((b &&& 0x1F) - 24)).toNat := by
    have := forall_u8 (p := fun x => 27 ≤ x.toNat % 32 → ¬((x &&& 0x1F) < 24) ∧ 8 ≤ ((1 : UInt8) <<< ((x &&& 0x1F) - 24)).toNat)
      (by decide +kernel) b
    exact this hb
  obtain ⟨f, hf⟩ : ∃ f, 10 = (f + 5) + 2 + k := ⟨3 - k, by omega⟩
  have he := e (f + 5 + 2)
  rw [← hf] at he
  rw [he]
  have hti : CDec.isTiny ⟨d.buf, b, d.pos, .headerDone⟩ = false := by
    simp only [CDec.isTiny, CDec.additionalRaw]; exact decide_eq_false hx.1
  rw [process_step j _ (f + 5 + 1) _ ⟨d.buf, b, d.pos, .additionalStart⟩ _ false (Or.inl (by simp; omega)) (by simp [CDec.iterate, hti])]
  rw [if_neg (by simp)]
  rw [process_step j _ (f + 5) _ ⟨d.buf, b, 0, .additional⟩ _ false (Or.inl (by simp; omega)) (by simp [CDec.iterate])]
  rw [if_neg (by simp)]
  have hlen : before.length + 1 + 4 ≤ (before ++ b :: rest).length := by simp; omega
  generalize before ++ b :: rest = chunk at hlen ⊢
  exact additional_overflow j chunk 4 ⟨d.buf, b, 0, .additional⟩ (before.length + 1) rfl hx.2 hl rfl hlen f

theorem walk_process_none (mem : Nat → Option UInt8) (j : UInt8) (hm : mem 0 = some j) (chunk : List UInt8) : ∀ (f : Nat) (d : CDec) (pos : Nat),
    process j chunk f d pos = none → ∃ k, k ≤ f ∧ ∀ F, walk mem chunk (F + k) d pos = .error .overflow := by
  intro f
  induction f with
  | zero => intro d pos h; simp [process] at h
  | succ f ih =>
    intro d pos h
    rw [process] at h
    split at h
    · rename_i hc
      have hp : peek mem chunk pos = some (chunk.getD pos j) := by
        by_cases hl : pos < chunk.length
        · exact peek_in mem j chunk pos hl
        · have hpl : pos = chunk.length := by simp at hc; omega
          rw [peek, if_neg hl, hpl, Nat.sub_self, hm, List.getD_eq_getElem?_getD, List.getElem?_eq_none (by omega)]; rfl
      split at h
      · rename_i hi
        exact ⟨1, by omega, fun F => by simp only [walk, if_pos hc, hp, hi]⟩
      · rename_i d1 adv hi
        simp only at h
        split at h
        · cases h
        · rename_i hst
          obtain ⟨k, hk, g2⟩ := ih _ _ h
          have hl1 : (d1.st == .longStart) = false := by simp only [Bool.or_eq_true, not_or] at hst; simpa using hst.1
          have hdn : (d1.st == .itemDone) = false := by simp only [Bool.or_eq_true, not_or] at hst; simpa using hst.2
          refine ⟨k + 1, by omega, fun F => ?_⟩
          rw [show F + (k + 1) = (F + k) + 1 from rfl]
          simp only [walk, if_pos hc, hp, hi, hl1, hdn, Bool.false_eq_true, if_false, g2 F]
          split <;> rfl
    · cases h

/-- C82 fails: behind any document, a head that asks for eight bytes or uses a reserved value, and four more bytes, make
the decoder write behind its buffer. -/
theorem cbor_walk_overflow (pre rest : List UInt8) (b : UInt8) (xs : List CborAtom) (hs : CborSeq pre xs) (hf : ∀ x ∈ xs, Fits16 x)
    (hb : 27 ≤ b.toNat % 32) (h4 : 4 ≤ rest.length) (mem : Nat → Option UInt8) (hm : mem 0 ≠ none) (junk : CDec)
    (hl : junk.buf.length = 4) (fuel : Nat) (hfu : 11 * (pre ++ b :: rest).length + 6 ≤ fuel) :
    walkPayload mem fuel junk (pre ++ b :: rest) = .error .overflow := by
  obtain ⟨j, hj⟩ := Option.ne_none_iff_exists'.1 hm
  obtain ⟨d, k, hk, hst, hb', -, -, e⟩ := walk_seq mem j pre xs hs (b :: rest) (Or.inr hj) hf [] junk.fresh (Or.inl rfl) (by
    rw [show junk.fresh.buf.length = junk.buf.length from rfl]; omega)
  obtain ⟨k', hk', e'⟩ := walk_process_none mem j hj (pre ++ b :: rest) 10 d pre.length
    (process_overflow j pre rest b hb h4 d hst (by rw [hb']; exact hl))
  simp only [List.length_append, List.length_cons] at hfu
  obtain ⟨f, rfl⟩ : ∃ f, fuel = f + k' + k := ⟨fuel - k' - k, by omega⟩
  have h1 := e (f + k')
  simp only [List.nil_append, List.length_nil] at h1
  rw [walkPayload, h1, e' f]; rfl

/-! ## Cases -/

/-- The unsigned number 500, the text "ab", an array of two, 7 and null. -/
def sampleDoc : List UInt8 := [0x19, 1, 0xF4, 0x62, 97, 98, 0x82, 7, 0xF6]

theorem sampleDoc_seq : CborSeq sampleDoc [.int 500, .text [97, 98], .array 2, .int 7, .null] :=
  .cons (head := [0x19, 1, 0xF4]) (.int (m := 0) (a := 500) (.ext (m := 0) (i := 1) (bs := [1, 0xF4]) (by decide) (by decide) rfl) (by decide)) (by decide)
    (.cons (head := [0x62]) (.text (s := [97, 98]) (.tiny (m := 3) (a := 2) (by decide) (by decide))) (by decide)
      (.cons (head := [0x82]) (.array (n := 2) (.tiny (m := 4) (a := 2) (by decide) (by decide))) (by decide)
        (.cons (head := [7]) (.int (m := 0) (a := 7) (.tiny (m := 0) (a := 7) (by decide) (by decide)) (by decide)) (by decide)
          (.cons (head := [0xF6]) .null (by decide) .nil))))

example : walkPayload (fun _ => some 0xFF) 200 ⟨[9, 9, 9, 9], 0, 0, .long⟩ sampleDoc =
    .ok [.type 0, .int 500, .type 3, .text [97, 98], .skip 2, .type 4, .enter, .type 0, .int 7, .type 7, .int 22] :=
  cbor_walk_shows_partial sampleDoc _ sampleDoc_seq (by simp [Fits16]) rfl _ (by simp) _ (by decide) 200 (by decide)

/-- The text "ab" alone: "Has cbor type: 7" comes from the byte behind. -/
example : walkPayload (fun _ => some 0xFF) 200 ⟨[9, 9, 9, 9], 0, 0, .long⟩ [0x62, 97, 98] =
    .ok [.type 3, .text [97, 98], .skip 2, .type 7] :=
  cbor_walk_phantom [0x62, 97, 98] [.text [97, 98]]
    (.cons (head := [0x62]) (.text (s := [97, 98]) (.tiny (m := 3) (a := 2) (by decide) (by decide))) (by decide) .nil)
    (by simp [Fits16]) rfl _ 0xFF rfl _ (by decide) 200 (by decide)

/-- A text of five bytes of which two came: three bytes of memory are shown. -/
example : walkPayload (fun _ => some 0x2A) 200 ⟨[9, 9, 9, 9], 0, 0, .long⟩ [0x65, 97, 98] =
    .ok [.type 3, .text [97, 98, 42, 42, 42], .skip 5] :=
  cbor_walk_leak [] [0x65] [97, 98] [] .nil (by simp) 5 (.tiny (m := 3) (a := 5) (by decide) (by decide)) (by decide) (by decide) (by decide)
    _ (fun _ => 42) (by simp) _ (by decide) 200 (by decide)

/-- A byte string of 65537 bytes, of which one is skipped. -/
example : walkPayload (fun _ => some 0) 200 ⟨[9, 9, 9, 9], 0, 0, .long⟩ [0x5A, 0, 1, 0, 1, 99, 7] =
    .ok [.type 2, .skip 1, .type 0, .int 7] :=
  cbor_walk_length_wraps [] [0x5A, 0, 1, 0, 1] [99] [7] [] [.int 7] .nil (by simp)
    (.cons (head := [7]) (.int (m := 0) (a := 7) (.tiny (m := 0) (a := 7) (by decide) (by decide)) (by decide)) (by decide) .nil)
    (by simp [Fits16]) rfl 65537 (.ext (m := 2) (i := 2) (bs := [0, 1, 0, 1]) (by decide) (by decide) rfl) (by decide) rfl
    _ (by simp) _ (by decide) 200 (by decide)

example : walkPayload (fun _ => some 0) 200 ⟨[9, 9, 9, 9], 0, 0, .long⟩ [7, 0x1B, 0, 0, 0, 0] = .error .overflow :=
  cbor_walk_overflow [7] [0, 0, 0, 0] 0x1B [.int 7]
    (.cons (head := [7]) (.int (m := 0) (a := 7) (.tiny (m := 0) (a := 7) (by decide) (by decide)) (by decide)) (by decide) .nil)
    (by simp [Fits16]) (by decide) (by decide) _ (by simp) _ rfl 200 (by decide)

end Verif.Props
