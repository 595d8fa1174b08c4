import Verif.Props.ObservableIff
import Verif.Props.ObserveProgram

/-! # C89: exactly when the observe example notifies a client as often as it should -/
namespace Verif.Props
open Verif.Model Verif.Model.Observable Verif.Spec Verif.Proofs

variable {A : Type} [DecidableEq A]

/-- What the request says about observing, by RFC 7641: nothing without an Observe option, else the number in it. -/
def saidOfObserving (m : Msg) : Option Nat := (m.opts.find? fun o => decide (o.number = 6)).map fun o => beValue o.value

/-- A history as RFC 7641 looks at it: 0 registers, 1 ends, other numbers and requests without the option mean nothing. -/
def observeMeaning : ObsSeen A → Ev A
  | .loop _ => .round
  | .request a m =>
    match saidOfObserving m with
    | none => .round
    | some n => .observe a m.token (if n = 0 then 0 else if n = 1 then 1 else 2)

/-- How many requests with an Observe option came from an address. -/
def askingOf (a : A) : List (ObsSeen A) → Nat
  | [] => 0
  | .request b m :: hs => (if b = a ∧ asks m = true then 1 else 0) + askingOf a hs
  | .loop _ :: hs => askingOf a hs

theorem tally_count (a : A) : ∀ (hs : List (ObsSeen A)) (last : Int), ((tally last hs).filter fun x => x.1 = a).length = askingOf a hs
  | [], _ => rfl
  | .request b m :: hs, last => by
    have ih := tally_count a hs last
    by_cases hm : asks m = true <;> by_cases hb : b = a <;> simp_all [tally, askingOf] <;> omega
  | .loop now :: hs, last => by simpa [tally, askingOf] using tally_count a hs _

theorem asks_said (m : Msg) : asks m = (saidOfObserving m).isSome := by
  rw [asks, saidOfObserving, Option.isSome_map, List.isSome_find?]

theorem asking_said (a : A) : ∀ hs : List (ObsSeen A), askedToObserve a (hs.map observeMeaning) ≤ askingOf a hs ∧
    (askedToObserve a (hs.map observeMeaning) = askingOf a hs ↔
      ∀ m, ObsSeen.request a m ∈ hs → asks m = true → saidOfObserving m = some 0)
  | [] => by simp [askedToObserve, askingOf]
  | .loop now :: hs => by
    have ih := asking_said a hs
    simpa [askedToObserve, askingOf, observeMeaning] using ih
  | .request b m :: hs => by
    obtain ⟨h1, h2⟩ := asking_said a hs
    have hsplit : (∀ m', ObsSeen.request a m' ∈ ObsSeen.request b m :: hs → asks m' = true → saidOfObserving m' = some 0) ↔
        (b = a → asks m = true → saidOfObserving m = some 0) ∧
        ∀ m', ObsSeen.request a m' ∈ hs → asks m' = true → saidOfObserving m' = some 0 := by
      constructor
      · intro h
        exact ⟨fun hb => h m (by rw [hb]; exact List.mem_cons_self), fun m' hm' => h m' (List.mem_cons_of_mem _ hm')⟩
      · rintro ⟨ha, hb⟩ m' hm'
        rcases List.mem_cons.1 hm' with he | he
        · simp only [ObsSeen.request.injEq] at he
          rw [he.2]; exact ha he.1.symm
        · exact hb m' he
    rw [hsplit, ← h2]
    have hs := asks_said m
    cases hn : saidOfObserving m with
    | none =>
      simp only [hn, Option.isSome_none] at hs
      simp only [List.map_cons, observeMeaning, hn, askedToObserve, askingOf, hs, Bool.false_eq_true, and_false, if_false, Nat.zero_add]
      refine ⟨h1, ?_⟩
      simp
    | some n =>
      simp only [hn, Option.isSome_some] at hs
      simp only [List.map_cons, observeMeaning, hn, askedToObserve, askingOf, hs, and_true]
      by_cases hb : b = a
      · by_cases h0 : n = 0
        · subst h0
          simp [hb]; omega
        · have hc : (if n = 0 then (0 : UInt8) else if n = 1 then 1 else 2) ≠ 0 := by
            rw [if_neg h0]; split <;> decide
          rw [if_neg (fun h => hc h.2), if_pos hb]
          refine ⟨by omega, fun h => by omega, fun h => ?_⟩
          have := h.1 hb trivial
          simp only [Option.some.injEq] at this
          exact absurd this h0
      · simp only [hb, false_and, if_false, Nat.zero_add, false_implies, true_and]
        exact ⟨h1, trivial⟩

/-- C89, exactly: in a due round a client gets as many notifications as it sent requests with an Observe option, whatever their number; that is
never less than the number of tokens it observes with by RFC 7641, and equal to it exactly if all these requests were requests to observe
and none repeated a token it observed with. -/
theorem observe_program_right_iff (C : ObsCfg) (es : List (ObsEv A)) (hs : List (ObsSeen A)) (he : Each SeenAs es hs)
    (hb : Bounds C hs) :
    ∃ s outs, obsRun C ObsSt.init es = .ok (s, outs) ∧
      ∀ (i : Nat) now, hs[i]? = some (.loop now) → now - lastTurn 0 (hs.take i) > 1000 → ∃ ms, outs[i]? = some ms ∧ ∀ a,
        (ms.filter fun s => s.addr = a).length = askingOf a (hs.take i) ∧
        (observing a ((hs.take i).map observeMeaning)).length ≤ (ms.filter fun s => s.addr = a).length ∧
        ((ms.filter fun s => s.addr = a).length = (observing a ((hs.take i).map observeMeaning)).length ↔
          ∀ p m q, hs.take i = p ++ .request a m :: q → asks m = true →
            saidOfObserving m = some 0 ∧ m.token ∉ observing a (p.map observeMeaning)) := by
  obtain ⟨s, outs, h1, -, -, h4⟩ := observe_program_partial C es hs he hb
  refine ⟨s, outs, h1, fun i now hi hd => ?_⟩
  obtain ⟨ms, hm, -, h5⟩ := h4 i now hi
  refine ⟨ms, hm, fun a => ?_⟩
  have hlen : (ms.filter fun s => s.addr = a).length = askingOf a (hs.take i) := by
    rw [← tally_count a (hs.take i) 0]
    have := h5 hd a
    generalize (tally 0 (hs.take i)).filter (fun x => x.1 = a) = xs at this
    generalize ms.filter (fun s => s.addr = a) = ys at this
    induction xs generalizing ys with
    | nil => cases ys with
      | nil => rfl
      | cons y ys => exact absurd this (by simp [Each])
    | cons x xs ih => cases ys with
      | nil => exact absurd this (by simp [Each])
      | cons y ys => simp only [List.length_cons]; rw [ih ys this.2]
  obtain ⟨g1, g2⟩ := asked_observing a ((hs.take i).map observeMeaning) []
  obtain ⟨k1, k2⟩ := asking_said a (hs.take i)
  simp only [List.length_nil, Nat.add_zero] at g1 g2
  rw [hlen]
  refine ⟨rfl, Nat.le_trans g1 k1, ?_⟩
  have hboth : askingOf a (hs.take i) = (observing a ((hs.take i).map observeMeaning)).length ↔
      askedToObserve a ((hs.take i).map observeMeaning) = askingOf a (hs.take i) ∧
      ((hs.take i).map observeMeaning |>.foldl (observingStep a) []).length = askedToObserve a ((hs.take i).map observeMeaning) := by
    simp only [observing]; omega
  rw [hboth, k2, g2]
  constructor
  · rintro ⟨ha, hb⟩ p m q hp hask
    have h0 := ha m (by rw [hp]; simp) hask
    refine ⟨h0, ?_⟩
    have := hb (p.map observeMeaning) m.token 0 (q.map observeMeaning) (by rw [hp]; simp [observeMeaning, h0]) (.inl rfl)
    exact this
  · intro h
    constructor
    · intro m hm hask
      obtain ⟨p, q, hp⟩ := List.append_of_mem hm
      exact (h p m q hp hask).1
    · intro p t c q hp hc
      obtain ⟨p', q', hpq, hp1, hp2⟩ := List.map_eq_append_iff.1 hp
      obtain ⟨x, q'', hx, hx1, hx2⟩ := List.map_eq_cons_iff.1 hp2
      subst hp1
      cases x with
      | loop now => simp [observeMeaning] at hx1
      | request b m =>
        have hs := asks_said m
        cases hn : saidOfObserving m with
        | none => simp [observeMeaning, hn] at hx1
        | some n =>
          simp only [observeMeaning, hn, Ev.observe.injEq] at hx1
          obtain ⟨rfl, rfl, -⟩ := hx1
          exact (h p' m q'' (by rw [hpq, hx]) (by rw [hs, hn]; rfl)).2

/-- A client that asks with two tokens; one that asks twice with the same; one that asks and ends. -/
example : let req (a t v : Nat) : ObsSeen Nat := .request a ⟨1, 0, 1, 7, [UInt8.ofNat t], [⟨6, [UInt8.ofNat v]⟩, ⟨11, [120]⟩], none⟩
    let hs : List (ObsSeen Nat) := [req 1 1 0, req 1 2 0, .loop 2000, req 2 1 0, req 2 1 0, req 3 1 0, req 3 1 1]
    (askingOf 1 hs, (observing 1 (hs.map observeMeaning)).length) = (2, 2) ∧
    (askingOf 2 hs, (observing 2 (hs.map observeMeaning)).length) = (2, 1) ∧
    (askingOf 3 hs, (observing 3 (hs.map observeMeaning)).length) = (2, 0) := by decide

end Verif.Props
