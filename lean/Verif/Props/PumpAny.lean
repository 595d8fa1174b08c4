import Verif.Props.Pump
import Verif.Props.LegacyAny

/-! # Datagrams of arbitrary bytes from a data pump (C58) -/
namespace Verif.Props
open Verif.Model Verif.Proofs Verif.Spec Dec

/-- A datagram whose first chunk holds four header bytes, a whole token and any further bytes; its other chunks are
arbitrary. -/
structure AnyGram where
  b0 : UInt8
  b1 : UInt8
  b2 : UInt8
  b3 : UInt8
  tok : List UInt8
  rest : List UInt8
  more : List (List UInt8)

/-- The chunks of the datagram. -/
def AnyGram.chunks (g : AnyGram) : List (List UInt8) := (g.b0 :: g.b1 :: g.b2 :: g.b3 :: (g.tok ++ g.rest)) :: g.more

/-- What the bytes of the first chunk stand for. -/
def AnyGram.told (g : AnyGram) : List LEvent := toldAny g.b0 g.b1 g.b2 g.b3 g.tok g.rest

/-- The token is the one the header announces and is legal. -/
def AnyGram.Ok (g : AnyGram) : Prop := g.tok.length = (g.b0 &&& 0x0F).toNat ∧ g.tok.length ≤ 8

/-- At least one byte follows a payload marker. -/
def AnyGram.HasPayload (g : AnyGram) : Prop := ∃ x xs, (readRest 0 0 g.rest).2 = some (x :: xs)

/-- One datagram of arbitrary bytes: what is told of it, from a fresh decoder and from one that has lost the datagram
before, and the state it leaves. -/
theorem pumpDispatch_any (g : AnyGram) (hg : g.Ok) (junk : Dec) (hj : junk.tbuf.length = 8) :
    ∃ N d', d'.st ≠ .done ∧ d'.tbuf.length = 8 ∧ (g.HasPayload → d'.st = .payloadDone) ∧ ∀ fuel, N ≤ fuel →
      pumpDispatch fuel (fresh junk) g.chunks = .ok (d', g.told) ∧
      pumpDispatch (fuel + 1) { junk with st := .done } g.chunks = .ok (d', .complete :: g.told) := by
  obtain ⟨b0, b1, b2, b3, tok, rest, more⟩ := g
  obtain ⟨ht, h8⟩ := hg
  simp only at ht h8
  simp only [AnyGram.chunks, AnyGram.told, AnyGram.HasPayload]
  generalize hw : b0 :: b1 :: b2 :: b3 :: (tok ++ rest) = w
  have hne : w ≠ [] := by rw [← hw]; simp
  have hh : HOK (fresh junk) w := by rw [← hw]; rw [ht] at h8; simpa [HOK, fresh] using h8
  have hfeed : lfeed (fresh junk) w = toldAny b0 b1 b2 b3 tok rest := by
    rw [← hw]; exact lfeed_any junk hj b0 b1 b2 b3 tok rest ht h8
  obtain ⟨a1, a2, a3, a4, -⟩ := fresh_left junk hj w hh
  have hr : (⟨w, 0, true⟩ : Ctx).remainder = w := rfl
  have hi : DInv (fresh junk) ⟨w, 0, true⟩ :=
    ⟨by simp, hj, by simp [fresh], by simp [fresh], by simp [fresh], by simp [fresh], by simp [fresh], by simp [fresh]⟩
  obtain ⟨N, d', evs, X', hrun, hX, hX', -⟩ := legacy_chunk _ (fresh junk) ⟨w, 0, true⟩ [] (lfeed (fresh junk) w)
    (Nat.lt_succ_self _) (by simpa [hr] using a1) a4 hi (by simpa [hr] using a3) (fun _ => rfl) (Or.inl ⟨hne, by simp [Going, fresh]⟩)
  obtain ⟨e1, e2, e3, e4⟩ := hX' rfl
  have he : evs = toldAny b0 b1 b2 b3 tok rest := by rw [← hfeed, hX, e1, e3]
  refine ⟨N, d', e4, ?_, fun hp => e2 ?_, fun fuel hf => ?_⟩
  · rw [legacyRun_tbuf _ _ _ _ _ _ (hrun N (Nat.le_refl _))]; exact hj
  · rw [hfeed]; exact (legacy_any_complete_iff b0 b1 b2 b3 tok rest).2 hp
  · have hc := hrun fuel hf
    rw [he] at hc
    refine ⟨by simp only [pumpDispatch, List.headD_cons, hc], ?_⟩
    have hl : 0 < w.length := List.length_pos_iff.2 hne
    have ha : atEnd ⟨w, 0, true⟩ = false := by simp [atEnd]; omega
    simp only [pumpDispatch, List.headD_cons, legacyRun, legacyIterate, legacyDispatch, step, ha]
    have : ({ junk with st := .uninitialized } : Dec) = fresh junk := rfl
    simp [this, hc]

/-- What the observer is told of pairs of datagrams: of the first of each pair what its bytes stand for - from the second
pair on after another completion -, of the other one nothing. -/
def pumpPairs (again : Bool) : List (AnyGram × List (List UInt8)) → List (List LEvent)
  | [] => []
  | x :: xs => ((if again then [.complete] else []) ++ x.1.told) :: [] :: pumpPairs true xs

/-- C58 for any number of datagrams, the first of each pair of arbitrary bytes with a payload, the second of each pair
entirely arbitrary: exactly what the observer is told.  Every second datagram is lost whatever it holds. -/
theorem pump_sequence_any (gs : List (AnyGram × List (List UInt8))) :
    (∀ x ∈ gs, x.1.Ok ∧ x.1.HasPayload) → ∀ junk : Dec, junk.tbuf.length = 8 →
    ∃ N, ∀ fuel, N ≤ fuel →
      (∃ d', pump fuel (fresh junk) (gs.flatMap fun x => [x.1.chunks, x.2]) = .ok (d', pumpPairs false gs)) ∧
      (∃ d', pump fuel { junk with st := .done } (gs.flatMap fun x => [x.1.chunks, x.2]) = .ok (d', pumpPairs true gs)) := by
  induction gs with
  | nil => intro _ junk _; exact ⟨0, fun fuel _ => ⟨⟨_, rfl⟩, ⟨_, rfl⟩⟩⟩
  | cons x xs ih =>
    intro h junk hj
    obtain ⟨h1, h2⟩ := h x (by simp)
    obtain ⟨N, d', -, htb, hst, hN⟩ := pumpDispatch_any x.1 h1 junk hj
    have hst := hst h2
    obtain ⟨N', hN'⟩ := ih (fun z hz => h z (by simp [hz])) d' htb
    refine ⟨max N N' + 1, fun fuel hf => ?_⟩
    obtain ⟨f, rfl⟩ : ∃ f, fuel = f + 1 := ⟨fuel - 1, by omega⟩
    obtain ⟨-, dr, hr⟩ := hN' (f + 1) (by omega)
    refine ⟨⟨dr, ?_⟩, ⟨dr, ?_⟩⟩
    · simp [pump, pumpPairs, (hN (f + 1) (by omega)).1, pumpDispatch_lost d' hst, hr]
    · simp [pump, pumpPairs, (hN f (by omega)).2, pumpDispatch_lost d' hst, hr]

/-- The header told of a datagram. -/
def AnyGram.header (g : AnyGram) : Header := ⟨g.b0, g.b1, g.b2, g.b3⟩

/-- After a datagram of arbitrary bytes the decoder is left inside its message. -/
theorem any_open (g : AnyGram) (junk : Dec) (fuel : Nat) (d' : Dec) (es : List LEvent)
    (e : pumpDispatch fuel (fresh junk) g.chunks = .ok (d', es)) :
    Past g.header d' ∧ ∀ x, LEvent.header x ∈ es → x = g.header := by
  simp only [pumpDispatch, AnyGram.chunks, List.headD_cons] at e
  split at e
  · cases e
  · rename_i d1 c1 es1 hr
    simp only [Except.ok.injEq, Prod.mk.injEq] at e
    obtain ⟨rfl, rfl⟩ := e
    generalize g.tok ++ g.rest = r at hr
    match fuel with
    | 0 => simp [legacyRun] at hr
    | 1 => simp [legacyRun, legacyIterate, legacyDispatch, fresh, step, atEnd] at hr
    | f + 2 =>
      have hp2 : Past g.header { fresh junk with st := .headerDone, hdr := g.header, hpos := 4 } :=
        ⟨rfl, by simp, by simp⟩
      have key : ∀ b0 b1 b2 b3 : UInt8, ∀ c : Ctx, c = ⟨b0 :: b1 :: b2 :: b3 :: r, 0, true⟩ →
          legacyRun (f + 2) (fresh junk) c =
          if r = [] then .ok ({ fresh junk with st := .headerDone, hdr := ⟨b0, b1, b2, b3⟩, hpos := 4 }, { c with pos := 4 }, [])
          else match legacyRun f { fresh junk with st := .headerDone, hdr := ⟨b0, b1, b2, b3⟩, hpos := 4 } { c with pos := 4 } with
            | .error e => .error e
            | .ok (d, c, evs') => .ok (d, c, [] ++ ([] ++ evs')) := by
        intro b0 b1 b2 b3 c hc
        subst hc
        cases r with
        | nil => simp [legacyRun, legacyIterate, legacyDispatch, fresh, step, atEnd, Ctx.remainder, headerLoop, writeHeader]
        | cons x xs =>
          simp [legacyRun, legacyIterate, legacyDispatch, fresh, step, atEnd, Ctx.remainder, headerLoop, writeHeader]
          generalize legacyRun f _ _ = z
          rcases z with e | ⟨d, c, es⟩ <;> rfl
      rw [key _ _ _ _ _ rfl] at hr
      split at hr
      · simp only [Except.ok.injEq, Prod.mk.injEq] at hr
        obtain ⟨rfl, -, rfl⟩ := hr
        exact ⟨hp2, by simp⟩
      · split at hr
        · cases hr
        · rename_i h2
          simp only [Except.ok.injEq, Prod.mk.injEq] at hr
          obtain ⟨rfl, -, rfl⟩ := hr
          obtain ⟨a, b⟩ := run_past f hp2 (by simp) h2
          exact ⟨a, by simpa using b⟩

/-- C58 fails for every second datagram, for arbitrary bytes: whatever the first datagram holds behind header and token,
no call for the next one - of any chunks - tells a header other than that of the first. -/
theorem pump_second_header_untold_any (g : AnyGram) (hg : g.Ok) (junk : Dec) (hj : junk.tbuf.length = 8)
    (second : List (List UInt8)) :
    ∃ N, ∀ fuel, N ≤ fuel → ∀ d es, pump fuel (fresh junk) [g.chunks, second] = .ok (d, es) →
      ∀ evs ∈ es, ∀ x, LEvent.header x ∈ evs → x = g.header := by
  obtain ⟨N, d1, hd, -, -, h1⟩ := pumpDispatch_any g hg junk hj
  refine ⟨N, fun fuel hf d es e => ?_⟩
  obtain ⟨hp, h2⟩ := any_open g junk fuel d1 _ (h1 fuel hf).1
  simp only [pump, (h1 fuel hf).1] at e
  split at e
  · cases e
  · rename_i h3
    split at h3
    · cases h3
    · rename_i d2 e2 h4
      simp only [Except.ok.injEq, Prod.mk.injEq] at h3 e
      obtain ⟨rfl, rfl⟩ := h3
      obtain ⟨rfl, rfl⟩ := e
      intro evs hevs x hx
      simp only [List.mem_cons, List.not_mem_nil, or_false] at hevs
      rcases hevs with rfl | rfl
      · exact h2 x hx
      · simp only [pumpDispatch] at h4
        split at h4
        · cases h4
        · rename_i h5
          simp only [Except.ok.injEq, Prod.mk.injEq] at h4
          obtain ⟨rfl, rfl⟩ := h4
          exact (run_past fuel hp hd h5).2 x hx

-- four datagrams: the second has only two bytes, the third an unknown version
-- and a chunk that is not looked at, the last no chunks
example : ∃ d, pump 60 (fresh Dec.zero)
    [[[0x41, 1, 0, 7, 0xAA, 0xB1, 0x61, 0xFF, 1]], [[0x40, 1]], [[0x00, 0, 0, 9, 0xFF, 3], [4]], []] =
    .ok (d, pumpPairs false [(⟨0x41, 1, 0, 7, [0xAA], [0xB1, 0x61, 0xFF, 1], []⟩, [[0x40, 1]]),
      (⟨0, 0, 0, 9, [], [0xFF, 3], [[4]]⟩, [])]) := by
  simp only [pumpPairs, AnyGram.told, toldAny, toldOpts, readRest, readExt, toldPayload]
  simp [toldOpts, readRest, readExt]
  exact ⟨_, rfl⟩
example : AnyGram.Ok ⟨0x41, 1, 0, 7, [0xAA], [0xB1, 0x61, 0xFF, 1], []⟩ ∧
    AnyGram.HasPayload ⟨0x41, 1, 0, 7, [0xAA], [0xB1, 0x61, 0xFF, 1], []⟩ := by
  simp [AnyGram.Ok, AnyGram.HasPayload, readRest, readExt]

end Verif.Props
