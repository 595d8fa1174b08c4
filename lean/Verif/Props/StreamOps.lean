import Verif.Props.StreamExtent
import Verif.Model.StreamOps
import Verif.Props.StreamRoundTrip

/-! # C97: a message written with the stream operators -/
namespace Verif.Props
open Verif.Model OptEnc SEnc Spec Proofs

/-- `s`, whose stream has less room, is where `t` is, or it is full and holds the first part of what `t` holds. -/
def Behind (s t : SEnc) : Prop :=
  s.out.length ≤ s.cap ∧ s.cap ≤ t.cap ∧ t.out.length ≤ t.cap ∧
    (t = { s with cap := t.cap } ∨ s.out.length = s.cap ∧ s.out <+: t.out)

theorem putn_prefix (s : SEnc) (bs : List UInt8) : s.out <+: (s.putn bs).1.out := List.prefix_append _ _

theorem putn_full {s : SEnc} (h : s.out.length = s.cap) (bs : List UInt8) : (s.putn bs).1 = s := by
  simp [putn, room, h]

theorem putn_within {s : SEnc} (h : s.out.length ≤ s.cap) (bs : List UInt8) : (s.putn bs).1.out.length ≤ s.cap := by
  simp only [putn, room, List.length_append, List.length_take]; omega

theorem putc_putn (s : SEnc) (b : UInt8) : (s.putc b).1 = (s.putn [b]).1 := by
  unfold putc
  split
  · rename_i h
    rw [putn_fits s [b] (by simp only [List.length_singleton]; omega)]
  · rename_i h
    have : s.cap - s.out.length = 0 := by omega
    simp [putn, room, this]

theorem behind_putn {s t : SEnc} (h : Behind s t) (bs : List UInt8) : Behind (s.putn bs).1 (t.putn bs).1 := by
  obtain ⟨h1, h2, h3, h4⟩ := h
  refine ⟨putn_within h1 bs, h2, putn_within h3 bs, ?_⟩
  rcases h4 with h4 | ⟨h4, h5⟩
  · by_cases hf : s.out.length + bs.length ≤ s.cap
    · left
      rw [h4, putn_fits s bs hf, putn_fits _ bs (by simp only; omega)]
    · right
      rw [h4]
      refine ⟨?_, ?_⟩
      · simp only [putn, room, List.length_append, List.length_take]; omega
      · simp only [putn, room]
        refine (List.prefix_append_right_inj _).2 ?_
        rw [List.prefix_take_iff]
        refine ⟨List.take_prefix _ _, ?_⟩
        simp only [List.length_take]; omega
  · right
    rw [putn_full h4]
    exact ⟨h4, h5.trans (putn_prefix t bs)⟩

theorem behind_option {s t : SEnc} (h : Behind s t) (number length : UInt16) :
    ∃ s' t', StreamOp.run s (.option number length) = .ok s' ∧ StreamOp.run t (.option number length) = .ok t' ∧ Behind s' t' ∧
      s'.cap = s.cap ∧ t'.cap = t.cap := by
  obtain ⟨h1, h2, h3, h4⟩ := h
  obtain ⟨s', ok, e1, e2, e3, e4, e5⟩ := loop_total s.fuelFor { s with oe := s.oe.next } ⟨number, length, []⟩ trivial
    (by simp only [fuelFor, room, next, erank]; omega)
  obtain ⟨t', ok', f1, f2, f3, f4, f5⟩ := loop_total t.fuelFor { t with oe := t.oe.next } ⟨number, length, []⟩ trivial
    (by simp only [fuelFor, room, next, erank]; omega)
  simp only [Nat.max_eq_left h1, Nat.max_eq_left h3] at e4 f4
  simp only at e2 e3 e5 f2 f3 f5
  refine ⟨s', t', by simp only [StreamOp.run, optionHeader, e1], by simp only [StreamOp.run, optionHeader, f1], ?_, e2, f2⟩
  refine ⟨by omega, by omega, by omega, ?_⟩
  rcases h4 with h4 | ⟨h4, h5⟩
  · obtain ⟨t'', ok2, g1, g2, g3⟩ := loop_cap s.fuelFor { s with oe := s.oe.next } ⟨number, length, []⟩ trivial t.cap h2 h1
      t.fuelFor (by rw [h4]; simp only [fuelFor, room, next, erank]; omega) s' ok e1
    have : t'' = t' := by
      have e : ({ s with oe := s.oe.next, cap := t.cap } : SEnc) = { t with oe := t.oe.next } := by rw [h4]
      simp only at g1
      rw [e, f1] at g1
      simp only [Except.ok.injEq, Prod.mk.injEq] at g1
      exact g1.1.symm
    subst this
    cases ok with
    | true => left; rw [(g2 rfl).2]
    | false => right; obtain ⟨k1, k2, -⟩ := g3 rfl; exact ⟨by simpa [e2] using k1, k2⟩
  · right
    have : s'.out = s.out := (e3.eq_of_length (by have := e3.length_le; omega)).symm
    rw [this, e2]
    exact ⟨h4, h5.trans f3⟩

theorem behind_op {s t : SEnc} (h : Behind s t) (op : StreamOp) :
    ∃ s' t', op.run s = .ok s' ∧ op.run t = .ok t' ∧ Behind s' t' ∧ s'.cap = s.cap ∧ t'.cap = t.cap := by
  cases op with
  | header hd => exact ⟨_, _, rfl, rfl, behind_putn h _, rfl, rfl⟩
  | token tk => exact ⟨_, _, rfl, rfl, behind_putn h _, rfl, rfl⟩
  | option number length => exact behind_option h number length
  | payload =>
    refine ⟨_, _, rfl, rfl, ?_, ?_, ?_⟩
    · simp only [payloadMarker, putc_putn]; exact behind_putn h _
    · simp only [payloadMarker, putc_putn]; rfl
    · simp only [payloadMarker, putc_putn]; rfl
  | put b =>
    refine ⟨_, _, rfl, rfl, ?_, ?_, ?_⟩
    · rw [putc_putn, putc_putn]; exact behind_putn h _
    · rw [putc_putn]; rfl
    · rw [putc_putn]; rfl
  | write bs => exact ⟨_, _, rfl, rfl, behind_putn h _, rfl, rfl⟩

theorem behind_ops : ∀ (ops : List StreamOp) {s t : SEnc}, Behind s t →
    ∃ s' t', runOps s ops = .ok s' ∧ runOps t ops = .ok t' ∧ Behind s' t' ∧ s'.cap = s.cap ∧ t'.cap = t.cap
  | [], s, t, h => ⟨s, t, rfl, rfl, h, rfl, rfl⟩
  | op :: ops, s, t, h => by
    obtain ⟨s1, t1, e1, e2, h1, c1, c2⟩ := behind_op h op
    obtain ⟨s2, t2, e3, e4, h2, c3, c4⟩ := behind_ops ops h1
    exact ⟨s2, t2, by rw [runOps, e1]; exact e3, by rw [runOps, e2]; exact e4, h2, c3.trans c1, c4.trans c2⟩

/-- C97: any sequence of operators, sensible or not, goes through whatever the room, and never writes more than there is
room for.  What is there is the first part of what a stream with more room would hold, and all of it if that fits. -/
theorem stream_ops_cut (ops : List StreamOp) (cap more : Nat) (h : cap ≤ more) :
    ∃ s t, runOps (SEnc.init cap) ops = .ok s ∧ runOps (SEnc.init more) ops = .ok t ∧ s.out.length ≤ cap ∧
      s.out = t.out.take cap := by
  obtain ⟨s, t, e1, e2, ⟨h1, h2, h3, h4⟩, c1, c2⟩ := behind_ops ops (s := SEnc.init cap) (t := SEnc.init more)
    ⟨by simp [SEnc.init], h, by simp [SEnc.init], .inl rfl⟩
  simp only [SEnc.init] at c1 c2
  refine ⟨s, t, e1, e2, by omega, ?_⟩
  rcases h4 with h4 | ⟨h4, h5⟩
  · rw [h4]; simp only; rw [List.take_of_length_le (by omega)]
  · have := List.prefix_iff_eq_take.1 h5
    rw [this, h4, c1]

/-- How a value is put: its bytes, or pieces of it. -/
def puts : List (List UInt8) → List StreamOp := List.map fun p => match p with
  | [b] => .put b
  | p => .write p

theorem runOps_append (a b : List StreamOp) (s : SEnc) : runOps s (a ++ b) = (runOps s a).bind fun s => runOps s b := by
  induction a generalizing s with
  | nil => rfl
  | cons op a ih =>
    simp only [List.cons_append, runOps]
    cases op.run s with
    | error e => rfl
    | ok s => exact ih s

theorem putn_putn (s : SEnc) (a b : List UInt8) (h : s.out.length ≤ s.cap) : ((s.putn a).1.putn b).1 = (s.putn (a ++ b)).1 := by
  simp only [putn, room, List.append_assoc, List.length_append, List.length_take, SEnc.mk.injEq, true_and, and_true,
    List.append_cancel_left_eq, List.take_append]
  refine congrArg (fun n => List.take n b) ?_
  omega

/-- C97: in how many pieces the bytes are put makes no difference. -/
theorem stream_pieces (ps : List (List UInt8)) : ∀ (s : SEnc), s.out.length ≤ s.cap → runOps s (puts ps) = .ok (s.putn ps.flatten).1 := by
  induction ps with
  | nil => intro s _; simp [puts, runOps, putn]
  | cons p ps ih =>
    intro s h
    have hop : ∀ q : List UInt8, (match q with | [b] => StreamOp.put b | q => .write q).run s = .ok (s.putn q).1 := by
      intro q
      split
      · simp only [StreamOp.run, putc_putn]
      · rfl
    simp only [puts, List.map_cons, runOps, hop]
    have := ih (s.putn p).1 (putn_within h p)
    simp only [puts] at this
    rw [this, putn_putn s p _ h, List.flatten_cons]

/-- An option and the pieces its value is put in. -/
structure PieceOpt where
  number : Nat
  pieces : List (List UInt8)

/-- The option it is. -/
def PieceOpt.whole (o : PieceOpt) : Opt := ⟨o.number, o.pieces.flatten⟩

/-- The operators for the options. -/
def optOps : List PieceOpt → List StreamOp
  | [] => []
  | o :: os => .option (UInt16.ofNat o.number) (UInt16.ofNat o.pieces.flatten.length) :: (puts o.pieces ++ optOps os)

/-- The operators for a message. -/
def msgOps (h : Header) (token : List UInt8) (os : List PieceOpt) (payload : Option (List (List UInt8))) : List StreamOp :=
  .header h :: .token token :: (optOps os ++ match payload with | none => [] | some ps => .payload :: puts ps)

theorem full_stays : ∀ (ops : List StreamOp) {s : SEnc}, s.out.length = s.cap → ∃ s', runOps s ops = .ok s' ∧ s'.out = s.out
  | ops, s, h => by
    obtain ⟨s', t', e1, -, ⟨h1, -, -, -⟩, c1, -⟩ := behind_ops ops (s := s) (t := s) ⟨by omega, by omega, by omega, .inl rfl⟩
    have key : ∀ (ops : List StreamOp) (s s' : SEnc), s.out.length ≤ s.cap → runOps s ops = .ok s' → s.out <+: s'.out := by
      intro ops
      induction ops with
      | nil => intro s s' _ e; simp only [runOps, Except.ok.injEq] at e; rw [e]; exact List.prefix_rfl
      | cons op ops ih =>
        intro s s' hs e
        obtain ⟨s1, -, e1, -, ⟨k1, -, -, -⟩, c1, -⟩ := behind_op (s := s) (t := s) ⟨hs, by omega, hs, .inl rfl⟩ op
        rw [runOps, e1] at e
        have hp : s.out <+: s1.out := by
          cases op with
          | header hd => simp only [StreamOp.run, Except.ok.injEq] at e1; subst e1; exact putn_prefix _ _
          | token tk => simp only [StreamOp.run, Except.ok.injEq] at e1; subst e1; exact putn_prefix _ _
          | option number length =>
            obtain ⟨s2, ok, g1, -, g2⟩ := option_header_returns s number length
            simp only [StreamOp.run, g1, Except.ok.injEq] at e1
            subst e1; exact g2
          | payload => simp only [StreamOp.run, payloadMarker, putc_putn, Except.ok.injEq] at e1; subst e1; exact putn_prefix _ _
          | put b => simp only [StreamOp.run, putc_putn, Except.ok.injEq] at e1; subst e1; exact putn_prefix _ _
          | write bs => simp only [StreamOp.run, Except.ok.injEq] at e1; subst e1; exact putn_prefix _ _
        exact hp.trans (ih s1 s' k1 e)
    refine ⟨s', e1, ?_⟩
    have hp := key ops s s' (by omega) e1
    exact (hp.eq_of_length (by have := hp.length_le; omega)).symm

theorem optOps_whole : ∀ (os : List PieceOpt) (rest : List StreamOp) (s : SEnc), s.out.length ≤ s.cap →
    ∃ s1 ok, writeOpts s (os.map PieceOpt.whole) = .ok (s1, ok) ∧ s1.cap = s.cap ∧ s1.out.length ≤ s1.cap ∧
      (ok = true → runOps s (optOps os ++ rest) = runOps s1 rest) ∧
      (ok = false → s1.out.length = s.cap ∧ ∃ s2, runOps s (optOps os ++ rest) = .ok s2 ∧ s2.out = s1.out)
  | [], rest, s, h => ⟨s, true, rfl, rfl, h, fun _ => rfl, fun h => by cases h⟩
  | o :: os, rest, s, h => by
    obtain ⟨s', ok, e1, e2, e3, -⟩ := option_header_room s (UInt16.ofNat o.number) (UInt16.ofNat o.pieces.flatten.length) h
    obtain ⟨s'', ok', f1, f2, -⟩ := option_header_returns s (UInt16.ofNat o.number) (UInt16.ofNat o.pieces.flatten.length)
    rw [e1] at f1
    simp only [Except.ok.injEq, Prod.mk.injEq] at f1
    obtain ⟨rfl, rfl⟩ := f1
    simp only [List.map_cons, writeOpts, PieceOpt.whole, SEnc.option, e1, optOps, List.cons_append, runOps, StreamOp.run]
    cases ok with
    | true =>
      simp only
      rw [List.append_assoc, runOps_append, stream_pieces _ _ (by omega)]
      simp only [Except.bind]
      obtain ⟨s1, ok1, g1, g2, g3, g4, g5⟩ := optOps_whole os rest (s'.putn o.pieces.flatten).1
        (by have := putn_within (s := s') (by omega) o.pieces.flatten; simpa [putn] using this)
      exact ⟨s1, ok1, g1, by rw [g2]; exact f2, g3, g4, fun h => by rw [← f2]; exact g5 h⟩
    | false =>
      simp only
      refine ⟨s', false, rfl, f2, by omega, (fun h => by cases h), fun _ => ?_⟩
      exact ⟨e3 rfl, full_stays _ (by rw [e3 rfl, f2])⟩

/-- C97: whatever pieces the values and the payload are put in, and whatever the room, the stream holds exactly what it
holds when the options are written whole. -/
theorem stream_ops_message (h : Header) (token : List UInt8) (os : List PieceOpt) (payload : Option (List (List UInt8))) (cap : Nat) :
    ∃ s s' ok, runOps (SEnc.init cap) (msgOps h token os payload) = .ok s ∧
      writeMsg (SEnc.init cap) h token (os.map PieceOpt.whole) (payload.map List.flatten) = .ok (s', ok) ∧ s.out = s'.out ∧
      (ok = false → s.out.length = cap) := by
  have h1 : ((SEnc.init cap).header h).out.length ≤ cap := putn_within (s := SEnc.init cap) (by simp [SEnc.init]) _
  have h2 : (((SEnc.init cap).header h).token token).out.length ≤ cap := putn_within (s := (SEnc.init cap).header h) h1 _
  obtain ⟨s1, ok, e1, e2, e3, e4, e5⟩ := optOps_whole os (match payload with | none => [] | some ps => .payload :: puts ps)
    (((SEnc.init cap).header h).token token) h2
  simp only [msgOps, runOps, StreamOp.run, writeMsg, e1]
  cases ok with
  | false => obtain ⟨g0, s2, g1, g2⟩ := e5 rfl; exact ⟨s2, s1, false, g1, rfl, g2, fun _ => by rw [g2, g0]; rfl⟩
  | true =>
    rw [e4 rfl]
    cases payload with
    | none => exact ⟨s1, s1, true, rfl, rfl, rfl, fun h => by cases h⟩
    | some ps =>
      refine ⟨_, _, true, ?_, rfl, rfl, fun h => by cases h⟩
      simp only [runOps, StreamOp.run, Option.map_some, writePayload]
      rw [stream_pieces]
      simp only [payloadMarker, putc_putn]
      exact putn_within e3 _

/-- C97 (partial: option lengths and distances of numbers the option encoder writes properly, as in C22): the bytes put
together by the operators, in whatever pieces, decode to the message. -/
theorem stream_ops_round_trip_partial (m : Msg) (hm : m.Ok) (he : OptsEncodable 0 m.opts) (h : Header)
    (hh : fields h.b0 h.b1 h.b2 h.b3 = ⟨m.version, m.type, m.token.length, m.code, m.mid⟩)
    (os : List PieceOpt) (hos : os.map PieceOpt.whole = m.opts) (ps : Option (List (List UInt8))) (hps : ps.map List.flatten = m.payload) :
    ∃ w, (∀ cap, w.length ≤ cap → ∃ s, runOps (SEnc.init cap) (msgOps h m.token os ps) = .ok s ∧ s.out = w) ∧
      ∀ junk : Dec, junk.tbuf.length = 8 → (junk.opt.st ≠ .payload ∨ m.token ≠ [] ∨ m.opts ≠ [] ∨ m.payload ≠ none) →
        ∃ N d', d'.st = .done ∧ ∀ fuel, N ≤ fuel →
          Dec.processToDone fuel (Dec.fresh junk) ⟨w, 0, true⟩ = .ok (d', ⟨w, w.length, true⟩, delivery m) := by
  obtain ⟨w, -, h2, h3⟩ := stream_round_trip_partial m hm he h hh
  refine ⟨w, fun cap hc => ?_, h3⟩
  obtain ⟨s', e1, e2⟩ := h2 cap hc
  obtain ⟨s, s'', ok, f1, f2, f3, -⟩ := stream_ops_message h m.token os ps cap
  rw [hos, hps, e1] at f2
  simp only [Except.ok.injEq, Prod.mk.injEq] at f2
  exact ⟨s, f1, by rw [f3, ← f2.1, e2]⟩

/-- C97, exactly: when the operators have written a message, in whatever pieces, and there is room left, the bytes decode to it if and only if
every distance of numbers and every length is one of `Encodable`. -/
theorem stream_ops_round_trip_iff_partial (m : Msg) (hm : m.Ok) (h : Header)
    (hh : fields h.b0 h.b1 h.b2 h.b3 = ⟨m.version, m.type, m.token.length, m.code, m.mid⟩)
    (os : List PieceOpt) (hos : os.map PieceOpt.whole = m.opts) (ps : Option (List (List UInt8))) (hps : ps.map List.flatten = m.payload)
    (cap : Nat) (s : SEnc) (hs : runOps (SEnc.init cap) (msgOps h m.token os ps) = .ok s) (hroom : s.out.length < cap) (junk : Dec)
    (hj : junk.tbuf.length = 8) (hst : junk.opt.st ≠ .payload ∨ m.token ≠ [] ∨ m.opts ≠ [] ∨ m.payload ≠ none) :
    (∃ N d' c', ∀ fuel, N ≤ fuel → Dec.processToDone fuel (Dec.fresh junk) ⟨s.out, 0, true⟩ = .ok (d', c', delivery m)) ↔
      OptsEncodable 0 m.opts := by
  obtain ⟨t, s', ok, f1, f2, f3, f4⟩ := stream_ops_message h m.token os ps cap
  rw [hs] at f1
  obtain rfl := Except.ok.inj f1
  cases ok with
  | false => exact absurd (f4 rfl) (by omega)
  | true =>
    rw [hos, hps] at f2
    rw [f3] at hroom ⊢
    exact stream_round_trip_iff_partial m hm h hh cap s' f2 hroom junk hj hst

/-- The operators always come to an end, so there is such an `s`. -/
example : (runOps (SEnc.init 40) (msgOps ⟨0x41, 1, 0, 7⟩ [9] [⟨11, [[97], [98, 99]]⟩, ⟨11, [[100]]⟩] (some [[1, 2], [3]]))).toOption.map (·.out) =
    some [0x41, 1, 0, 7, 9, 0xB3, 97, 98, 99, 0x01, 100, 0xFF, 1, 2, 3] := by decide +kernel

/-- C97 fails in general, as C22 does: a path of 13 characters put one by one decodes to something else. -/
theorem stream_ops_round_trip_fails : longPathMsg.Ok ∧ ∃ s,
    runOps (SEnc.init 1000) (msgOps ⟨0x40, 1, 0, 1⟩ longPathMsg.token [⟨11, List.replicate 13 [0x61]⟩] none) = .ok s ∧
    [(⟨11, List.replicate 13 [0x61]⟩ : PieceOpt)].map PieceOpt.whole = longPathMsg.opts ∧
    ((Dec.processToDone 400 (Dec.fresh Dec.zero) ⟨s.out, 0, true⟩).toOption.map (·.2.2)) ≠ some (delivery longPathMsg) := by
  obtain ⟨h1, -, s', h3, h4⟩ := stream_round_trip_fails
  obtain ⟨s, s'', ok, f1, f2, f3, -⟩ := stream_ops_message ⟨0x40, 1, 0, 1⟩ longPathMsg.token [⟨11, List.replicate 13 [0x61]⟩] none 1000
  have hw : [(⟨11, List.replicate 13 [0x61]⟩ : PieceOpt)].map PieceOpt.whole = longPathMsg.opts := by decide
  refine ⟨h1, s, f1, hw, ?_⟩
  rw [hw] at f2
  have e : s.out = s'.out := by
    rw [f3]
    have : writeMsg (SEnc.init 1000) ⟨0x40, 1, 0, 1⟩ longPathMsg.token longPathMsg.opts longPathMsg.payload = .ok (s'', ok) := f2
    rw [h3] at this
    simp only [Except.ok.injEq, Prod.mk.injEq] at this
    rw [this.1]
  rw [e, h4]
  decide +kernel

/-- The message of the repository's test, with one value in two pieces and the payload in three, and the same with room for nine bytes. -/
def opsSample : List StreamOp :=
  msgOps ⟨0x40, 0, 1, 0x23⟩ [] [⟨270, [[3]]⟩, ⟨271, [[4], [5]]⟩] (some [[0x10, 0x11], [], [0x12]])
example : (runOps (SEnc.init 64) opsSample).toOption.map (·.out) =
    some [0x40, 0, 1, 0x23, 0xE1, 0, 1, 3, 0x12, 4, 5, 0xFF, 0x10, 0x11, 0x12] := by decide +kernel
example : (runOps (SEnc.init 9) opsSample).toOption.map (·.out) = some [0x40, 0, 1, 0x23, 0xE1, 0, 1, 3, 0x12] := by decide +kernel
example : OptsEncodable 0 [⟨270, [3]⟩, ⟨271, [4, 5]⟩] := by decide

end Verif.Props
