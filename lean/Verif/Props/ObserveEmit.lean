import Verif.Spec.ObserveEmit
import Verif.Props.Observable

/-! # C81: the notifications of the observe example -/
namespace Verif.Props
open Verif.Model Verif.Spec Verif.Proofs Observable

/-! ## The text -/

theorem decimal_spec (n : Nat) : IsDecimal (decimal n) n ∧ 10 ^ ((decimal n).length - 1) ≤ max n 1 := by
  induction n using Nat.strongRecOn with
  | ind n ih =>
    rw [decimal]
    by_cases h : n < 10
    · rw [dif_pos h]
      have ht : (UInt8.ofNat (48 + n)).toNat = 48 + n := by simp; omega
      refine ⟨⟨?_, by simp, ?_, ?_⟩, ?_⟩
      · intro d hd
        simp only [List.mem_singleton] at hd
        subst hd
        rw [ht]; omega
      · intro h0
        simp only [List.head?_cons, Option.some.injEq] at h0
        have := congrArg UInt8.toNat h0
        rw [ht] at this
        simp at this
        omega
      · simp only [decValue, List.foldl_cons, List.foldl_nil, ht]; omega
      · simp only [List.length_singleton, Nat.sub_self, Nat.pow_zero]; omega
    · rw [dif_neg h]
      obtain ⟨⟨h1, h2, h3, h4⟩, h5⟩ := ih (n / 10) (by omega)
      have ht : (UInt8.ofNat (48 + n % 10)).toNat = 48 + n % 10 := by simp; omega
      refine ⟨⟨?_, by simp, ?_, ?_⟩, ?_⟩
      · intro d hd
        rcases List.mem_append.1 hd with hd | hd
        · exact h1 d hd
        · simp only [List.mem_singleton] at hd
          subst hd
          rw [ht]; omega
      · intro h0
        have := h3 (by cases hd : decimal (n / 10) with | nil => exact absurd hd h2 | cons d ds => rw [hd] at h0; simpa using h0)
        omega
      · simp only [decValue, List.foldl_append, List.foldl_cons, List.foldl_nil, ht] at h4 ⊢
        rw [h4]; omega
      · have hl : 0 < (decimal (n / 10)).length := List.length_pos_iff.2 h2
        simp only [List.length_append, List.length_singleton, Nat.add_sub_cancel]
        obtain ⟨k, hk⟩ : ∃ k, (decimal (n / 10)).length = k + 1 := ⟨(decimal (n / 10)).length - 1, by omega⟩
        rw [hk] at h5 ⊢
        simp only [Nat.add_sub_cancel] at h5
        rw [Nat.pow_succ]
        omega

theorem decimal_length (n : Nat) (h : n < 2 ^ 31) : (decimal n).length ≤ 10 := by
  have := (decimal_spec n).2
  by_cases hc : (decimal n).length ≤ 10
  · exact hc
  · exfalso
    have : 10 ^ 10 ≤ 10 ^ ((decimal n).length - 1) := Nat.pow_le_pow_right (by omega) (by omega)
    omega

theorem observedText_eq (n : Nat) (h : n < 2 ^ 31) : observedText (UInt32.ofNat n) = observedWord ++ decimal n := by
  have ht : (UInt32.ofNat n).toNat = n := by simp; omega
  simp only [observedText, ht, h, if_true, observedWord]

/-- C81: the text fits with its zero byte, in whatever order the arguments are evaluated. -/
theorem emit_exact (sizeFirst : Bool) (q : UInt32) (e : NEnc) (hm : e.marker = false)
    (hr : 1 + (observedText q).length < e.room) :
    emitObserve sizeFirst q e = .ok (e.payload (observedText q)).1 := by
  have h0 : (e.room == 0) = false := by simp; omega
  simp only [emitObserve, NEnc.payload, NEnc.payloadHeader, hm, Bool.not_false, if_true, h0, Bool.false_eq_true, if_false]
  rw [write_fits _ _ (by simp only; omega)]
  rw [if_neg (by cases sizeFirst <;> simp <;> omega), if_neg (by omega), if_pos (by cases sizeFirst <;> simp <;> omega)]

/-- C81 fails: a sequence number from 2^31 on is sent as the negative number it is 2^32 less than. -/
theorem observed_text_negative (sizeFirst : Bool) (n : Nat) (h1 : 2 ^ 31 ≤ n) (h2 : n < 2 ^ 32) (e : NEnc) (hm : e.marker = false)
    (hr : 1 + (observedWord.length + 11) < e.room) :
    ∃ ds, IsDecimal ds (2 ^ 32 - n) ∧ emitObserve sizeFirst (UInt32.ofNat n) e = .ok (e.payload (observedWord ++ 45 :: ds)).1 := by
  have ht : (UInt32.ofNat n).toNat = n := by simp; omega
  have he : observedText (UInt32.ofNat n) = observedWord ++ 45 :: decimal (2 ^ 32 - n) := by
    simp only [observedText, ht, if_neg (by omega : ¬ n < 2 ^ 31), observedWord]
  have hl : (decimal (2 ^ 32 - n)).length ≤ 10 := by
    have := (decimal_spec (2 ^ 32 - n)).2
    by_cases hc : (decimal (2 ^ 32 - n)).length ≤ 10
    · exact hc
    · exfalso
      have : 10 ^ 10 ≤ 10 ^ ((decimal (2 ^ 32 - n)).length - 1) := Nat.pow_le_pow_right (by omega) (by omega)
      omega
  refine ⟨decimal (2 ^ 32 - n), (decimal_spec _).1, ?_⟩
  rw [← he]
  exact emit_exact sizeFirst _ e hm (by rw [he]; simp only [List.length_append, List.length_cons]; omega)

/-- C81 fails: with exactly as much room as the text needs, its last digit is sent as a zero byte if the size is asked for
after the marker is written, and the zero byte is written behind the buffer if before. -/
theorem emit_last_digit_lost (q : UInt32) (e : NEnc) (hm : e.marker = false) (hr : 1 + (observedText q).length = e.room) :
    emitObserve false q e =
      .ok { (e.payload (observedText q)).1 with out := (e.payload ((observedText q).dropLast ++ [0])).1.out } ∧
    emitObserve true q e = .error .write := by
  have h0 : (e.room == 0) = false := by simp; omega
  have hp : 0 < (observedText q).length := by simp [observedText]
  have hl : ((observedText q).dropLast ++ [0]).length = (observedText q).length := by simp; omega
  refine ⟨?_, ?_⟩
  · simp only [emitObserve, NEnc.payload, NEnc.payloadHeader, hm, Bool.not_false, if_true, h0, Bool.false_eq_true, if_false]
    rw [write_fits _ _ (by simp only; omega), write_fits _ _ (by simp only; omega)]
    rw [if_neg (by omega), if_neg (by omega), if_neg (by omega)]
    rw [List.dropLast_eq_take, ← hr]
    simp
  · simp only [emitObserve, NEnc.payloadHeader, hm, Bool.not_false, if_true, h0, Bool.false_eq_true, if_false]
    rw [if_pos (by omega)]

/-- C81 fails: with less room than that, what lies behind the buffer is sent. -/
theorem emit_behind_buffer (sizeFirst : Bool) (q : UInt32) (e : NEnc) (hm : e.marker = false)
    (hr : e.room < 1 + (observedText q).length) :
    emitObserve sizeFirst q e = .error .write ∨ emitObserve sizeFirst q e = .error .advance := by
  have hr' : e.payloadHeader.1.room < (observedText q).length := by
    simp only [NEnc.payloadHeader, hm, Bool.not_false, if_true]
    by_cases h0 : e.room = 0
    · simp only [h0, beq_self_eq_true, if_true]; simp [observedText]
    · have h0' : (e.room == 0) = false := by simp [h0]
      simp only [h0', Bool.false_eq_true, if_false]; omega
  simp only [emitObserve, hr', if_true]
  by_cases hw : e.payloadHeader.1.room < min ((observedText q).length + 1) (if sizeFirst = true then e.room else e.payloadHeader.1.room)
  · rw [if_pos hw]; exact Or.inl rfl
  · rw [if_neg hw]; exact Or.inr rfl

/-! ## The times -/

/-- `last` after a history. -/
def lastOf {A : Type} : Int → List (LoopEv A) → Int
  | l, [] => l
  | l, .observe _ _ _ :: es => lastOf l es
  | l, .loop now :: es => lastOf (paceStep l now).2 es

theorem paced_append {A : Type} : ∀ (a b : List (LoopEv A)) (l : Int), paced l (a ++ b) = paced l a ++ paced (lastOf l a) b
  | [], _, _ => rfl
  | .observe _ _ _ :: a, b, l => by simp [paced, lastOf, paced_append a b l]
  | .loop now :: a, b, l => by
    simp only [List.cons_append, paced, lastOf, paceStep]
    by_cases h : now - l > 1000
    · simp only [h, if_true, List.cons_append, paced_append a b]
    · simp only [h, if_false, paced_append a b]

theorem lastOf_append {A : Type} : ∀ (a b : List (LoopEv A)) (l : Int), lastOf l (a ++ b) = lastOf (lastOf l a) b
  | [], _, _ => rfl
  | .observe _ _ _ :: a, b, l => by simp [lastOf, lastOf_append a b]
  | .loop now :: a, b, l => by simp [lastOf, lastOf_append a b]

theorem lastOf_mono {A : Type} : ∀ (a : List (LoopEv A)) (l : Int), l ≤ lastOf l a
  | [], l => by simp [lastOf]
  | .observe _ _ _ :: a, l => by simpa [lastOf] using lastOf_mono a l
  | .loop now :: a, l => by
    have := lastOf_mono a (paceStep l now).2
    simp only [lastOf]
    refine Int.le_trans ?_ this
    simp only [paceStep]
    split <;> simp <;> omega

theorem paced_snoc {A : Type} (p : List (LoopEv A)) (now : Int) :
    paced 0 (p ++ [.loop now]) = paced 0 p ++ (if now - lastOf 0 p > 1000 then [.round] else []) := by
  rw [paced_append]
  simp only [paced, paceStep]
  by_cases h : now - lastOf 0 p > 1000 <;> simp [h]

theorem fires_iff {A : Type} (p : List (LoopEv A)) (now : Int) : Fires p now ↔ now - lastOf 0 p > 1000 := by
  rw [Fires, paced_snoc, rounds_append]
  by_cases h : now - lastOf 0 p > 1000 <;> simp [h, rounds]

theorem silent_iff {A : Type} (p : List (LoopEv A)) (now : Int) : Silent p now ↔ ¬ now - lastOf 0 p > 1000 := by
  rw [Silent, paced_snoc]
  by_cases h : now - lastOf 0 p > 1000 <;> simp [h]

/-- C81: the first notification is sent more than a second after the start, and two notifications are more than a second
apart, whatever happens in between. -/
theorem rounds_apart {A : Type} (p : List (LoopEv A)) (t : Int) (h : Fires p t) :
    1000 < t ∧ ∀ (p1 p2 : List (LoopEv A)) (t1 : Int), p = p1 ++ .loop t1 :: p2 → Fires p1 t1 → 1000 < t - t1 := by
  rw [fires_iff] at h
  refine ⟨by have := lastOf_mono p 0; omega, fun p1 p2 t1 hp h1 => ?_⟩
  rw [fires_iff] at h1
  subst hp
  rw [lastOf_append] at h
  have : t1 ≤ lastOf (lastOf 0 p1) (.loop t1 :: p2) := by
    simp only [lastOf, paceStep, h1, if_true]
    exact lastOf_mono _ _
  omega

theorem last_fired {A : Type} (p : List (LoopEv A)) : ∀ (q : List (LoopEv A)), lastOf 0 q = 0 ∨
    (∃ p1 t1 p2, q = p1 ++ .loop t1 :: p2 ∧ Fires p1 t1 ∧ lastOf 0 q = t1) →
    lastOf 0 (q ++ p) = 0 ∨ ∃ p1 t1 p2, q ++ p = p1 ++ .loop t1 :: p2 ∧ Fires p1 t1 ∧ lastOf 0 (q ++ p) = t1 := by
  induction p with
  | nil => intro q h; simpa using h
  | cons e p ih =>
    intro q h
    have hc : q ++ e :: p = (q ++ [e]) ++ p := by simp
    rw [hc]
    refine ih (q ++ [e]) ?_
    have hext : lastOf 0 (q ++ [e]) = lastOf 0 q →
        lastOf 0 (q ++ [e]) = 0 ∨ ∃ p1 t1 p2, q ++ [e] = p1 ++ .loop t1 :: p2 ∧ Fires p1 t1 ∧ lastOf 0 (q ++ [e]) = t1 := by
      intro he
      rcases h with h | ⟨p1, t1, p2, h1, h2, h3⟩
      · exact Or.inl (by rw [he, h])
      · exact Or.inr ⟨p1, t1, p2 ++ [e], by simp [h1], h2, by rw [he, h3]⟩
    cases e with
    | observe a t c => exact hext (by rw [lastOf_append]; rfl)
    | loop now =>
      by_cases hf : now - lastOf 0 q > 1000
      · refine Or.inr ⟨q, now, [], rfl, (fires_iff _ _).2 hf, ?_⟩
        rw [lastOf_append]; simp [lastOf, paceStep, hf]
      · refine hext ?_
        rw [lastOf_append]; simp [lastOf, paceStep, hf]

/-- C81: a call that sends nothing comes within the first second or at most a second after a call that did (or before it:
the clock may have been set back). -/
theorem rounds_not_missed {A : Type} (p : List (LoopEv A)) (t : Int) :
    Fires p t ∨ Silent p t ∧ (t ≤ 1000 ∨ ∃ p1 t1 p2, p = p1 ++ .loop t1 :: p2 ∧ Fires p1 t1 ∧ t - t1 ≤ 1000) := by
  by_cases h : t - lastOf 0 p > 1000
  · exact Or.inl ((fires_iff p t).2 h)
  · refine Or.inr ⟨(silent_iff p t).2 h, ?_⟩
    rcases last_fired p [] (Or.inl rfl) with h0 | ⟨p1, t1, p2, h1, h2, h3⟩
    · simp only [List.nil_append] at h0; exact Or.inl (by omega)
    · simp only [List.nil_append] at h1 h3; exact Or.inr ⟨p1, t1, p2, h1, h2, by omega⟩

/-- C81 fails: the example takes the time of day, which can be set back; then nobody is notified until the clock has passed
the time of the last notification again, however long that takes. -/
theorem clock_set_back_silent {A : Type} (p : List (LoopEv A)) (t : Int) (h : Fires p t) (ts : List Int)
    (hts : ∀ x ∈ ts, x ≤ t + 1000) :
    rounds (paced 0 (p ++ .loop t :: ts.map .loop)) = rounds (paced 0 (p ++ [.loop t])) := by
  rw [fires_iff] at h
  have hl : lastOf 0 (p ++ [.loop t]) = t := by rw [lastOf_append]; simp [lastOf, paceStep, h]
  have : p ++ .loop t :: ts.map .loop = (p ++ [.loop t]) ++ ts.map .loop := by simp
  rw [this, paced_append, hl, rounds_append]
  have hz : ∀ (ts : List Int), (∀ x ∈ ts, x ≤ t + 1000) → paced (A := A) t (ts.map .loop) = [] := by
    intro ts
    induction ts with
    | nil => intro _; rfl
    | cons x ts ih =>
      intro hx
      have : ¬ x - t > 1000 := by have := hx x (by simp); omega
      simp only [List.map_cons, paced, paceStep, this, if_false]
      exact ih fun y hy => hx y (by simp [hy])
  rw [hz ts hts]; rfl

/-! ## The messages -/

/-- C81 (partial: buffers of at least 39 bytes, and as for C37 fewer than 2^31 messages and registrations that fit): the
call at time `now` after the history `pre`, if it notifies at all, sends every registration made in `pre` one message,
exactly a non-confirmable 2.05 with the token of the registration, an Observe option and the text "Observed: n", both
counting the notifications since the registration. -/
theorem observed_sent_partial {A : Type} (sizeFirst : Bool) (cap room fuel : Nat) (junk : List UInt8) (hj : 4 ≤ junk.length)
    (hroom : 39 ≤ room) (hf : room + 6 ≤ fuel) (pre post : List (LoopEv A)) (now : Int) (hfire : Fires pre now)
    (hfit : Fits cap (paced 0 (pre ++ .loop now :: post))) :
    ∃ r outs ms, serveObservers sizeFirst cap room fuel junk (pre ++ .loop now :: post) = .ok (r, outs) ∧
      outs[rounds (paced 0 pre)]? = some ms ∧ ms.length = (subs (paced 0 pre)).length ∧
      ∀ (i : Nat) (a : A) (t : List UInt8) (n : Nat), (subs (paced 0 pre))[i]? = some (a, t, n) →
        ∃ v ds, beValue v = n + 1 ∧ v.length ≤ 4 ∧ v.head? ≠ some 0 ∧ IsDecimal ds (n + 1) ∧
          ms[i]? = some ⟨a, encMsg (notification ((due (paced 0 pre) + i) % 65536) t v (some (observedWord ++ ds)))⟩ := by
  have hp : paced 0 (pre ++ .loop now :: post) = paced 0 pre ++ .round :: paced now post := by
    rw [fires_iff] at hfire
    rw [paced_append]
    simp only [paced, paceStep, hfire, if_true]
  rw [hp] at hfit
  obtain ⟨r, outs, ms, h1, -, h3, h4, h5⟩ := observers_notified_partial cap room fuel junk
    (emitted sizeFirst) hj (by omega) hf (paced 0 pre) (paced now post) hfit
  refine ⟨r, outs, ms, by rw [serveObservers, hp, h1], h3, h4, fun i a t n hi => ?_⟩
  obtain ⟨v, e, v1, v2, v3, he, hm⟩ := h5 i a t n hi
  have hn : n + 1 < 2 ^ 31 := by
    have hmem := List.mem_of_getElem? hi
    have hd := (fits_prefix (a := paced 0 pre ++ [.round]) (b := paced now post) (by simpa using hfit)).2.2
    rw [due_append] at hd
    have := due_ge _ _ hmem
    have hpos : 0 < (subs (paced 0 pre)).length := List.length_pos_of_mem hmem
    simp only [due, rounds, subs, List.map_nil, List.sum_nil] at hd this
    omega
  have htl : t.length ≤ 8 := (fits_prefix hfit).2.1 _ (List.mem_of_getElem? hi)
  have htx := observedText_eq (n + 1) hn
  have hlen : (observedText (UInt32.ofNat (n + 1))).length ≤ 20 := by
    rw [htx]; have := decimal_length (n + 1) hn; simp [observedWord]; omega
  have her : 22 ≤ e.room := by
    have h13 : v.length < 13 := by omega
    have := he.2.2.2.2
    have hl : (encMsg (notification ((due (paced 0 pre) + i) % 65536) t v none)).length = 4 + t.length + (1 + v.length) := by
      simp [encMsg, notification, encPayload, encHeader, encOpts, optHeader, nibble, extBytes, h13, Nat.add_comm, Nat.add_left_comm]
    omega
  have hx := emit_exact sizeFirst (UInt32.ofNat (n + 1)) e he.2.2.2.1 (by omega)
  have hd := notification_delivered ((due (paced 0 pre) + i) % 65536) (by omega) t v (observedText (UInt32.ofNat (n + 1))) htl v2 e room he
    (by simp [observedText]) (by omega)
  refine ⟨v, decimal (n + 1), v1, v2, v3, (decimal_spec _).1, ?_⟩
  rw [hm]
  have hout := hd.1
  rw [htx] at hout
  simp only [emitted, hx, htx, hout]

/-- A history that notifies at 1001 ms: one registration, made at the beginning. -/
example : Fires [.loop 0, .observe 7 [0xAA] 0, .loop 1000] 1001 ∧ Silent [.loop 0, .observe 7 [0xAA] 0] 1000 := by
  unfold Fires Silent; decide

example : Fits 10 (paced 0 ([.loop 0, .observe 7 [0xAA] 0, .loop 1000] ++ .loop 1001 :: [.loop 2500])) := by
  refine ⟨by decide, by decide, by decide⟩

/-- What that observer gets. -/
example : serveObservers false 10 64 100 [0, 0, 0, 0] [.loop 0, .observe 7 [0xAA] 0, .loop 1000, .loop 1001, .loop 2500] =
    .ok (⟨[⟨7, [0xAA], 2⟩], 2⟩,
      [[⟨7, [0x51, 0x45, 0, 0, 0xAA, 0x61, 1, 0xFF, 79, 98, 115, 101, 114, 118, 101, 100, 58, 32, 49]⟩],
       [⟨7, [0x51, 0x45, 0, 1, 0xAA, 0x61, 2, 0xFF, 79, 98, 115, 101, 114, 118, 101, 100, 58, 32, 50]⟩]]) := by
  decide +kernel

/-- The two edges of the room, on a real encoder state: one byte short of the zero byte, and less. -/
example : (1 + (observedText 42).length = (NEnc.init 13).room) ∧ (NEnc.init 12).room < 1 + (observedText 42).length ∧
    emitObserve false 42 (NEnc.init 13) =
      .ok ⟨OptEnc.init, [0xFF, 79, 98, 115, 101, 114, 118, 101, 100, 58, 32, 52, 0], 0, true⟩ := by
  decide +kernel

end Verif.Props
