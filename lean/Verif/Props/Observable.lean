import Verif.Spec.Observe
import Verif.Props.NetBufEncoder
import Verif.Props.UInt
import Verif.Props.Header
import Verif.Props.DecoderMessage

/-! # C37, C38: observation -/
namespace Verif.Props
open Verif.Model Verif.Model.Observable Verif.Spec Verif.Proofs

theorem rounds_append {A : Type} : ∀ a b : List (Ev A), rounds (a ++ b) = rounds a + rounds b
  | [], b => by simp [rounds]
  | .round :: a, b => by simp only [List.cons_append, rounds, rounds_append a b]; omega
  | .observe _ _ _ :: a, b => by simp only [List.cons_append, rounds, rounds_append a b]

theorem subs_append {A : Type} : ∀ a b : List (Ev A),
    subs (a ++ b) = (subs a).map (fun x => (x.1, x.2.1, x.2.2 + rounds b)) ++ subs b
  | [], b => by simp [subs]
  | .round :: a, b => by simp only [List.cons_append, subs, subs_append a b]
  | .observe ad t c :: a, b => by
    simp only [List.cons_append, subs, subs_append a b, rounds_append]
    by_cases hc : c = 0 <;> simp [hc]

theorem sum_add_const {A : Type} (l : List (A × List UInt8 × Nat)) (k : Nat) :
    ((l.map fun x => (x.1, x.2.1, x.2.2 + k)).map fun x => x.2.2).sum = (l.map fun x => x.2.2).sum + k * l.length := by
  induction l with
  | nil => simp
  | cons x l ih => simp only [List.map_cons, List.sum_cons, ih, List.length_cons, Nat.mul_add]; omega

theorem due_append {A : Type} (a b : List (Ev A)) : due (a ++ b) = due a + rounds b * (subs a).length + due b := by
  simp only [due, subs_append, List.map_append, List.sum_append, sum_add_const]

/-- The value written for a sequence number. -/
theorem intValue_ok (junk : List UInt8) (hj : 4 ≤ junk.length) (n : Nat) (hn : n < 2 ^ 31) :
    ∃ v, intValue junk (UInt32.ofNat n) = .ok v ∧ beValue v = n ∧ v.length ≤ 4 ∧ v.head? ≠ some 0 := by
  have hlt : n < 2 ^ 64 := by omega
  have htn : (UInt32.ofNat n).toNat = n := by simp; omega
  have h4 : byteLen n ≤ 4 := byteLen_le (by omega)
  rw [intValue, htn, if_pos hn, uintSet_eq hlt, if_pos (by omega)]
  have hb : (UInt8.ofNat (byteLen n)).toNat = byteLen n := by simp; omega
  have ht : (beBytes (byteLen n) n ++ junk.drop (byteLen n)).take (byteLen n) = beBytes (byteLen n) n := by
    rw [List.take_append_of_le_length (by simp)]
    exact List.take_of_length_le (by simp)
  refine ⟨beBytes (byteLen n) n, by simp only [hb, ht], beBytes_byteLen_value n, by simp; exact h4, ?_⟩
  intro hz
  by_cases h0 : n = 0
  · subst h0; rw [byteLen_zero] at hz; simp [beBytes] at hz
  · have hv := beBytes_byteLen_value n
    have hlen := beBytes_length (byteLen n) n
    generalize beBytes (byteLen n) n = w at hz hv hlen
    cases w with
    | nil => simp at hz
    | cons b w =>
      simp only [List.head?_cons, Option.some.injEq] at hz
      subst hz
      have := beValue_lt w
      have hp := pow_le_of_byteLen h0
      simp only [beValue, List.length_cons] at hv hlen
      rw [show byteLen n - 1 = w.length by omega] at hp
      simp at hv
      omega

/-- The observe option as the first option of a message comes out in the short form. -/
theorem observe_option (value : List UInt8) (hl : value.length ≤ 4) (s : NEnc) (fuel : Nat) (hs : Between s)
    (hcur : s.oe.current = 0) (hroom : 6 ≤ s.room) (hf : s.room + 6 ≤ fuel) :
    ∃ oe, oe.st = .optionDone ∧ oe.current = 6 ∧ s.option fuel 6 value =
      .ok (⟨oe, s.out ++ encOpts 0 [⟨6, value⟩], s.room - (1 + value.length), s.marker⟩, true) := by
  obtain ⟨hdr, h1, h2, h3⟩ := netbuf_option 0 6 value (by omega) (by omega) (by omega) ⟨by omega, Or.inl (by omega)⟩
  have hhdr : hdr = [UInt8.ofNat (96 + value.length)] := by
    obtain ⟨oe, -, -, h⟩ := h3 (NEnc.init 20) 50 (Or.inl rfl) rfl (by simp [NEnc.init]; omega) (by simp [NEnc.init])
    have key : ∀ k : Fin 5, ∃ oe, (NEnc.init 20).optionHeader 50 6 (UInt16.ofNat k.val) =
        .ok (⟨oe, [UInt8.ofNat (96 + k.val)], 19, false⟩, true) := by
      intro k
      match k with
      | 0 => exact ⟨_, rfl⟩
      | 1 => exact ⟨_, rfl⟩
      | 2 => exact ⟨_, rfl⟩
      | 3 => exact ⟨_, rfl⟩
      | 4 => exact ⟨_, rfl⟩
    obtain ⟨oe', hk⟩ := key ⟨value.length, by omega⟩
    have e6 : UInt16.ofNat 6 = 6 := rfl
    rw [e6, NEnc.option, hk] at h
    simp only [NEnc.optionValue, write_fits _ _ (show value.length ≤ (NEnc.mk oe' [UInt8.ofNat (96 + value.length)] 19 false).room by simp only; omega),
      beq_self_eq_true, if_true, Except.ok.injEq, Prod.mk.injEq, NEnc.mk.injEq, and_true, NEnc.init, List.nil_append] at h
    exact (List.append_cancel_right h.2.1).symm
  subst hhdr
  obtain ⟨oe, g1, g2, g3⟩ := h3 s fuel hs hcur (by simp; omega) hf
  refine ⟨oe, g1, g2, ?_⟩
  have e6 : UInt16.ofNat 6 = 6 := rfl
  rw [e6] at g3
  rw [g3]
  have : encOpts 0 [⟨6, value⟩] = [UInt8.ofNat (96 + value.length)] ++ value := by
    have h13 : value.length < 13 := by omega
    simp [encOpts, optHeader, nibble, extBytes, h13]
  rw [this]
  simp [Nat.add_comm]

/-- Where the encoder stands when the application is asked to write its part of a notification. -/
def AfterObserve (m : Msg) (e : NEnc) (room : Nat) : Prop :=
  e.out = encMsg m ∧ Between e ∧ e.oe.current = 6 ∧ e.marker = false ∧ e.room + (encMsg m).length = room

/-- One notification. -/
theorem notifyOne_ok {A : Type} (room fuel : Nat) (junk : List UInt8) (emit : Session A → NEnc → NEnc) (hj : 4 ≤ junk.length)
    (hroom : 18 ≤ room) (hf : room + 6 ≤ fuel) (mid n : Nat) (a : A) (t : List UInt8) (ht : t.length ≤ 8)
    (hmid : mid + 1 < 2 ^ 31) (hn : n + 1 < 2 ^ 31) :
    ∃ v e, beValue v = n + 1 ∧ v.length ≤ 4 ∧ v.head? ≠ some 0 ∧ AfterObserve (notification (mid % 65536) t v none) e room ∧
      notifyOne room fuel junk emit mid ⟨a, t, UInt32.ofNat n⟩ =
        .ok (⟨a, t, UInt32.ofNat (n + 1)⟩, ⟨a, (emit ⟨a, t, UInt32.ofNat (n + 1)⟩ e).out⟩) := by
  obtain ⟨v, hv, hv1, hv2, hv3⟩ := intValue_ok junk hj (n + 1) hn
  have hseq : UInt32.ofNat n + 1 = UInt32.ofNat (n + 1) := by
    rw [UInt32.ofNat_add]; rfl
  have hh : hfields (notifyHeader mid t) = ⟨1, 1, t.length, 69, mid % 65536⟩ := by
    have htt : (UInt8.ofNat t.length).toNat = t.length := by simp; omega
    rw [notifyHeader, header_set_token_length _ _ (by omega), header_set_message_id, htt]
    have h0 : hfields (Header.mk2 Header.nonConfirmable codeContent) = ⟨1, 1, 0, 69, 0⟩ := by decide
    rw [h0]
    simp
  have hmok : (notification (mid % 65536) t v none).Ok := by
    refine ⟨by simp [notification], by simp [notification], by simp [notification], ?_, ht, ⟨by simp, by simp, ?_, trivial⟩, by simp [notification]⟩
    · simp only [notification]; omega
    · simp only; omega
  have hhb := header_bytes (notification (mid % 65536) t v none) hmok (notifyHeader mid t) hh
  have hl4 : (encHeader (notification (mid % 65536) t v none)).length = 4 := rfl
  have e1 : ((NEnc.init room).header (notifyHeader mid t)).1 =
      ⟨OptEnc.init, encHeader (notification (mid % 65536) t v none), room - 4, false⟩ := by
    rw [NEnc.header, hhb, if_pos (by simp [NEnc.init]; omega), write_fits _ _ (by simp [NEnc.init]; omega)]
    simp [NEnc.init, hl4]
  have e2 : (NEnc.token ⟨OptEnc.init, encHeader (notification (mid % 65536) t v none), room - 4, false⟩ t).1 =
      ⟨OptEnc.init, encHeader (notification (mid % 65536) t v none) ++ t, room - 4 - t.length, false⟩ := by
    rw [NEnc.token, write_fits _ _ (by simp only; omega)]
  obtain ⟨oe, o1, o2, o3⟩ := observe_option v hv2
    ⟨OptEnc.init, encHeader (notification (mid % 65536) t v none) ++ t, room - 4 - t.length, false⟩ fuel (Or.inl rfl) rfl
    (by simp only; omega) (by simp only; omega)
  have hopt : (encOpts 0 [⟨6, v⟩]).length = 1 + v.length := by
    have h13 : v.length < 13 := by omega
    simp [encOpts, optHeader, nibble, extBytes, h13, Nat.add_comm]
  refine ⟨v, ⟨oe, encHeader (notification (mid % 65536) t v none) ++ t ++ encOpts 0 [⟨6, v⟩], room - 4 - t.length - (1 + v.length), false⟩,
    hv1, hv2, hv3, ⟨?_, Or.inr o1, o2, rfl, ?_⟩, ?_⟩
  · simp [encMsg, notification, encPayload]
  · simp only [encMsg, notification, encPayload, List.append_nil, List.length_append]
    simp only [notification] at hl4
    rw [hopt, hl4]
    omega
  · rw [notifyOne, if_neg (by omega)]
    simp only [hseq, hv, e1, e2, o3]

/-- One round. -/
theorem notifyAll_ok {A : Type} (room fuel : Nat) (junk : List UInt8) (emit : Session A → NEnc → NEnc) (hj : 4 ≤ junk.length)
    (hroom : 18 ≤ room) (hf : room + 6 ≤ fuel) : ∀ (l : List (A × List UInt8 × Nat)) (mid : Nat),
    (∀ x ∈ l, x.2.1.length ≤ 8 ∧ x.2.2 + 1 < 2 ^ 31) → mid + l.length < 2 ^ 31 →
    ∃ ms, notifyAll room fuel junk emit mid (l.map fun x => ⟨x.1, x.2.1, UInt32.ofNat x.2.2⟩) =
        .ok (l.map (fun x => ⟨x.1, x.2.1, UInt32.ofNat (x.2.2 + 1)⟩), mid + l.length, ms) ∧ ms.length = l.length ∧
      ∀ (i : Nat) (a : A) (t : List UInt8) (n : Nat), l[i]? = some (a, t, n) → ∃ v e, beValue v = n + 1 ∧ v.length ≤ 4 ∧ v.head? ≠ some 0 ∧
        AfterObserve (notification ((mid + i) % 65536) t v none) e room ∧
        ms[i]? = some ⟨a, (emit ⟨a, t, UInt32.ofNat (n + 1)⟩ e).out⟩
  | [], mid, _, _ => ⟨[], rfl, rfl, by simp⟩
  | (a, t, n) :: l, mid, hl, hm => by
    have h1 := hl _ List.mem_cons_self
    simp only [List.length_cons] at hm
    obtain ⟨v, e, v1, v2, v3, v4, v5⟩ := notifyOne_ok room fuel junk emit hj hroom hf mid n a t h1.1 (by omega) h1.2
    obtain ⟨ms, m1, m2, m3⟩ := notifyAll_ok room fuel junk emit hj hroom hf l (mid + 1)
      (fun x hx => hl x (List.mem_cons_of_mem _ hx)) (by omega)
    refine ⟨⟨a, (emit ⟨a, t, UInt32.ofNat (n + 1)⟩ e).out⟩ :: ms, ?_, by simp [m2], ?_⟩
    · simp only [List.map_cons, notifyAll, v5, m1, List.length_cons]
      rw [Nat.add_right_comm, Nat.add_assoc]
    · intro i a' t' n' hi
      cases i with
      | zero =>
        simp only [List.getElem?_cons_zero, Option.some.injEq, Prod.mk.injEq] at hi
        obtain ⟨rfl, rfl, rfl⟩ := hi
        exact ⟨v, e, v1, v2, v3, v4, rfl⟩
      | succ i =>
        simp only [List.getElem?_cons_succ] at hi ⊢
        rw [show mid + (i + 1) = mid + 1 + i by omega]
        exact m3 i a' t' n' hi

/-- The registrar after a history. -/
def Rep {A : Type} (r : Registrar A) (pre : List (Ev A)) : Prop :=
  r.sessions = (subs pre).map (fun x => ⟨x.1, x.2.1, UInt32.ofNat x.2.2⟩) ∧ r.mid = due pre

/-- A history that stays within the bounds: room for all registrations, tokens of at most eight bytes, fewer than 2^31
messages. -/
def Fits {A : Type} (cap : Nat) (es : List (Ev A)) : Prop :=
  (subs es).length ≤ cap ∧ (∀ x ∈ subs es, x.2.1.length ≤ 8) ∧ due es < 2 ^ 31

theorem due_ge {A : Type} (l : List (A × List UInt8 × Nat)) : ∀ x ∈ l, x.2.2 ≤ (l.map fun x => x.2.2).sum := by
  induction l with
  | nil => simp
  | cons y l ih =>
    intro x hx
    simp only [List.map_cons, List.sum_cons]
    rcases List.mem_cons.mp hx with rfl | hx
    · omega
    · have := ih x hx; omega

theorem fits_prefix {A : Type} {cap : Nat} {a b : List (Ev A)} (h : Fits cap (a ++ b)) : Fits cap a := by
  obtain ⟨h1, h2, h3⟩ := h
  rw [due_append] at h3
  rw [subs_append] at h1 h2
  simp only [List.length_append, List.length_map] at h1
  refine ⟨by omega, fun x hx => ?_, by omega⟩
  exact h2 (x.1, x.2.1, x.2.2 + rounds b) (List.mem_append_left _ (List.mem_map.mpr ⟨x, hx, rfl⟩))

theorem run_append {A : Type} (cap room fuel : Nat) (junk : List UInt8) (emit : Session A → NEnc → NEnc) :
    ∀ (es fs : List (Ev A)) (r r' : Registrar A) (outs : List (List (Sent A))), run cap room fuel junk emit r es = .ok (r', outs) →
      run cap room fuel junk emit r (es ++ fs) = (run cap room fuel junk emit r' fs).map fun x => (x.1, outs ++ x.2)
  | [], fs, r, r', outs, h => by
    simp only [run, Except.ok.injEq, Prod.mk.injEq] at h
    obtain ⟨rfl, rfl⟩ := h
    simp only [List.nil_append]
    cases run cap room fuel junk emit r fs <;> rfl
  | .observe a t c :: es, fs, r, r', outs, h => by
    rw [List.cons_append, run]
    rw [run] at h
    cases he : r.evaluate cap a t c with
    | error f => rw [he] at h; simp at h
    | ok x =>
      obtain ⟨r1, code⟩ := x
      rw [he] at h
      exact run_append cap room fuel junk emit es fs r1 r' outs h
  | .round :: es, fs, r, r', outs, h => by
    rw [List.cons_append, run]
    rw [run] at h
    cases he : notifyAll room fuel junk emit r.mid r.sessions with
    | error f => rw [he] at h; simp at h
    | ok x =>
      obtain ⟨ss, mid, ms⟩ := x
      rw [he] at h
      simp only at h ⊢
      cases hr : run cap room fuel junk emit ⟨ss, mid⟩ es with
      | error f => rw [hr] at h; simp at h
      | ok y =>
        obtain ⟨r2, o2⟩ := y
        rw [hr] at h
        simp only [Except.ok.injEq, Prod.mk.injEq] at h
        obtain ⟨rfl, rfl⟩ := h
        rw [run_append cap room fuel junk emit es fs _ _ _ hr]
        cases run cap room fuel junk emit r2 fs <;> rfl

theorem rep_run {A : Type} (cap room fuel : Nat) (junk : List UInt8) (emit : Session A → NEnc → NEnc) (hj : 4 ≤ junk.length)
    (hroom : 18 ≤ room) (hf : room + 6 ≤ fuel) : ∀ (es pre : List (Ev A)) (r : Registrar A), Rep r pre → Fits cap (pre ++ es) →
    ∃ r' outs, run cap room fuel junk emit r es = .ok (r', outs) ∧ Rep r' (pre ++ es) ∧ outs.length = rounds es
  | [], pre, r, hr, _ => ⟨r, [], rfl, by simpa using hr, rfl⟩
  | .observe a t c :: es, pre, r, hr, hfit => by
    have hassoc : pre ++ .observe a t c :: es = (pre ++ [.observe a t c]) ++ es := by simp
    rw [hassoc] at hfit
    have hfit1 := fits_prefix hfit
    have hstep : ∃ r1 code, r.evaluate cap a t c = .ok (r1, code) ∧ Rep r1 (pre ++ [.observe a t c]) := by
      by_cases h0 : c = 0
      · subst h0
        have hsub : subs (pre ++ [.observe a t 0]) = subs pre ++ [(a, t, 0)] := by
          simp [subs_append, subs, rounds]
        have hdue : due (pre ++ [.observe a t 0]) = due pre := by simp [due, hsub]
        have hlen : r.sessions.length < cap := by
          have := hfit1.1
          rw [hsub] at this
          rw [hr.1]
          simp at this ⊢
          omega
        refine ⟨{ r with sessions := r.sessions ++ [⟨a, t, 0⟩] }, codeValid, ?_, ?_, ?_⟩
        · simp [Registrar.evaluate, Registrar.doRegister, hlen]
        · simp [hr.1, hsub]
        · simp [hr.2, hdue]
      · have hsub : subs (pre ++ [.observe a t c]) = subs pre := by
          simp [subs_append, subs, rounds, h0]
        have hrep : Rep r (pre ++ [.observe a t c]) := ⟨by rw [hsub]; exact hr.1, by rw [due, hsub]; exact hr.2⟩
        by_cases h1 : c = 1
        · exact ⟨r, codeValid, by simp [Registrar.evaluate, Registrar.doDeregister, h1], hrep⟩
        · exact ⟨r, codeBadOption, by simp [Registrar.evaluate, h0, h1], hrep⟩
    obtain ⟨r1, code, s1, s2⟩ := hstep
    obtain ⟨r', outs, q1, q2, q3⟩ := rep_run cap room fuel junk emit hj hroom hf es _ r1 s2 hfit
    refine ⟨r', outs, ?_, by rw [hassoc]; exact q2, q3⟩
    rw [run, s1]
    exact q1
  | .round :: es, pre, r, hr, hfit => by
    have hassoc : pre ++ .round :: es = (pre ++ [.round]) ++ es := by simp
    rw [hassoc] at hfit
    have hfit1 := fits_prefix hfit
    have hsub : subs (pre ++ [.round]) = (subs pre).map fun x => (x.1, x.2.1, x.2.2 + 1) := by
      simp [subs_append, subs, rounds]
    have hdue : due (pre ++ [.round]) = due pre + (subs pre).length := by
      rw [due_append]; simp [due, subs, rounds]
    have hd := hfit1.2.2
    rw [hdue] at hd
    have hall : ∀ x ∈ subs pre, x.2.1.length ≤ 8 ∧ x.2.2 + 1 < 2 ^ 31 := by
      intro x hx
      refine ⟨(fits_prefix hfit1).2.1 x hx, ?_⟩
      have := due_ge _ x hx
      have hpos : 0 < (subs pre).length := List.length_pos_of_mem hx
      simp only [due] at hd
      omega
    obtain ⟨ms, m1, m2, m3⟩ := notifyAll_ok room fuel junk emit hj hroom hf (subs pre) (due pre) hall hd
    rw [← hr.1, ← hr.2] at m1
    have hrep : Rep (A := A) ⟨(subs pre).map (fun x => ⟨x.1, x.2.1, UInt32.ofNat (x.2.2 + 1)⟩), r.mid + (subs pre).length⟩
        (pre ++ [.round]) := by
      refine ⟨?_, ?_⟩
      · simp [hsub]
      · simp [hr.2, hdue]
    obtain ⟨r', outs, q1, q2, q3⟩ := rep_run cap room fuel junk emit hj hroom hf es _ _ hrep hfit
    refine ⟨r', ms :: outs, ?_, by rw [hassoc]; exact q2, by simp [q3, rounds]⟩
    rw [run, m1]
    simp only
    rw [q1]

/-- C37 (partial: as long as fewer than 2^31 messages have been sent and all registrations fit): in every history, the
round that follows `pre` sends one message to each registration made in `pre`, in order, to its address and made of a
non-confirmable 2.05 header with a message id of its own, the token of the registration and an observe option that counts
the rounds since it, followed by what the application writes. -/
theorem observers_notified_partial {A : Type} (cap room fuel : Nat) (junk : List UInt8) (emit : Session A → NEnc → NEnc)
    (hj : 4 ≤ junk.length) (hroom : 18 ≤ room) (hf : room + 6 ≤ fuel) (pre post : List (Ev A))
    (hfit : Fits cap (pre ++ .round :: post)) :
    ∃ r outs ms, run cap room fuel junk emit Registrar.init (pre ++ .round :: post) = .ok (r, outs) ∧
      outs.length = rounds (pre ++ .round :: post) ∧ outs[rounds pre]? = some ms ∧ ms.length = (subs pre).length ∧
      ∀ (i : Nat) (a : A) (t : List UInt8) (n : Nat), (subs pre)[i]? = some (a, t, n) → ∃ v e, beValue v = n + 1 ∧ v.length ≤ 4 ∧ v.head? ≠ some 0 ∧
        AfterObserve (notification ((due pre + i) % 65536) t v none) e room ∧
        ms[i]? = some ⟨a, (emit ⟨a, t, UInt32.ofNat (n + 1)⟩ e).out⟩ := by
  have hassoc : pre ++ .round :: post = (pre ++ [.round]) ++ post := by simp
  have hfit1 : Fits cap (pre ++ [.round]) := by rw [hassoc] at hfit; exact fits_prefix hfit
  have hinit : Rep (A := A) Registrar.init [] := ⟨rfl, rfl⟩
  obtain ⟨r0, outs0, p1, p2, p3⟩ := rep_run cap room fuel junk emit hj hroom hf pre [] _ hinit (fits_prefix hfit1)
  obtain ⟨r, outs, q1, -, q3⟩ := rep_run cap room fuel junk emit hj hroom hf (pre ++ .round :: post) [] _ hinit hfit
  have hdue : due (pre ++ [.round]) = due pre + (subs pre).length := by
    rw [due_append]; simp [due, subs, rounds]
  have hd := hfit1.2.2
  rw [hdue] at hd
  have hall : ∀ x ∈ subs pre, x.2.1.length ≤ 8 ∧ x.2.2 + 1 < 2 ^ 31 := by
    intro x hx
    refine ⟨(fits_prefix hfit1).2.1 x hx, ?_⟩
    have := due_ge _ x hx
    have hpos : 0 < (subs pre).length := List.length_pos_of_mem hx
    simp only [due] at hd
    omega
  obtain ⟨ms, m1, m2, m3⟩ := notifyAll_ok room fuel junk emit hj hroom hf (subs pre) (due pre) hall hd
  simp only [List.nil_append] at p2
  rw [← p2.1, ← p2.2] at m1
  refine ⟨r, outs, ms, q1, q3, ?_, m2, m3⟩
  have := run_append cap room fuel junk emit pre (.round :: post) _ _ _ p1
  rw [q1, run, m1] at this
  simp only at this
  cases hp : run cap room fuel junk emit ⟨(subs pre).map (fun x => ⟨x.1, x.2.1, UInt32.ofNat (x.2.2 + 1)⟩), r0.mid + (subs pre).length⟩ post with
  | error f => rw [hp] at this; simp [Except.map] at this
  | ok y =>
    rw [hp] at this
    simp only [Except.map, Except.ok.injEq, Prod.mk.injEq] at this
    rw [this.2, List.getElem?_append_right (by omega), p3]
    simp

/-- C37: when the application writes a payload that fits, the observer decodes exactly the notification: header, token,
observe option, payload. -/
theorem notification_delivered (mid : Nat) (hmid : mid < 65536) (t v p : List UInt8) (ht : t.length ≤ 8) (hv : v.length ≤ 4) (e : NEnc)
    (room : Nat) (he : AfterObserve (notification mid t v none) e room) (hp : p ≠ []) (hroom : p.length < e.room) :
    (e.payload p).1.out = encMsg (notification mid t v (some p)) ∧
    ∀ junk : Dec, junk.tbuf.length = 8 → ∃ N d', d'.st = .done ∧ ∀ fuel, N ≤ fuel →
      Dec.processToDone fuel (Dec.fresh junk) ⟨(e.payload p).1.out, 0, true⟩ =
        .ok (d', ⟨(e.payload p).1.out, (e.payload p).1.out.length, true⟩, delivery (notification mid t v (some p))) := by
  obtain ⟨h1, h2, h3, h4, h5⟩ := he
  have hout : (e.payload p).1.out = encMsg (notification mid t v (some p)) := by
    have hne : (e.room == 0) = false := by simp; omega
    simp only [NEnc.payload, NEnc.payloadHeader, h4, Bool.not_false, if_true, hne, Bool.false_eq_true, if_false]
    rw [write_fits _ _ (by simp only; omega)]
    simp only [h1]
    simp [encMsg, notification, encPayload, encHeader]
  refine ⟨hout, fun junk hj => ?_⟩
  have hok : (notification mid t v (some p)).Ok := by
    refine ⟨by simp [notification], by simp [notification], by simp [notification], hmid, ht, ⟨by simp, by simp, ?_, trivial⟩, ?_⟩
    · simp only; omega
    · simpa [notification] using hp
  obtain ⟨N, d', -, k1, k2⟩ := message_delivered_partial _ hok junk hj (Or.inr (Or.inr (Or.inl (by simp [notification]))))
  rw [hout]
  exact ⟨N, d', k1, k2⟩

/-- C37 at the bound: the notification that would carry sequence number 2^31 is never finished. -/
theorem sequence_hang {A : Type} (room fuel : Nat) (junk : List UInt8) (emit : Session A → NEnc → NEnc) (mid : Nat)
    (hmid : mid + 1 < 2 ^ 31) (s : Session A) (hs : 2 ^ 31 ≤ s.sequence.toNat + 1) (hs2 : s.sequence.toNat + 1 < 2 ^ 32) :
    notifyOne room fuel junk emit mid s = .error .hang := by
  have : (s.sequence + 1).toNat = s.sequence.toNat + 1 := by
    rw [UInt32.toNat_add]
    exact Nat.mod_eq_of_lt (by simpa using hs2)
  rw [notifyOne, if_neg (by omega)]
  simp only [intValue, this]
  rw [if_neg (by omega)]

theorem notifyAll_counts {A : Type} (room fuel : Nat) (junk : List UInt8) (emit : Session A → NEnc → NEnc) :
    ∀ (ss : List (Session A)) (mid : Nat) r, notifyAll room fuel junk emit mid ss = .ok r →
      r.2.1 = mid + r.2.2.length ∧ (r.2.2 ≠ [] → mid + r.2.2.length < 2 ^ 31)
  | [], mid, r, h => by
    simp only [notifyAll, Except.ok.injEq] at h
    rw [← h]; exact ⟨rfl, fun h => absurd rfl h⟩
  | s :: ss, mid, r, h => by
    rw [notifyAll] at h
    cases h1 : notifyOne room fuel junk emit mid s with
    | error f => rw [h1] at h; cases h
    | ok x =>
      obtain ⟨s', m⟩ := x
      rw [h1] at h
      simp only at h
      have hm : mid + 1 < 2 ^ 31 := by
        rw [notifyOne] at h1
        by_cases hc : mid + 1 ≥ 2 ^ 31
        · rw [if_pos hc] at h1; cases h1
        · omega
      cases h2 : notifyAll room fuel junk emit (mid + 1) ss with
      | error f => rw [h2] at h; cases h
      | ok y =>
        obtain ⟨ss', mid', ms⟩ := y
        rw [h2] at h
        simp only [Except.ok.injEq] at h
        obtain ⟨q1, q2⟩ := notifyAll_counts room fuel junk emit ss (mid + 1) _ h2
        simp only at q1 q2
        rw [← h]
        simp only [List.length_cons]
        refine ⟨by omega, fun _ => ?_⟩
        cases ms with
        | nil => simp; omega
        | cons z zs => have := q2 (by simp); simp only [List.length_cons] at this ⊢; omega

/-- C37 at the other bound: in every history, whatever the buffers, the registrations and the application, at most 2^31 - 1 messages are
sent; the round that would send another one is undefined (the counter of message ids is an `int`). -/
theorem observe_messages_bounded {A : Type} (cap room fuel : Nat) (junk : List UInt8) (emit : Session A → NEnc → NEnc) (es : List (Ev A))
    (r : Registrar A) (outs : List (List (Sent A))) (h : run cap room fuel junk emit Registrar.init es = .ok (r, outs)) :
    outs.flatten.length < 2 ^ 31 := by
  have key : ∀ (es : List (Ev A)) (r0 : Registrar A) r outs, run cap room fuel junk emit r0 es = .ok (r, outs) →
      r.mid = r0.mid + outs.flatten.length ∧ (outs.flatten ≠ [] → r0.mid + outs.flatten.length < 2 ^ 31) := by
    intro es
    induction es with
    | nil =>
      intro r0 r outs h
      simp only [run, Except.ok.injEq, Prod.mk.injEq] at h
      obtain ⟨rfl, rfl⟩ := h
      exact ⟨rfl, fun h => absurd rfl h⟩
    | cons e es ih =>
      intro r0 r outs h
      cases e with
      | observe a t c =>
        rw [run] at h
        cases h1 : r0.evaluate cap a t c with
        | error f => rw [h1] at h; cases h
        | ok x =>
          obtain ⟨r1, code⟩ := x
          rw [h1] at h
          have hr : r1.mid = r0.mid := by
            rw [Registrar.evaluate] at h1
            by_cases h0 : (c == 0) = true
            · rw [if_pos h0, Registrar.doRegister] at h1
              by_cases hl : r0.sessions.length < cap
              · rw [if_pos hl] at h1
                simp only [Except.ok.injEq, Prod.mk.injEq] at h1
                rw [← h1.1]
              · rw [if_neg hl] at h1; cases h1
            · rw [if_neg h0] at h1
              by_cases h2 : (c == 1) = true
              · rw [if_pos h2] at h1
                simp only [Except.ok.injEq, Prod.mk.injEq] at h1
                rw [← h1.1]; rfl
              · rw [if_neg h2] at h1
                simp only [Except.ok.injEq, Prod.mk.injEq] at h1
                rw [← h1.1]
          rw [← hr]
          exact ih r1 r outs h
      | round =>
        rw [run] at h
        cases h1 : notifyAll room fuel junk emit r0.mid r0.sessions with
        | error f => rw [h1] at h; cases h
        | ok x =>
          obtain ⟨ss, mid, ms⟩ := x
          rw [h1] at h
          simp only at h
          cases h2 : run cap room fuel junk emit ⟨ss, mid⟩ es with
          | error f => rw [h2] at h; cases h
          | ok y =>
            obtain ⟨r2, outs2⟩ := y
            rw [h2] at h
            simp only [Except.ok.injEq, Prod.mk.injEq] at h
            obtain ⟨rfl, rfl⟩ := h
            obtain ⟨q1, q2⟩ := notifyAll_counts room fuel junk emit _ _ _ h1
            obtain ⟨p1, p2⟩ := ih _ _ _ h2
            simp only at q1 q2 p1 p2
            rw [List.flatten_cons, List.length_append]
            refine ⟨by omega, fun hne => ?_⟩
            by_cases hz : outs2.flatten = []
            · rw [hz, List.append_nil] at hne
              rw [hz]
              have := q2 hne
              simpa using this
            · have := p2 hz; omega
  have hk := (key es _ r outs h).2
  simp only [Registrar.init, Nat.zero_add] at hk
  by_cases hz : outs.flatten = []
  · rw [hz]; simp
  · exact hk hz

/-- C37, such a state: the next message is one too many. -/
theorem observe_message_undefined {A : Type} (room fuel : Nat) (junk : List UInt8) (emit : Session A → NEnc → NEnc) (s : Session A)
    (ss : List (Session A)) : notifyAll room fuel junk emit (2 ^ 31 - 1) (s :: ss) = .error .intOverflow := by
  rw [notifyAll, notifyOne, if_pos (by decide)]

/-- C37: from sequence number 2^24 on the observe option is four bytes long, where RFC 7641 allows three. -/
theorem observe_value_too_long (v : List UInt8) (n : Nat) (hv : beValue v = n + 1) (hn : 2 ^ 24 ≤ n + 1) : 3 < v.length := by
  have := beValue_lt v
  rw [hv] at this
  by_cases h : v.length ≤ 3
  · have h2 : 256 ^ v.length ≤ 256 ^ 3 := Nat.pow_le_pow_right (by omega) h
    omega
  · omega

-- two observers, the second registered a round later; the application writes one byte
example : (run 4 30 50 [0, 0, 0, 0] (fun _ e => (e.payload [0x2A]).1) (Registrar.init (A := Nat))
    [.observe 7 [0xAA] 0, .round, .observe 8 [] 0, .observe 9 [1] 5, .round]).toOption.map (·.2) =
    some [[⟨7, [0x51, 0x45, 0, 0, 0xAA, 0x61, 1, 0xFF, 0x2A]⟩],
      [⟨7, [0x51, 0x45, 0, 1, 0xAA, 0x61, 2, 0xFF, 0x2A]⟩, ⟨8, [0x50, 0x45, 0, 2, 0x61, 1, 0xFF, 0x2A]⟩]] := by decide +kernel

example : Fits 4 ([.observe 7 [0xAA] 0, .round, .observe 8 [] 0] ++ .round :: ([] : List (Ev Nat))) := by
  refine ⟨by decide, by decide, by decide⟩

/-! ## C38 -/

theorem mem_subs {A : Type} : ∀ (es : List (Ev A)) (a : A) (t : List UInt8), (∃ n, (a, t, n) ∈ subs es) ↔ .observe a t 0 ∈ es
  | [], a, t => by simp [subs]
  | .round :: es, a, t => by simp [subs, mem_subs es a t]
  | .observe a' t' c :: es, a, t => by
    rw [List.mem_cons, ← mem_subs es a t]
    by_cases hc : c = 0
    · subst hc
      simp only [subs, if_true, List.mem_cons, Prod.mk.injEq, Ev.observe.injEq, and_true]
      constructor
      · rintro ⟨n, ⟨h1, h2, -⟩ | h⟩
        · exact Or.inl ⟨h1, h2⟩
        · exact Or.inr ⟨n, h⟩
      · rintro (⟨h1, h2⟩ | ⟨n, h⟩)
        · exact ⟨rounds es, Or.inl ⟨h1, h2, rfl⟩⟩
        · exact ⟨n, Or.inr h⟩
    · simp only [subs, if_neg hc, Ev.observe.injEq]
      constructor
      · exact Or.inr
      · rintro (⟨-, -, h⟩ | h)
        · exact absurd h.symm hc
        · exact h

/-- C38 fails: whoever has registered gets a message in every later round, whatever has come in since, deregistration
included. -/
theorem deregistration_ignored {A : Type} (cap room fuel : Nat) (junk : List UInt8) (emit : Session A → NEnc → NEnc)
    (hj : 4 ≤ junk.length) (hroom : 18 ≤ room) (hf : room + 6 ≤ fuel) (pre post : List (Ev A)) (a : A) (t : List UInt8)
    (hreg : .observe a t 0 ∈ pre) (hfit : Fits cap (pre ++ .round :: post)) :
    ∃ r outs ms, run cap room fuel junk emit Registrar.init (pre ++ .round :: post) = .ok (r, outs) ∧
      outs[rounds pre]? = some ms ∧ ∃ m ∈ ms, m.addr = a := by
  obtain ⟨r, outs, ms, h1, -, h3, h4, h5⟩ := observers_notified_partial cap room fuel junk emit hj hroom hf pre post hfit
  obtain ⟨n, hn⟩ := (mem_subs pre a t).mpr hreg
  obtain ⟨i, hi⟩ := List.mem_iff_getElem?.mp hn
  obtain ⟨v, e, -, -, -, -, hm⟩ := h5 i a t n hi
  exact ⟨r, outs, ms, h1, h3, _, List.mem_of_getElem? hm, rfl⟩

/-- C38: the request is answered as if it had worked, and nothing changes. -/
theorem deregister_answered {A : Type} (cap : Nat) (r : Registrar A) (a : A) (t : List UInt8) :
    r.evaluate cap a t 1 = .ok (r, codeValid) := rfl

/-- C38 (partial): an address that never registered gets nothing. -/
theorem unregistered_silent_partial {A : Type} (cap room fuel : Nat) (junk : List UInt8) (emit : Session A → NEnc → NEnc)
    (hj : 4 ≤ junk.length) (hroom : 18 ≤ room) (hf : room + 6 ≤ fuel) (pre post : List (Ev A)) (a : A)
    (hreg : ∀ t, .observe a t 0 ∉ pre) (hfit : Fits cap (pre ++ .round :: post)) :
    ∃ r outs ms, run cap room fuel junk emit Registrar.init (pre ++ .round :: post) = .ok (r, outs) ∧
      outs[rounds pre]? = some ms ∧ ∀ m ∈ ms, m.addr ≠ a := by
  obtain ⟨r, outs, ms, h1, -, h3, h4, h5⟩ := observers_notified_partial cap room fuel junk emit hj hroom hf pre post hfit
  refine ⟨r, outs, ms, h1, h3, fun m hm ha => ?_⟩
  obtain ⟨i, hi⟩ := List.mem_iff_getElem?.mp hm
  obtain ⟨hlt, -⟩ := List.getElem?_eq_some_iff.mp hi
  rw [h4] at hlt
  obtain ⟨v, e, -, -, -, -, hm'⟩ := h5 i (subs pre)[i].1 (subs pre)[i].2.1 (subs pre)[i].2.2 (List.getElem?_eq_getElem hlt)
  rw [hi, Option.some.injEq] at hm'
  rw [hm'] at ha
  simp only at ha
  exact hreg _ ((mem_subs pre a (subs pre)[i].2.1).mp ⟨(subs pre)[i].2.2, by rw [← ha]; exact List.getElem_mem hlt⟩)

/-- C38: an observe value other than 0 and 1 is refused with 4.02 and changes nothing. -/
theorem bad_observe_refused {A : Type} (cap : Nat) (r : Registrar A) (a : A) (t : List UInt8) (c : UInt8) (h0 : c ≠ 0) (h1 : c ≠ 1) :
    r.evaluate cap a t c = .ok (r, 0x82) := by
  simp [Registrar.evaluate, h0, h1, codeBadOption]

-- registered, deregistered, and still notified
example : (run 4 30 50 [0, 0, 0, 0] (fun _ e => e) (Registrar.init (A := Nat))
    [.observe 7 [0xAA] 0, .observe 7 [0xAA] 1, .round]).toOption.map (·.2) = some [[⟨7, [0x51, 0x45, 0, 0, 0xAA, 0x61, 1]⟩]] := by
  decide +kernel

end Verif.Props
