import Verif.Props.ExamplesAny

/-! # C80: exactly which datagrams are answered with what was sent -/
namespace Verif.Props
open Verif.Model Verif.Spec Verif.Proofs Verif.Model.Header Pull Observable

/-- What memory holds before a datagram is looked at: the decoder, the place of the token and the header of the answer. -/
structure Held where
  dec : Dec
  token : List UInt8
  header : Header

/-- The token buffer of the decoder and the place of the token have eight bytes. -/
def Held.Ok (m : Held) : Prop := m.dec.tbuf.length = 8 ∧ m.token.length = 8

/-- A server keeps to the datagram: nothing is read or written out of bounds while the datagram is decoded and the token copied, and header (but for
the code) and token of every answer, which has the length `n`, are the same whatever memory held before. -/
def KeepsTo (n : Nat) (faults : Held → Prop) (answers : Held → List UInt8 → Prop) : Prop :=
  (∀ m : Held, m.Ok → ¬ faults m) ∧
    ∃ (a b c : UInt8) (tok : List UInt8), tok.length = n ∧
      ∀ (m : Held) (out : List UInt8), m.Ok → answers m out → ∃ code rest, out = a :: code :: b :: c :: (tok ++ rest)

/-- Memory with the given header and token. -/
def heldWith (h : Header) (t : UInt8) : Held := ⟨{ Dec.zero with hdr := h }, List.replicate 8 t, ⟨0, 0, 0, 0⟩⟩

theorem heldWith_ok (h : Header) (t : UInt8) : (heldWith h t).Ok := ⟨rfl, rfl⟩

/-- The header that memory completes. -/
def filled (bytes : List UInt8) (m : Held) : List UInt8 := bytes ++ m.dec.hdr.bytes.drop bytes.length

theorem keeps_iff {bytes : List UInt8} {faults : Held → Prop} {answers : Held → List UInt8 → Prop} {code : UInt8} {tail : List UInt8}
    (hL : 4 ≤ bytes.length → 8 < tokenClaim bytes → ∀ m : Held, m.Ok → faults m)
    (hC : 4 ≤ bytes.length → bytes.length < 4 + tokenClaim bytes → tokenClaim bytes ≤ 8 → ∀ m : Held, m.Ok →
      answers m (replyHead bytes code ++ m.token.take (tokenClaim bytes) ++ tail))
    (hS : bytes.length < 4 → ∀ m : Held, m.Ok → tokenClaim (filled bytes m) ≤ 8 →
      answers m (replyHead (filled bytes m) code ++ m.token.take (tokenClaim (filled bytes m)) ++ tail))
    (hF : bytes.length < 4 → ∀ m : Held, m.Ok → 8 < tokenClaim (filled bytes m) → faults m)
    (hT : HasToken bytes → ∀ m : Held, m.Ok → ¬ faults m ∧ ∀ out, answers m out → Echoes bytes out) :
    KeepsTo (tokenClaim bytes) faults answers ↔ HasToken bytes := by
  constructor
  · intro ⟨hn, a, b, c, tok, hl, ho⟩
    refine Classical.byContradiction fun hno => ?_
    by_cases h4 : bytes.length < 4
    · by_cases h8 : tokenClaim (filled bytes (heldWith ⟨0, 0, 0, 0⟩ 0)) ≤ 8
      · have h8' : tokenClaim (filled bytes (heldWith ⟨0, 0, 0, 1⟩ 0)) ≤ 8 := by
          match bytes, h4 with
          | [], _ => decide
          | [_], _ => exact h8
          | [_, _], _ => exact h8
          | [_, _, _], _ => exact h8
        obtain ⟨c1, r1, e1⟩ := ho _ _ (heldWith_ok _ _) (hS h4 _ (heldWith_ok ⟨0, 0, 0, 0⟩ 0) h8)
        obtain ⟨c2, r2, e2⟩ := ho _ _ (heldWith_ok _ _) (hS h4 _ (heldWith_ok ⟨0, 0, 0, 1⟩ 0) h8')
        simp only [replyHead, List.cons_append, List.cons.injEq] at e1 e2
        have f1 : (filled bytes (heldWith ⟨0, 0, 0, 0⟩ 0)).getD 3 0 = 0 := by
          match bytes, h4 with
          | [], _ => rfl
          | [_], _ => rfl
          | [_, _], _ => rfl
          | [_, _, _], _ => rfl
        have f2 : (filled bytes (heldWith ⟨0, 0, 0, 1⟩ 0)).getD 3 0 = 1 := by
          match bytes, h4 with
          | [], _ => rfl
          | [_], _ => rfl
          | [_, _], _ => rfl
          | [_, _, _], _ => rfl
        have := e1.2.2.2.1.trans e2.2.2.2.1.symm
        rw [f1, f2] at this
        exact absurd this (by decide)
      · exact hn _ (heldWith_ok _ _) (hF h4 _ (heldWith_ok ⟨0, 0, 0, 0⟩ 0) (by omega))
    · by_cases h8 : tokenClaim bytes ≤ 8
      · have hc : bytes.length < 4 + tokenClaim bytes := Nat.lt_of_not_le fun h => hno ⟨h, h8⟩
        obtain ⟨c1, r1, e1⟩ := ho _ _ (heldWith_ok _ _) (hC (by omega) hc h8 _ (heldWith_ok ⟨0, 0, 0, 0⟩ 0))
        obtain ⟨c2, r2, e2⟩ := ho _ _ (heldWith_ok _ _) (hC (by omega) hc h8 _ (heldWith_ok ⟨0, 0, 0, 0⟩ 1))
        simp only [replyHead, List.cons_append, List.nil_append, List.cons.injEq, heldWith, List.take_replicate] at e1 e2
        have d1 := e1.2.2.2.2
        have d2 := e2.2.2.2.2
        cases hk : tokenClaim bytes with
        | zero => omega
        | succ k =>
          rw [hk, Nat.min_eq_left (by omega), List.replicate_succ] at d1 d2
          cases tok with
          | nil => simp [hk] at hl
          | cons x tok =>
            simp only [List.cons_append, List.cons.injEq] at d1 d2
            exact absurd (d1.1.trans d2.1.symm) (by decide)
      · exact hn _ (heldWith_ok _ _) (hL (by omega) (by omega) _ (heldWith_ok ⟨0, 0, 0, 0⟩ 0))
  · intro h
    refine ⟨fun m hm => (hT h m hm).1,
      if (bytes.getD 0 0).toNat / 16 % 4 = 0 then UInt8.ofNat ((bytes.getD 0 0).toNat + 32) else bytes.getD 0 0, bytes.getD 2 0,
      bytes.getD 3 0, tokenOf bytes, ?_, fun m out hm ha => ?_⟩
    · obtain ⟨h1, h2⟩ := h
      simp only [tokenOf, List.length_take, List.length_drop]; omega
    · obtain ⟨code, rest, rfl⟩ := (hT h m hm).2 out ha
      exact ⟨code, rest, by simp [replyHead]⟩

/-- A datagram without a whole header, where memory makes up a token length of more than eight, is read out of bounds. -/
theorem short_long_faults {A : Type} (bytes : List UInt8) (h4 : bytes.length < 4) (m : Held) (hm : m.Ok) (h8 : 8 < tokenClaim (filled bytes m))
    (room cap regCap fuel : Nat) (reg : Registrar A) (addr : A) (paths : List Uri.Entry) (coredata : List Uri.CoREData)
    (title : Int → Option (List Char)) (idCore : Int) :
    pingReply room m.dec m.token m.header (iterAll (fuel + 1)) bytes = .error .tokenOverread ∧
    uriReply cap room (fuel + 1) m.dec m.token m.header bytes = .error (.dec .tokenOverread) ∧
    observeReply cap regCap room (fuel + 1) m.dec m.token m.header reg addr bytes = .error (.dec .tokenOverread) ∧
    discoverReply room (fuel + 1) paths coredata title idCore m.dec m.token m.header bytes = .error (.dec .tokenOverread) := by
  obtain ⟨p, e⟩ := short_reading m.dec bytes h4 fuel
  have htk := sentHeader_tkl (filled bytes m)
  have hn : ¬ tokenClaim (filled bytes m) ≤ 8 := by omega
  rw [show bytes ++ m.dec.hdr.bytes.drop bytes.length = filled bytes m from rfl] at e
  refine ⟨?_, ?_, ?_, ?_⟩
  · simp only [pingReply, e, incoming, SCtx.init, SCtx.setHeader, SCtx.setToken, List.length_nil, Nat.zero_le, if_true,
      List.nil_append, List.drop_zero, NEnc.headerAndToken, SCtx.getToken, htk, hm.2, hn, if_false]
  · simp only [uriReply, e, incoming, SCtx.init, SCtx.setHeader, SCtx.setToken, List.length_nil, Nat.zero_le, if_true,
      List.nil_append, List.drop_zero, uriLoop, answer, NEnc.headerAndToken, SCtx.getToken, htk, hm.2, hn, if_false]
  · simp only [observeReply, e, incoming, SCtx.init, SCtx.setHeader, SCtx.setToken, List.length_nil, Nat.zero_le, if_true,
      List.nil_append, List.drop_zero, SCtx.getToken, htk, hm.2, hn, if_false]
  · simp only [discoverReply, e, incoming, SCtx.init, SCtx.setHeader, SCtx.setToken, List.length_nil, Nat.zero_le, if_true,
      List.nil_append, List.drop_zero, NEnc.headerAndToken, SCtx.getToken, htk, hm.2, hn, if_false]

/-- C80, exactly: the ping responder keeps to the datagram if and only if the datagram has a whole header and the whole token it announces, of at most
eight bytes. -/
theorem ping_keeps_iff (bytes : List UInt8) (room fuel : Nat) (hroom : 12 ≤ room) (hf : 11 * bytes.length + 65600 ≤ fuel) :
    KeepsTo (tokenClaim bytes) (fun m => ∃ e, pingReply room m.dec m.token m.header (iterAll fuel) bytes = .error e)
      (fun m out => pingReply room m.dec m.token m.header (iterAll fuel) bytes = .ok out) ↔ HasToken bytes := by
  obtain ⟨fuel, rfl⟩ : ∃ k, fuel = k + 1 := ⟨fuel - 1, by omega⟩
  refine keeps_iff (code := 0x45) (tail := []) ?_ ?_ ?_ ?_ ?_
  · intro h4 h8 m hm
    exact ⟨_, ping_long_token_faults bytes h4 h8 m.dec hm.1 m.token hm.2 m.header room fuel⟩
  · intro h4 hc h8 m hm
    rw [List.append_nil]
    exact (ping_cut_token_leak bytes h4 hc h8 m.dec hm.1 m.token hm.2 m.header room hroom).2 fuel
  · intro h4 m hm h8
    rw [List.append_nil]
    exact ping_short_header_leak bytes h4 m.dec m.token hm.2 m.header room fuel hroom h8
  · intro h4 m hm h8
    exact ⟨_, (short_long_faults (A := Nat) bytes h4 m hm h8 room 0 0 fuel ⟨[], 0⟩ 0 [] [] (fun _ => none) 0).1⟩
  · intro h m hm
    have e := (ping_any_echo_partial bytes h m.dec hm.1 m.token hm.2 m.header room hroom).2 (fuel + 1) hf
    refine ⟨fun ⟨x, hx⟩ => (by rw [e] at hx; cases hx), fun out ho => ?_⟩
    rw [e] at ho
    cases ho
    exact ⟨0x45, [], by simp⟩

/-- C80, exactly, for the other three examples; that there is no place for the path or the listing, or for an observer, is not a fault here. -/
theorem examples_keep_iff {A : Type} (bytes : List UInt8) (room cap regCap fuel : Nat) (hroom : 13 ≤ room) (hf : 11 * bytes.length + 65600 ≤ fuel)
    (reg : Registrar A) (addr : A) (paths : List Uri.Entry) (coredata : List Uri.CoREData) (title : Int → Option (List Char)) (idCore : Int)
    (hid : idCore ≠ Uri.none_) :
    (KeepsTo (tokenClaim bytes) (fun m => ∃ e, uriReply cap room fuel m.dec m.token m.header bytes = .error (.dec e))
      (fun m out => uriReply cap room fuel m.dec m.token m.header bytes = .ok out) ↔ HasToken bytes) ∧
    (KeepsTo (tokenClaim bytes) (fun m => ∃ e, observeReply cap regCap room fuel m.dec m.token m.header reg addr bytes = .error (.dec e))
      (fun m out => ∃ reg', observeReply cap regCap room fuel m.dec m.token m.header reg addr bytes = .ok (reg', out)) ↔ HasToken bytes) ∧
    (KeepsTo (tokenClaim bytes) (fun m => ∃ e, discoverReply room fuel paths coredata title idCore m.dec m.token m.header bytes = .error (.dec e))
      (fun m out => discoverReply room fuel paths coredata title idCore m.dec m.token m.header bytes = .ok out) ↔ HasToken bytes) := by
  obtain ⟨fuel, rfl⟩ : ∃ k, fuel = k + 1 := ⟨fuel - 1, by omega⟩
  have long : 4 ≤ bytes.length → 8 < tokenClaim bytes → ∀ m : Held, m.Ok → _ := fun h4 h8 m hm =>
    examples_long_token_faults (A := A) bytes h4 h8 m.dec hm.1 m.token hm.2 m.header room cap regCap fuel reg addr paths coredata title idCore
  have cut : 4 ≤ bytes.length → bytes.length < 4 + tokenClaim bytes → tokenClaim bytes ≤ 8 → ∀ m : Held, m.Ok → _ := fun h4 hc h8 m hm =>
    examples_cut_token_leak (A := A) bytes h4 hc h8 m.dec hm.1 m.token hm.2 m.header room hroom cap regCap fuel reg addr paths coredata title idCore hid
  have short : bytes.length < 4 → ∀ m : Held, m.Ok → tokenClaim (filled bytes m) ≤ 8 → _ := fun h4 m hm h8 =>
    examples_short_header_leak (A := A) bytes h4 m.dec m.token hm.2 m.header room hroom h8 cap regCap fuel reg addr paths coredata title idCore hid
  have none : bytes.length < 4 → ∀ m : Held, m.Ok → 8 < tokenClaim (filled bytes m) → _ := fun h4 m hm h8 =>
    short_long_faults (A := A) bytes h4 m hm h8 room cap regCap fuel reg addr paths coredata title idCore
  refine ⟨?_, ?_, ?_⟩
  · refine keeps_iff (code := 0x84) (tail := [0xFF]) (fun h4 h8 m hm => ⟨_, (long h4 h8 m hm).1⟩) (fun h4 hc h8 m hm => (cut h4 hc h8 m hm).1) ?_
      (fun h4 m hm h8 => ⟨_, (none h4 m hm h8).2.1⟩) ?_
    · intro h4 m hm h8
      obtain ⟨out, rfl, e, -⟩ := short h4 m hm h8
      exact e
    · intro h m hm
      obtain ⟨res, e, hr⟩ := uri_any_echo_partial bytes h m.dec hm.1 m.token hm.2 m.header cap room (by omega)
      rw [e _ hf]
      rcases hr with rfl | ⟨out, rfl, ho⟩
      · exact ⟨fun ⟨_, h⟩ => (by cases h), fun _ h => by cases h⟩
      · exact ⟨fun ⟨_, h⟩ => (by cases h), fun _ h => by cases h; exact ho⟩
  · refine keeps_iff (code := 0x84) (tail := [0xFF]) (fun h4 h8 m hm => ⟨_, (long h4 h8 m hm).2.1⟩) (fun h4 hc h8 m hm => ⟨_, (cut h4 hc h8 m hm).2.1⟩) ?_
      (fun h4 m hm h8 => ⟨_, (none h4 m hm h8).2.2.1⟩) ?_
    · intro h4 m hm h8
      obtain ⟨out, rfl, -, e, -⟩ := short h4 m hm h8
      exact ⟨_, e⟩
    · intro h m hm
      obtain ⟨res, e, hr⟩ := observe_any_echo_partial bytes h m.dec hm.1 m.token hm.2 m.header cap regCap room (by omega) reg addr
      rw [e _ hf]
      rcases hr with rfl | ⟨x, rfl⟩ | ⟨reg', out, rfl, ho⟩
      · exact ⟨fun ⟨_, h⟩ => (by cases h), fun _ ⟨_, h⟩ => by cases h⟩
      · exact ⟨fun ⟨_, h⟩ => (by cases h), fun _ ⟨_, h⟩ => by cases h⟩
      · exact ⟨fun ⟨_, h⟩ => (by cases h), fun _ ⟨_, h⟩ => by cases h; exact ho⟩
  · refine keeps_iff (code := 0x84) (tail := [0xFF]) (fun h4 h8 m hm => ⟨_, (long h4 h8 m hm).2.2⟩) (fun h4 hc h8 m hm => (cut h4 hc h8 m hm).2.2) ?_
      (fun h4 m hm h8 => ⟨_, (none h4 m hm h8).2.2.2⟩) ?_
    · intro h4 m hm h8
      obtain ⟨out, rfl, -, -, e⟩ := short h4 m hm h8
      exact e
    · intro h m hm
      obtain ⟨res, e, hr⟩ := discover_any_echo_partial bytes h m.dec hm.1 m.token hm.2 m.header room (by omega) paths coredata title idCore
      rw [e _ hf]
      rcases hr with rfl | ⟨out, rfl, ho⟩
      · exact ⟨fun ⟨_, h⟩ => (by cases h), fun _ h => by cases h⟩
      · exact ⟨fun ⟨_, h⟩ => (by cases h), fun _ h => by cases h; exact ho⟩

/-- A ping with a token of two bytes, and one that ends inside its token. -/
example : HasToken [0x42, 0x01, 0x12, 0x34, 7, 8] ∧ ¬ HasToken [0x42, 0x01, 0x12, 0x34, 7] := by
  unfold HasToken; decide

end Verif.Props
