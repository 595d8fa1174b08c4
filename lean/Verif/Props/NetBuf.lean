import Verif.Model.NetBuf
import Verif.Props.PullDecoder
import Verif.Props.Header

/-! # C51: copying between network buffers -/
namespace Verif.Props
open Verif.Model Verif.Spec Proofs

/-- All bytes a written network buffer holds. -/
def held (d : NDst) : List UInt8 := d.before.flatten ++ d.cur

/-- The room left from the current chunk on. -/
def space (d : NDst) : Nat := d.room + d.rest.sum

/-- The sizes of all chunks, those before the current one taken as full. -/
def sizes (d : NDst) : List Nat := d.before.map List.length ++ (d.cur.length + d.room) :: d.rest

theorem next_held (d : NDst) : held d.next = held d := by
  unfold NDst.next; split <;> simp [held]

theorem next_space (d : NDst) (h : d.room = 0) : space d.next = space d := by
  unfold NDst.next; split <;> simp_all [space]

theorem next_sizes (d : NDst) (h : d.room = 0) : sizes d.next = sizes d := by
  unfold NDst.next; split <;> simp_all [sizes]

theorem next_rest (d : NDst) (h : d.rest ≠ []) : d.next.rest.length + 1 = d.rest.length := by
  unfold NDst.next; split <;> simp_all

theorem next_rest_le (d : NDst) : d.next.rest.length ≤ d.rest.length := by
  unfold NDst.next; split
  · exact Nat.le_refl _
  · rename_i h; simp [h]

theorem put_held (d : NDst) (bs : List UInt8) : held (d.put bs) = held d ++ bs := by simp [held, NDst.put]

theorem put_space (d : NDst) (bs : List UInt8) (h : bs.length ≤ d.room) : space (d.put bs) + bs.length = space d := by
  simp [space, NDst.put]; omega

theorem put_sizes (d : NDst) (bs : List UInt8) (h : bs.length ≤ d.room) : sizes (d.put bs) = sizes d := by
  simp [sizes, NDst.put]; omega

theorem copyLoop_ok (fuel : Nat) (src : NSrc) (s : List UInt8) (d : NDst)
    (hs : s.length + src.rest.flatten.length ≤ space d) (hf : src.rest.length + d.rest.length < fuel) :
    ∃ d', copyLoop fuel src s d = .ok d' ∧ held d' = held d ++ s ++ src.rest.flatten ∧ sizes d' = sizes d ∧
      space d' + (s.length + src.rest.flatten.length) = space d := by
  induction fuel generalizing src s d with
  | zero => omega
  | succ fuel ih =>
    have hlen : (s.take (min s.length d.room)).length = min s.length d.room := by simp
    have p1 := put_held d (s.take (min s.length d.room))
    have p2 := put_space d (s.take (min s.length d.room)) (by rw [hlen]; omega)
    have p3 := put_sizes d (s.take (min s.length d.room)) (by rw [hlen]; omega)
    have p4 : (d.put (s.take (min s.length d.room))).room = d.room - min s.length d.room := by simp [NDst.put]
    have p5 : (d.put (s.take (min s.length d.room))).rest = d.rest := rfl
    rw [hlen] at p2
    rw [copyLoop]
    generalize d.put (s.take (min s.length d.room)) = d1 at p1 p2 p3 p4 p5 ⊢
    by_cases hall : s.length ≤ d.room
    · have hm : min s.length d.room = s.length := by omega
      rw [hm] at p1 p2 p4 ⊢
      rw [List.take_length] at p1
      rw [if_neg (by simp)]
      obtain ⟨cur, rest⟩ := src
      cases rest with
      | nil => exact ⟨d1, rfl, by simpa using p1, p3, by simpa using p2⟩
      | cons c cs =>
        simp only [List.flatten_cons, List.length_append, List.length_cons] at hs hf ⊢
        by_cases hr : d1.room = 0
        · rw [if_pos (by simp [hr])]
          have hf' : cs.length + d1.next.rest.length < fuel := by
            have : d1.next.rest.length ≤ d1.rest.length := next_rest_le d1
            rw [p5] at this; omega
          obtain ⟨d', e1, e2, e3, e4⟩ := ih ⟨c, cs⟩ c d1.next (by rw [next_space d1 hr]; simp only; omega) hf'
          refine ⟨d', e1, ?_, ?_, ?_⟩
          · rw [e2, next_held, p1]; simp
          · rw [e3, next_sizes d1 hr, p3]
          · rw [next_space d1 hr] at e4; simp only at e4; omega
        · rw [if_neg (by simp [hr])]
          obtain ⟨d', e1, e2, e3, e4⟩ := ih ⟨c, cs⟩ c d1 (by simp only; omega) (by simp only; rw [p5]; omega)
          refine ⟨d', e1, ?_, ?_, ?_⟩
          · rw [e2, p1]; simp
          · rw [e3, p3]
          · simp only at e4; omega
    · have hm : min s.length d.room = d.room := by omega
      rw [hm] at p1 p2 p4 ⊢
      have hr : d1.room = 0 := by omega
      rw [if_pos (by simp; omega)]
      have hne : d1.rest ≠ [] := by
        intro h
        simp only [space, h, List.sum_nil] at p2
        simp only [space] at hs
        rw [← p5, h] at hs
        simp at hs; omega
      have hl := next_rest d1 hne
      rw [p5] at hl
      obtain ⟨d', e1, e2, e3, e4⟩ := ih src (s.drop d.room) d1.next
        (by rw [next_space d1 hr]; simp only [List.length_drop]; omega) (by omega)
      refine ⟨d', e1, ?_, ?_, ?_⟩
      · rw [e2, next_held, p1]; simp [List.append_assoc]
      · rw [e3, next_sizes d1 hr, p3]
      · rw [next_space d1 hr] at e4; simp only [List.length_drop] at e4; omega

theorem copyLoop_hangs (fuel : Nat) (src : NSrc) (s : List UInt8) (d : NDst)
    (hs : space d < s.length + src.rest.flatten.length) : copyLoop fuel src s d = .error .outOfFuel := by
  induction fuel generalizing src s d with
  | zero => rfl
  | succ fuel ih =>
    have hlen : (s.take (min s.length d.room)).length = min s.length d.room := by simp
    have p2 := put_space d (s.take (min s.length d.room)) (by rw [hlen]; omega)
    have p4 : (d.put (s.take (min s.length d.room))).room = d.room - min s.length d.room := by simp [NDst.put]
    rw [hlen] at p2
    rw [copyLoop]
    generalize d.put (s.take (min s.length d.room)) = d1 at p2 p4 ⊢
    by_cases hall : s.length ≤ d.room
    · have hm : min s.length d.room = s.length := by omega
      rw [hm] at p2 p4 ⊢
      rw [if_neg (by simp)]
      obtain ⟨cur, rest⟩ := src
      cases rest with
      | nil => simp at hs; omega
      | cons c cs =>
        simp only [List.flatten_cons, List.length_append] at hs ⊢
        by_cases hr : d1.room = 0
        · rw [if_pos (by simp [hr])]
          exact ih _ _ _ (by rw [next_space d1 hr]; simp only; omega)
        · rw [if_neg (by simp [hr])]
          exact ih _ _ _ (by simp only; omega)
    · have hm : min s.length d.room = d.room := by omega
      rw [hm] at p2 p4 ⊢
      have hr : d1.room = 0 := by omega
      rw [if_pos (by simp; omega)]
      exact ih _ _ _ (by rw [next_space d1 hr]; simp only [List.length_drop]; omega)

theorem copyLoop_mono (fuel k : Nat) (src : NSrc) (s : List UInt8) (d d' : NDst) (h : copyLoop fuel src s d = .ok d') :
    copyLoop (fuel + k) src s d = .ok d' := by
  induction fuel generalizing src s d with
  | zero => cases h
  | succ fuel ih =>
    rw [Nat.add_right_comm, copyLoop]
    rw [copyLoop] at h
    split
    · rename_i hc; rw [if_pos hc] at h; exact ih _ _ _ h
    · rename_i hc; rw [if_neg hc] at h
      obtain ⟨cur, rest⟩ := src
      cases rest with
      | nil => exact h
      | cons c cs => exact ih _ _ _ h

/-- C51: whatever the chunks of source and destination, the copy appends exactly the bytes of the source
from the current chunk on, except the skipped ones, in order and without gaps between the chunks, if they
fit.  Chunks that it has left are full: the sizes are those from before.  It needs at most one round for
each chunk. -/
theorem copy_exact (src : NSrc) (d : NDst) (skip : Nat) (hk : skip ≤ src.cur.length)
    (hs : (src.cur.drop skip ++ src.rest.flatten).length ≤ space d) (fuel : Nat)
    (hf : src.rest.length + d.rest.length < fuel) :
    ∃ d', netbufCopy fuel src d skip = .ok d' ∧ held d' = held d ++ (src.cur.drop skip ++ src.rest.flatten) ∧
      sizes d' = sizes d := by
  rw [List.length_append] at hs
  obtain ⟨d', e1, e2, e3, -⟩ := copyLoop_ok fuel src (src.cur.drop skip) d hs hf
  refine ⟨d', ?_, by rw [e2, List.append_assoc], e3⟩
  rw [netbufCopy, if_neg (by omega), e1]

/-- C51, refuted when the destination is too small: the copy does not report it and never returns. -/
theorem copy_hangs (src : NSrc) (d : NDst) (skip : Nat) (hk : skip ≤ src.cur.length)
    (hs : space d < (src.cur.drop skip ++ src.rest.flatten).length) (fuel : Nat) :
    netbufCopy fuel src d skip = .error .outOfFuel := by
  rw [List.length_append] at hs
  rw [netbufCopy, if_neg (by omega), copyLoop_hangs _ _ _ _ hs]

/-- C51: the copy returns exactly if the skipped bytes are in the current chunk and the others fit. -/
theorem copy_returns_iff (src : NSrc) (d : NDst) (skip : Nat) :
    (∃ fuel d', netbufCopy fuel src d skip = .ok d') ↔
      skip ≤ src.cur.length ∧ (src.cur.drop skip ++ src.rest.flatten).length ≤ space d := by
  constructor
  · rintro ⟨fuel, d', h⟩
    have h1 : skip ≤ src.cur.length := by
      by_cases hk : skip ≤ src.cur.length
      · exact hk
      · rw [netbufCopy, if_pos (by omega)] at h; cases h
    refine ⟨h1, ?_⟩
    by_cases hs : (src.cur.drop skip ++ src.rest.flatten).length ≤ space d
    · exact hs
    · rw [copy_hangs src d skip h1 (by omega)] at h; cases h
  · rintro ⟨h1, h2⟩
    obtain ⟨d', e, -⟩ := copy_exact src d skip h1 h2 _ (Nat.lt_succ_self _)
    exact ⟨_, d', e⟩

theorem copyLoop_no_overread (fuel : Nat) : ∀ (src : NSrc) (s : List UInt8) (d : NDst),
    copyLoop fuel src s d ≠ .error .sourceOverread := by
  induction fuel with
  | zero => intro src s d h; cases h
  | succ n ih =>
    intro src s d h
    simp only [copyLoop] at h
    split at h
    · exact ih _ _ _ h
    · split at h
      · cases h
      · exact ih _ _ _ h

/-- The copy reads memory behind the source exactly when more is to be skipped than the first chunk holds, even if
further chunks hold enough. -/
theorem copy_overread_iff (fuel : Nat) (src : NSrc) (d : NDst) (skip : Nat) :
    netbufCopy fuel src d skip = .error .sourceOverread ↔ src.cur.length < skip := by
  unfold netbufCopy
  by_cases h : skip > src.cur.length
  · rw [if_pos h]; simpa using h
  · rw [if_neg h]
    exact ⟨fun e => absurd e (copyLoop_no_overread _ _ _ _), fun e => absurd e h⟩

-- three chunks into chunks of other sizes, with an empty chunk on both sides
example : netbufCopy 8 ⟨[1, 2, 3], [[], [4, 5, 6]]⟩ ⟨[], [9], 1, [0, 2, 5]⟩ 1 =
    .ok ⟨[[9, 2], [], [3, 4]], [5, 6], 3, []⟩ := by decide
-- a chunk of five bytes does not take six
example : netbufCopy 100 ⟨[1, 2, 3, 4, 5, 6], []⟩ ⟨[], [], 5, []⟩ 0 = .error .outOfFuel := by decide
-- the skipped bytes reach into the second chunk
example : netbufCopy 8 ⟨[1, 2], [[3, 4]]⟩ ⟨[], [], 9, []⟩ 3 = .error .sourceOverread := by decide

theorem setTkl_byte : ∀ a t : Fin 16, ((UInt8.ofNat (16 * a.val + 0) &&& ~~~(0x0F : UInt8)) ||| UInt8.ofNat t.val) =
    UInt8.ofNat (16 * a.val + t.val) := by decide +kernel

theorem mask_byte : ∀ a t : Fin 16, (UInt8.ofNat (16 * a.val + t.val) &&& ~~~(0x0F : UInt8)) =
    (UInt8.ofNat (16 * a.val + 0) &&& ~~~(0x0F : UInt8)) := by decide +kernel

theorem reissue_header (v t k n : Nat) (hv : v < 4) (ht : t < 4) (hk : k ≤ 8) (hn : n ≤ 8) (b1 b2 b3 : UInt8) :
    (⟨UInt8.ofNat (64 * v + 16 * t + k), b1, b2, b3⟩ : Header).setTokenLength (UInt8.ofNat n) =
      ⟨UInt8.ofNat (64 * v + 16 * t + n), b1, b2, b3⟩ := by
  have h1 := mask_byte ⟨4 * v + t, by omega⟩ ⟨k, by omega⟩
  have h2 := setTkl_byte ⟨4 * v + t, by omega⟩ ⟨n, by omega⟩
  simp only [Header.setTokenLength, Header.mk.injEq, and_true]
  rw [show 64 * v + 16 * t + k = 16 * (4 * v + t) + k by omega, show 64 * v + 16 * t + n = 16 * (4 * v + t) + n by omega]
  simp only at h1 h2
  rw [h1, h2]

/-- What reissuing a message amounts to: header with the new token length, new token, and the old message
without its header and as many bytes as the *new* token has. -/
theorem reissue_eq (m : Msg) (hm : m.Ok) (ob : List UInt8) (junk : Dec) (src : NSrc) (token : List UInt8)
    (ht : token.length ≤ 8) (room : Nat) (hr : 4 + token.length ≤ room) (more : List Nat) (fuel : Nat)
    (hsrc : src.cur ++ src.rest.flatten = wire m ob) (h4 : 4 ≤ src.cur.length) :
    reissue fuel junk src token room more = netbufCopy fuel src
      ⟨[], encHeader { m with token := token } ++ token, room - (4 + token.length), more⟩ (4 + token.length) := by
  obtain ⟨h1, h2, h3, h4', h5, -, -⟩ := hm
  obtain ⟨cur, rest⟩ := src
  simp only at hsrc h4
  obtain ⟨b0, b1, b2, b3, t, rfl⟩ : ∃ b0 b1 b2 b3 t, cur = b0 :: b1 :: b2 :: b3 :: t := by
    match cur, h4 with
    | b0 :: b1 :: b2 :: b3 :: t, _ => exact ⟨b0, b1, b2, b3, t, rfl⟩
  obtain ⟨q1, e1, -⟩ := header_all junk b0 b1 b2 b3 t
  simp only [wire, encHeader, List.cons_append, List.nil_append, List.cons.injEq] at hsrc
  obtain ⟨rfl, rfl, rfl, rfl, -⟩ := hsrc
  rw [reissue]
  simp only [e1]
  rw [reissue_header m.version m.type m.token.length token.length h1 h2 h5 ht]
  have htk : (⟨UInt8.ofNat (64 * m.version + 16 * m.type + token.length), UInt8.ofNat m.code, UInt8.ofNat (m.mid / 256),
      UInt8.ofNat (m.mid % 256)⟩ : Header).tokenLength.toNat = token.length := by
    rw [Header.tokenLength, show (15 : UInt8) = 0x0F from rfl, tkl_toNat]; simp; omega
  rw [htk]
  congr 1
  simp only [NEnc.header, NEnc.init, NEnc.token, NEnc.write, encHeader]
  have hr4 : 4 ≤ room := by omega
  simp only [ge_iff_le, hr4, if_true, NDst.mk.injEq, true_and, and_true]
  refine ⟨?_, ?_⟩
  · rw [List.take_of_length_le (by simp; omega), List.take_of_length_le (by simp; omega)]; simp
  · simp; omega

/-- C51, reissuing: if the new token is as long as the old one, the observer gets the same message with its
own token.  `ob` is any encoding of the options. -/
theorem reissue_same_length_partial (m : Msg) (hm : m.Ok) (ob : List UInt8) (junk : Dec) (src : NSrc) (token : List UInt8)
    (ht : token.length = m.token.length) (room : Nat) (hr : 4 + token.length ≤ room) (more : List Nat) (fuel : Nat)
    (hf : src.rest.length + more.length < fuel)
    (hsrc : src.cur ++ src.rest.flatten = wire m ob) (h4 : 4 + token.length ≤ src.cur.length)
    (hroom : (wire m ob).length ≤ room + more.sum) :
    ∃ d', reissue fuel junk src token room more = .ok d' ∧ held d' = wire { m with token := token } ob := by
  have h5 := hm.2.2.2.2.1
  rw [reissue_eq m hm ob junk src token (by omega) room hr more fuel hsrc (by omega)]
  have hd : src.cur.drop (4 + token.length) ++ src.rest.flatten = ob ++ encPayload m.payload := by
    rw [← List.drop_append_of_le_length h4, hsrc, wire, List.append_assoc, List.drop_left' (by simp [encHeader]; omega)]
  obtain ⟨d', e1, e2, -⟩ := copy_exact src ⟨[], encHeader { m with token := token } ++ token, room - (4 + token.length), more⟩
    (4 + token.length) h4 (by
      rw [hd]; simp only [wire, List.length_append, encHeader, List.length_cons, List.length_nil, space] at hroom ⊢; omega) fuel hf
  exact ⟨d', e1, by rw [e2, hd]; simp [held, wire]⟩

/-- C51, refuted for reissuing: for every message, if the new token has another length, the observer does not
get the message - bytes are missing or doubled, or memory behind the message is read. -/
theorem reissue_wrong_length (m : Msg) (hm : m.Ok) (ob : List UInt8) (junk : Dec) (src : NSrc) (token : List UInt8)
    (ht : token.length ≤ 8) (hne : token.length ≠ m.token.length) (room : Nat) (hr : 4 + token.length ≤ room)
    (more : List Nat) (fuel : Nat) (hsrc : src.cur ++ src.rest.flatten = wire m ob) (h4 : 4 ≤ src.cur.length) (d' : NDst)
    (h : reissue fuel junk src token room more = .ok d') : held d' ≠ wire { m with token := token } ob := by
  rw [reissue_eq m hm ob junk src token ht room hr more fuel hsrc h4] at h
  obtain ⟨h1, h2⟩ := (copy_returns_iff _ _ _).mp ⟨fuel, d', h⟩
  obtain ⟨d2, e1, e2, -⟩ := copy_exact _ _ _ h1 h2 (fuel + (src.rest.length + more.length + 1)) (by simp only; omega)
  have : d2 = d' := by
    rw [netbufCopy, if_neg (by omega)] at h e1
    rw [copyLoop_mono _ _ _ _ _ _ h] at e1
    cases e1; rfl
  subst this
  intro hc
  have hl := congrArg List.length (e2.symm.trans hc)
  have hw := congrArg List.length hsrc
  simp only [held, wire, encHeader, List.flatten_nil, List.nil_append, List.length_append, List.length_drop, List.length_cons, List.length_nil] at hl hw
  omega

-- an observer with a token of one byte after one with two bytes: the payload marker is kept, but the second byte of the
-- old token is taken for an option
example : ∃ d', reissue 3 Dec.zero ⟨[0x52, 0x45, 0, 1, 7, 8, 0x60, 0xFF, 9], []⟩ [5] 64 [] = .ok d' ∧
    held d' = [0x51, 0x45, 0, 1, 5, 8, 0x60, 0xFF, 9] := ⟨_, rfl, rfl⟩
example : wire ⟨1, 1, 0x45, 1, [7, 8], [⟨6, []⟩], some [9]⟩ [0x60] = [0x52, 0x45, 0, 1, 7, 8, 0x60, 0xFF, 9] ∧
    (⟨1, 1, 0x45, 1, [7, 8], [⟨6, []⟩], some [9]⟩ : Msg).Ok := by decide
example : ∃ d', reissue 4 Dec.zero ⟨[0x52, 0x45, 0, 1, 7, 8], [[0x60, 0xFF], [9]]⟩ [3, 4] 7 [8] = .ok d' ∧
    held d' = [0x52, 0x45, 0, 1, 3, 4, 0x60, 0xFF, 9] := ⟨_, rfl, rfl⟩

end Verif.Props
