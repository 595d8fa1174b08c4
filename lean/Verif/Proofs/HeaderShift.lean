import Verif.Proofs.BadHeader

/-! # Reading from the middle of what the option encoder wrote -/
namespace Verif.Proofs
open Verif.Model OptEnc SEnc Spec Props

theorem readExt_uses {nib : Nat} {bs r : List UInt8} {x : Nat} (h : readExt nib bs = some (x, r)) :
    r.length ≤ bs.length ∧ (13 ≤ x % 65536 → r.length + 1 ≤ bs.length) ∧ (269 ≤ x % 65536 → r.length + 2 ≤ bs.length) ∧
      (nib = 14 → r.length + 2 ≤ bs.length) ∧ r <:+ bs := by
  unfold readExt at h
  split at h
  · cases h
    refine ⟨Nat.le_refl _, fun h => ?_, fun h => ?_, fun h => ?_, List.suffix_rfl⟩ <;> omega
  · cases bs with
    | nil => simp at h
    | cons b bs =>
      have hb := u8_lt b
      simp only at h
      split at h
      · cases h
        refine ⟨by simp, fun _ => by simp, fun h => by omega, fun h => by omega, List.suffix_cons _ _⟩
      · split at h
        · cases bs with
          | nil => simp at h
          | cons c bs =>
            simp only at h; cases h
            refine ⟨by simp; omega, fun _ => by simp, fun h => by simp, fun h => by simp, ?_⟩
            exact (List.suffix_cons _ _).trans (List.suffix_cons _ _)
        · cases h
          refine ⟨by simp, fun _ => by simp, fun h => by omega, fun h => by omega, List.suffix_cons _ _⟩

theorem readExt_run_rest {nib n : Nat} {r u : List UInt8} {x : Nat} (hn : 2 ≤ n)
    (h : readExt nib (List.replicate n 255 ++ r) = some (x, u)) : ∃ m, n - 2 ≤ m ∧ u = List.replicate m 255 ++ r := by
  obtain ⟨k, rfl⟩ : ∃ k, n = k + 2 := ⟨n - 2, by omega⟩
  simp only [List.replicate_succ, List.cons_append, readExt] at h
  repeat' split at h
  all_goals cases h
  · exact ⟨k + 2, by omega, by simp [List.replicate_succ]⟩
  · exact ⟨k + 1, by omega, by simp [List.replicate_succ]⟩
  · exact ⟨k, by omega, rfl⟩
  · exact ⟨k + 1, by omega, by simp [List.replicate_succ]⟩

theorem readExt_run_rest1 {nib n : Nat} {b : UInt8} {r u : List UInt8} {x : Nat} (hn : 2 ≤ n) (hx : 13 ≤ x % 65536)
    (h : readExt nib (b :: (List.replicate n 255 ++ r)) = some (x, u)) : ∃ m, n - 1 ≤ m ∧ u = List.replicate m 255 ++ r := by
  obtain ⟨k, rfl⟩ : ∃ k, n = k + 1 := ⟨n - 1, by omega⟩
  simp only [List.replicate_succ, List.cons_append, readExt] at h
  repeat' split at h
  all_goals cases h
  · omega
  · exact ⟨k + 1, by omega, by simp [List.replicate_succ]⟩
  · exact ⟨k, by omega, rfl⟩
  · exact ⟨k + 1, by omega, by simp [List.replicate_succ]⟩

theorem readExt_run_value {nib n : Nat} {r u : List UInt8} {x : Nat} (hn : 2 ≤ n)
    (h : readExt nib (List.replicate n 255 ++ r) = some (x, u)) : x % 65536 < 13 ∨ x % 65536 = 268 := by
  obtain ⟨k, rfl⟩ : ∃ k, n = k + 2 := ⟨n - 2, by omega⟩
  simp only [List.replicate_succ, List.cons_append, readExt] at h
  repeat' split at h
  all_goals cases h
  · left; omega
  · right; rfl
  · right; rfl
  · left; omega

/-- A header for this delta and length that is read from inside the bytes `tl` goes on behind them. -/
def Shifted (delta len : Nat) (tl : List UInt8) : Prop :=
  ∀ h1 y h2 r, tl = h1 ++ y :: h2 → y ≠ 255 → ∀ x u l v, readExt (y.toNat / 16) (h2 ++ r) = some (x, u) → x % 65536 = delta →
    readExt (y.toNat % 16) u = some (l, v) → l % 65536 = len → v.length < r.length

theorem Shifted.nil (delta len : Nat) : Shifted delta len [] := by
  intro h1 y h2 r h; simp at h

theorem Shifted.one {delta len : Nat} {b : UInt8} (h : 13 ≤ delta ∨ 13 ≤ len) : Shifted delta len [b] := by
  intro h1 y h2 r e hy x u l v e1 ex e2 el
  obtain ⟨rfl, rfl, rfl⟩ : h1 = [] ∧ y = b ∧ h2 = [] := by
    cases h1 with
    | nil => simpa using e.symm
    | cons a h1 => simp at e
  obtain ⟨a1, a2, a3, -⟩ := readExt_uses e1
  obtain ⟨b1, b2, b3, -⟩ := readExt_uses e2
  simp only [List.nil_append] at a1 a2 a3
  omega

/-- The first of two bytes. -/
theorem Shifted.cons {delta len : Nat} {a b : UInt8} (ht : Shifted delta len [b])
    (h : a = 255 ∨ 269 ≤ delta ∨ 269 ≤ len ∨ a.toNat % 16 = 14 ∨ (13 ≤ delta ∧ 13 ≤ len)) : Shifted delta len [a, b] := by
  intro h1 y h2 r e hy x u l v e1 ex e2 el
  cases h1 with
  | nil =>
    obtain ⟨rfl, rfl⟩ : y = a ∧ h2 = [b] := by simpa [eq_comm] using e
    obtain ⟨a1, a2, a3, -⟩ := readExt_uses e1
    obtain ⟨b1, b2, b3, b4, -⟩ := readExt_uses e2
    simp only [List.cons_append, List.nil_append, List.length_cons] at a1 a2 a3
    rcases h with h | h | h | h | h
    · exact absurd h hy
    · omega
    · omega
    · have := b4 h; omega
    · omega
  | cons c h1 =>
    simp only [List.cons_append, List.cons.injEq] at e
    exact ht h1 y h2 r e.2 hy x u l v e1 ex e2 el

theorem Shifted.skip {delta len : Nat} {a : UInt8} {t : List UInt8} (ha : delta ≠ a.toNat / 16) (ha2 : a.toNat / 16 < 13)
    (ht : Shifted delta len t) : Shifted delta len (a :: t) := by
  intro h1 y h2 r e hy x u l v e1 ex e2 el
  cases h1 with
  | nil =>
    obtain ⟨rfl, rfl⟩ : y = a ∧ h2 = t := by simpa [eq_comm] using e
    unfold readExt at e1
    rw [if_pos ha2] at e1
    cases e1
    omega
  | cons c h1 =>
    simp only [List.cons_append, List.cons.injEq] at e
    exact ht h1 y h2 r e.2 hy x u l v e1 ex e2 el

/-- A long run of 0xFF behind the beginning. -/
theorem Shifted.run {delta len n : Nat} {e z : List UInt8} (hn : 5 ≤ n) (hl : 13 ≤ len) (hl2 : len ≠ 268)
    (he : e.length ≤ 1 ∨ e.length = 2 ∧ 13 ≤ delta) (hz : Shifted delta len z) :
    Shifted delta len (e ++ (List.replicate n 255 ++ z)) := by
  intro h1 y h2 r eq hy x u l v e1 ex e2 el
  rcases List.append_eq_append_iff.1 eq with ⟨a, rfl, h3⟩ | ⟨a, rfl, h3⟩
  · -- behind the beginning
    rcases List.append_eq_append_iff.1 h3 with ⟨b, rfl, h4⟩ | ⟨b, h4, h5⟩
    · exact hz b y h2 r h4 hy x u l v e1 ex e2 el
    · cases b with
      | nil => exact hz [] y h2 r (by simpa using h5.symm) hy x u l v e1 ex e2 el
      | cons c b =>
        simp only [List.cons_append, List.cons.injEq] at h5
        have : y ∈ List.replicate n (255 : UInt8) := by rw [h4, h5.1]; simp
        exact absurd (List.eq_of_mem_replicate this) hy
  · cases a with
    | nil =>
      -- at the start of the run
      simp only [List.nil_append] at h3
      obtain ⟨k, rfl⟩ : ∃ k, n = k + 1 := ⟨n - 1, by omega⟩
      simp only [List.replicate_succ, List.cons_append, List.cons.injEq] at h3
      exact absurd h3.1 hy
    | cons c e2' =>
      simp only [List.cons_append, List.cons.injEq] at h3
      obtain ⟨rfl, rfl⟩ := h3
      exfalso
      have fin : ∀ m, 2 ≤ m → u = List.replicate m 255 ++ (z ++ r) → False := by
        rintro m hm rfl
        rcases readExt_run_value hm e2 with h | h <;> omega
      cases e2' with
      | nil =>
        rw [List.nil_append, List.append_assoc] at e1
        obtain ⟨m, hm, rfl⟩ := readExt_run_rest (by omega) e1
        exact fin m (by omega) rfl
      | cons d e3 =>
        cases e3 with
        | nil =>
          have hd : 13 ≤ delta := by
            rcases he with he | he
            · simp at he
            · exact he.2
          simp only [List.cons_append, List.nil_append, List.append_assoc] at e1
          obtain ⟨m, hm, rfl⟩ := readExt_run_rest1 (by omega) (by omega) e1
          exact fin m (by omega) rfl
        | cons f e4 =>
          simp at he; omega

theorem no_stop16 {l : UInt16} (h1 : 242 ≤ l.toNat) (h2 : l.toNat < 65266) (hn1 : ¬ LStop l 1) (hn2 : ¬ LStop l 2)
    (p : UInt8) : ¬ LStop l p := by
  obtain ⟨k0, k1, k2, k3⟩ := helper_16 h1 h2
  intro hs
  have hp : p = 0 ∨ p = 1 ∨ p = 2 ∨ 3 ≤ p.toNat := by
    by_cases a : 3 ≤ p.toNat
    · exact Or.inr (Or.inr (Or.inr a))
    · have : p.toNat = 0 ∨ p.toNat = 1 ∨ p.toNat = 2 := by omega
      rcases this with a | a | a
      · exact Or.inl (UInt8.toNat_inj.1 a)
      · exact Or.inr (Or.inl (UInt8.toNat_inj.1 a))
      · exact Or.inr (Or.inr (Or.inl (UInt8.toNat_inj.1 a)))
  rcases hp with rfl | rfl | rfl | hp
  · unfold LStop at hs; rw [k0] at hs; simp at hs
  · exact hn1 hs
  · exact hn2 hs
  · unfold LStop at hs; rw [k3 p hp] at hs; simp at hs

/-- The bytes of a length from 242 on that do not end where they should. -/
theorem tail16 {base : OptBase} {cur : UInt16} (h1 : 242 ≤ base.length.toNat) (h2 : base.length.toNat < 65266)
    (t : List UInt8) (q : OptEnc) (he : Emits base ⟨.optionLength, cur, 2⟩ t q) :
    269 ≤ base.length.toNat ∧ ((3597 ≤ base.length.toNat ∧ t = List.replicate 253 255 ++ [14, 13]) ∨
      ∃ a b, t = List.replicate 253 255 ++ [14, a, b]) := by
  obtain ⟨k0, k1, k2, k3⟩ := helper_16 h1 h2
  obtain ⟨t', rfl, h3⟩ := ff_run k3 253 2 t q (by decide) (by decide) he
  rw [show (2 : UInt8) + UInt8.ofNat 253 = 255 from rfl, len_iff] at h3
  rw [show (255 : UInt8) + 1 = 0 from rfl, k0] at h3
  obtain ⟨t1, rfl, ⟨hs, -⟩ | ⟨-, h4⟩⟩ := h3
  · unfold LStop at hs; rw [k0] at hs; simp at hs
  · rw [len_iff, show (0 : UInt8) + 1 = 1 from rfl] at h4
    obtain ⟨t2, rfl, ⟨hs, rfl, -⟩ | ⟨hn1, h5⟩⟩ := h4
    · have e13 : helper base.length 1 = 13 := by
        rcases hs with h | ⟨-, h⟩
        · exact h
        · simp at h
      have e13n : (helper base.length 1).toNat = 13 := by rw [e13]; rfl
      rw [e13]
      exact ⟨by omega, Or.inl ⟨by omega, rfl⟩⟩
    · rw [len_iff, show (1 : UInt8) + 1 = 2 from rfl] at h5
      obtain ⟨t3, rfl, ⟨hs, rfl, -⟩ | ⟨hn2, h6⟩⟩ := h5
      · refine ⟨?_, Or.inr ⟨_, _, rfl⟩⟩
        rcases hs with h | ⟨h, -⟩ <;> · have := congrArg UInt8.toNat h; simp at this; omega
      · exfalso
        exact no_stop (no_stop16 h1 h2 hn1 hn2) _ _ _ h6

/-- Nothing that the encoder writes for an option header can be read as that header from a later byte on without
running into the value. -/
theorem header_shifted (base : OptBase) (cur : UInt16) (pos : UInt8) (bs : List UInt8) (q : OptEnc)
    (hd : (base.number - cur).toNat < 65266) (he : Emits base ⟨.firstByte, cur, pos⟩ bs q) :
    ∃ w tl, bs = w :: tl ∧ Shifted (base.number - cur).toNat base.length.toNat tl ∧
      (base.length.toNat < 13 → tl = codeExt (base.number - cur)) := by
  by_cases hl : base.length.toNat < 13
  · obtain ⟨q', h⟩ := short_emits base cur pos hd hl
    rw [(he.det h).1]
    refine ⟨_, _, rfl, ?_, fun _ => rfl⟩
    generalize base.number - cur = v at hd
    unfold codeExt
    by_cases c1 : v.toNat < 13
    · rw [if_pos c1]; exact .nil _ _
    · rw [if_neg c1]
      by_cases c2 : v.toNat < 242
      · rw [if_pos c2]; exact .one (Or.inl (by omega))
      · rw [if_neg c2]
        refine .cons (.one (Or.inl (by omega))) ?_
        by_cases c3 : 269 ≤ v.toNat
        · exact Or.inr (Or.inl c3)
        · refine Or.inl (UInt8.toNat_inj.1 ?_)
          rw [(helper_16 (v := v) (by omega) hd).2.1]
          simp; omega
  · have hroot : ¬ 65266 ≤ base.length.toNat := by
      intro h
      have hb' := helper_big h
      rw [delta_iff base cur pos bs q hd (by rw [hb']; decide)] at he
      obtain ⟨t, -, h2⟩ := he
      exact no_stop (by intro p hs; unfold LStop at hs; rw [hb'] at hs; simp at hs) _ _ _ h2
    have hl13 : 13 ≤ (helper base.length 0).toNat := by
      by_cases c2 : base.length.toNat < 242
      · rw [(helper_8 (by omega) c2).1]; decide
      · rw [(helper_16 (v := base.length) (by omega) (by omega)).1]; decide
    rw [delta_iff base cur pos bs q hd hl13] at he
    obtain ⟨t, rfl, h2⟩ := he
    refine ⟨_, _, rfl, ?_, fun h => absurd h hl⟩
    generalize base.number - cur = v at hd h2
    have hcl : ((codeExt v).length = 0 ∧ v.toNat < 13) ∨ ((codeExt v).length = 1 ∧ 13 ≤ v.toNat) ∨
        ((codeExt v).length = 2 ∧ 242 ≤ v.toNat) := by
      unfold codeExt; (repeat' split) <;> simp <;> omega
    by_cases c2 : base.length.toNat < 242
    · obtain ⟨k0, k1, k2⟩ := helper_8 (v := base.length) (by omega) c2
      have z13 : Shifted v.toNat base.length.toNat [13] := .one (Or.inr (by omega))
      rcases hcl with ⟨e, hv⟩ | ⟨e, hv⟩ | ⟨e, hv⟩ <;> rw [e] at h2
      · rw [len_iff, show (UInt8.ofNat 0 + 1 : UInt8) = 1 from rfl] at h2
        rw [List.length_eq_zero_iff.1 e, List.nil_append]
        obtain ⟨t', rfl, ⟨hs, rfl, -⟩ | ⟨-, h3⟩⟩ := h2
        · exact .one (Or.inr (by omega))
        · rw [tail8 (by omega) c2 1 (Or.inl rfl) t' q h3]
          exact .run (e := [helper base.length 1]) (n := 254) (by decide) (by omega) (by omega) (Or.inl (by simp)) z13
      · rw [tail8 (by omega) c2 _ (Or.inl rfl) t q h2]
        exact .run (by decide) (by omega) (by omega) (Or.inl (by omega)) z13
      · rw [tail8 (by omega) c2 _ (Or.inr rfl) t q h2]
        exact .run (by decide) (by omega) (by omega) (Or.inr ⟨e, by omega⟩) z13
    · obtain ⟨k0, k1, k2, k3⟩ := helper_16 (v := base.length) (by omega) (by omega)
      rcases hcl with ⟨e, hv⟩ | ⟨e, hv⟩ | ⟨e, hv⟩ <;> rw [e] at h2
      · rw [len_iff, show (UInt8.ofNat 0 + 1 : UInt8) = 1 from rfl] at h2
        rw [List.length_eq_zero_iff.1 e, List.nil_append]
        obtain ⟨t', rfl, ⟨hs, rfl, -⟩ | ⟨hn1, h3⟩⟩ := h2
        · exact .one (Or.inr (by omega))
        · rw [len_iff, show (1 + 1 : UInt8) = 2 from rfl] at h3
          obtain ⟨t2, rfl, ⟨hs, rfl, -⟩ | ⟨hn2, h4⟩⟩ := h3
          · refine .cons (.one (Or.inr (by omega))) (Or.inr (Or.inr (Or.inl ?_)))
            rcases hs with h | ⟨h, -⟩ <;> · have := congrArg UInt8.toNat h; simp at this; omega
          · exact absurd h4 (no_stop (no_stop16 (by omega) (by omega) hn1 hn2) _ _ _)
      · rw [len_iff, show (UInt8.ofNat 1 + 1 : UInt8) = 2 from rfl] at h2
        obtain ⟨a, ha⟩ := List.length_eq_one_iff.1 e
        rw [ha]
        obtain ⟨t', rfl, ⟨hs, rfl, -⟩ | ⟨hn1, h3⟩⟩ := h2
        · exact .cons (.one (Or.inl hv)) (Or.inr (Or.inr (Or.inr (Or.inr ⟨hv, by omega⟩))))
        · obtain ⟨hL, ⟨h5, rfl⟩ | ⟨b, c, rfl⟩⟩ := tail16 (by omega) (by omega) _ _ h3
          · exact .run (e := [a, helper base.length 2]) (n := 253) (by decide) (by omega) (by omega) (Or.inr ⟨rfl, hv⟩)
              (.cons (.one (Or.inl hv)) (Or.inr (Or.inr (Or.inl (by omega)))))
          · exact .run (e := [a, helper base.length 2]) (n := 253) (by decide) (by omega) (by omega) (Or.inr ⟨rfl, hv⟩)
              (.skip (by simp; omega) (by decide) (.cons (.one (Or.inl hv)) (Or.inr (Or.inr (Or.inl (by omega))))))
      · obtain ⟨hL, ⟨h5, rfl⟩ | ⟨b, c, rfl⟩⟩ := tail16 (by omega) (by omega) _ _ h2
        · exact .run (n := 253) (by decide) (by omega) (by omega) (Or.inr ⟨e, by omega⟩)
            (.cons (.one (Or.inl (by omega))) (Or.inr (Or.inr (Or.inl (by omega)))))
        · exact .run (n := 253) (by decide) (by omega) (by omega) (Or.inr ⟨e, by omega⟩)
            (.skip (by simp; omega) (by decide) (.cons (.one (Or.inl (by omega))) (Or.inr (Or.inr (Or.inl (by omega))))))

end Verif.Proofs
