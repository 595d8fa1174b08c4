import Verif.Proofs.HeaderShift
import Verif.Props.DecoderReport

/-! # Exactly which messages survive the stream encoder and the decoder (C22) -/
namespace Verif.Props
open Verif.Model OptEnc SEnc Spec Proofs

/-- Options and payload as a reader hears of them. -/
def heard (r : List Item × Option (List UInt8)) : List (UInt16 × List UInt8 × Bool) × Option (List UInt8) :=
  (r.1.map fun i => (UInt16.ofNat i.number, i.value, i.complete), r.2)

/-- Options and payload as the writer meant them. -/
def optsMeant (os : List Opt) (p : Option (List UInt8)) : List (UInt16 × List UInt8 × Bool) × Option (List UInt8) :=
  (os.map fun o => (UInt16.ofNat o.number, o.value, true), p)

/-- No reading that starts later than `bs` does finds these options and this payload. -/
def Later (prev : Nat) (os : List Opt) (p : Option (List UInt8)) (bs : List UInt8) : Prop :=
  ∀ prev' plen u, prev' % 65536 = prev → u <:+ bs → u.length < bs.length → heard (readRest prev' plen u) ≠ optsMeant os p

theorem bad_option {l : Nat} {w : UInt8} {e t value rest : List UInt8} {n : Nat} (hb : Bad l w t) (hw : w ≠ 255)
    (hR : Reads (w.toNat / 16) e n) (hl : value.length = l) (h13 : 13 ≤ l) (prev plen : Nat) (number : Nat)
    (hnum : number < 65536) (os : List Opt) (p : Option (List UInt8)) (hrest : os = [] → rest = encPayload p)
    (hlater : Later number os p rest) :
    heard (readRest prev plen (w :: (e ++ t) ++ value ++ rest)) ≠ optsMeant (⟨number, value⟩ :: os) p := by
  intro h
  have hne : value ++ rest ≠ [] := by
    intro h; have := (List.append_eq_nil_iff.1 h).1; rw [this] at hl; simp at hl; omega
  obtain ⟨x, hx, -⟩ := hR (t ++ (value ++ rest))
  have hlist : w :: (e ++ t) ++ value ++ rest = w :: (e ++ (t ++ (value ++ rest))) := by simp
  rw [hlist] at h
  cases hb with
  | junk h242 h13' =>
    have h2 : readExt (w.toNat % 16) (UInt8.ofNat (l - 13) :: (List.replicate 254 255 ++ [13]) ++ (value ++ rest)) =
        some (l, List.replicate l 255 ++ (255 :: (List.replicate (253 - l) 255 ++ [13] ++ (value ++ rest)))) := by
      rw [h13']
      have a : 13 + (UInt8.ofNat (l - 13)).toNat = l := by simp; omega
      have b : List.replicate 254 (255 : UInt8) = List.replicate l 255 ++ 255 :: List.replicate (253 - l) 255 := by
        rw [← List.replicate_succ, List.replicate_append_replicate]; congr 1; omega
      simp only [readExt, List.cons_append]
      rw [if_neg (by omega), if_pos trivial, a, b]
      simp
    rw [readRest_option hw hx h2] at h
    have hm : l % 65536 = l := by omega
    have hdrop : (List.replicate l (255 : UInt8) ++ (255 :: (List.replicate (253 - l) 255 ++ [13] ++ (value ++ rest)))).drop l =
        255 :: (List.replicate (253 - l) 255 ++ [13] ++ (value ++ rest)) := by
      rw [List.drop_left' (by simp)]
    rw [hm, hdrop, readRest_marker] at h
    simp only [heard, optsMeant, List.map_cons, List.map_nil, Prod.mk.injEq, List.cons.injEq] at h
    obtain ⟨⟨-, h3⟩, h4⟩ := h
    have hos : os = [] := by simpa using h3.symm
    have := hrest hos
    rw [← h4, encPayload] at this
    have := congrArg List.length this
    simp at this; omega
  | other ho =>
    obtain ⟨y, u, h2, hy⟩ := ho _ hne
    rw [readRest_option hw hx h2] at h
    simp only [heard, optsMeant, List.map_cons, Prod.mk.injEq, List.cons.injEq] at h
    obtain ⟨⟨⟨-, h3, h4⟩, -⟩, -⟩ := h
    have h5 := of_decide_eq_true h4
    rw [← h3, List.length_take, Nat.min_eq_left h5] at hl
    exact hy hl
  | @short b h3597 h14 =>
    obtain ⟨c, v, rfl⟩ : ∃ c v, value = c :: v := by
      cases value with
      | nil => simp at hl; omega
      | cons c v => exact ⟨c, v, rfl⟩
    have h2 : readExt (w.toNat % 16) ([b] ++ (c :: v ++ rest)) = some (269 + 256 * b.toNat + c.toNat, v ++ rest) := by
      rw [h14]; rfl
    rw [readRest_option hw hx h2] at h
    simp only [heard, optsMeant, List.map_cons, Prod.mk.injEq, List.cons.injEq] at h
    obtain ⟨⟨⟨hn, h3, h4⟩, h6⟩, h7⟩ := h
    have h5 := of_decide_eq_true h4
    generalize (269 + 256 * b.toNat + c.toNat) % 65536 = k at h3 h5 h6 h7
    have hk : k = v.length + 1 := by
      have := congrArg List.length h3
      rw [List.length_take, Nat.min_eq_left h5] at this; simpa using this
    subst hk
    have hr : rest ≠ [] := by
      intro hn
      rw [hn, List.append_nil] at h5; omega
    obtain ⟨d, r, rfl⟩ := List.exists_cons_of_ne_nil hr
    have hdrop : (v ++ d :: r).drop (v.length + 1) = r := by
      rw [show v ++ d :: r = (v ++ [d]) ++ r by simp, List.drop_left' (by simp)]
    rw [hdrop] at h6 h7
    refine hlater (prev + x) _ r ?_ (List.suffix_cons _ _) (by simp) (Prod.ext h6 h7)
    have := congrArg UInt16.toNat hn
    simp at this; omega

theorem option_appends (s : SEnc) (number : UInt16) (value : List UInt8) (s' : SEnc)
    (h : s.option number value = .ok (s', true)) :
    s'.cap = s.cap ∧ s.out <+: s'.out := by
  obtain ⟨s1, ok, e1, e2, e3⟩ := option_header_returns s number (UInt16.ofNat value.length)
  rw [SEnc.option, e1] at h
  cases ok with
  | false => simp at h
  | true =>
    simp only [Except.ok.injEq, Prod.mk.injEq, and_true] at h
    subst h
    exact ⟨e2, List.IsPrefix.trans e3 (by simp [putn])⟩

theorem writeOpts_appends (os : List Opt) : ∀ s s' : SEnc, writeOpts s os = .ok (s', true) → s'.cap = s.cap ∧ s.out <+: s'.out := by
  induction os with
  | nil => intro s s' h; simp only [writeOpts, Except.ok.injEq, Prod.mk.injEq, and_true] at h; subst h; exact ⟨rfl, List.prefix_rfl⟩
  | cons o os ih =>
    intro s s' h
    rw [writeOpts] at h
    cases ho : s.option (UInt16.ofNat o.number) o.value with
    | error e => rw [ho] at h; cases h
    | ok r =>
      obtain ⟨s1, ok⟩ := r
      rw [ho] at h
      cases ok with
      | false => simp at h
      | true =>
        obtain ⟨a, b⟩ := option_appends _ _ _ _ ho
        obtain ⟨c, d⟩ := ih s1 s' h
        exact ⟨c.trans a, b.trans d⟩

/-- What writing an option leaves on a stream that is not full. -/
theorem option_uncut (prev n : Nat) (value : List UInt8) (hn : prev ≤ n) (hn2 : n < 65536) (hl : value.length < 65536)
    (s s' : SEnc) (hcur : s.oe.current = UInt16.ofNat prev)
    (h : s.option (UInt16.ofNat n) value = .ok (s', true)) (hroom : s'.out.length < s.cap) :
    ∃ hdr, s'.out = s.out ++ (hdr ++ value) ∧ s'.oe.current = UInt16.ofNat n ∧ n - prev < 65266 ∧
      (∃ q pos, Emits ⟨UInt16.ofNat n, UInt16.ofNat value.length, []⟩ ⟨.firstByte, UInt16.ofNat prev, pos⟩ hdr q) ∧
      (Encodable (n - prev) value.length → HdrOf hdr (n - prev) value.length) := by
  obtain ⟨s1, ok, e1, e2, e3⟩ := option_header_returns s (UInt16.ofNat n) (UInt16.ofNat value.length)
  rw [SEnc.option, e1] at h
  cases ok with
  | false => simp at h
  | true =>
    simp only [Except.ok.injEq, Prod.mk.injEq, and_true] at h
    subst h
    have hd : n - prev < 65266 := by
      apply Decidable.byContradiction
      intro hc
      have hlt : s.out.length ≤ s.cap := by
        have := e3.length_le
        simp only [putn, List.length_append] at hroom; omega
      obtain ⟨x, hx, -⟩ := delta_out_of_range_fills s (UInt16.ofNat n) (UInt16.ofNat value.length)
        (by rw [hcur, sub_ofNat hn hn2]; omega) hlt
      rw [e1] at hx
      simp at hx
    obtain ⟨⟨st, cur, pos⟩, out, cap⟩ := s
    simp only at hcur; subst hcur
    obtain ⟨bs, h1, h2⟩ := emits_of_loop _ _ _ _ _ (by exact trivial) _ e1
    have hfit : value.take s1.room = value := by
      apply List.take_of_length_le
      simp only [putn, List.length_append, List.length_take] at hroom
      simp only at e2
      rw [← e2] at hroom
      unfold room at hroom ⊢; omega
    refine ⟨bs, ?_, ?_, hd, ⟨_, pos, h1⟩, fun henc => ?_⟩
    · simp only [putn, hfit, h2, List.append_assoc]
    · exact (emits_current h1 (Or.inl trivial) (by simp [next])).2
    · obtain ⟨hdr, g1, -, g3⟩ := encodable_header prev n value.length hn hn2 hl henc
      obtain ⟨oe, -, g4⟩ := g3 ⟨⟨st, UInt16.ofNat prev, pos⟩, [], hdr.length⟩ rfl (by simp)
      obtain ⟨bs', h1', h2'⟩ := emits_of_loop _ _ _ _ _ (by exact trivial) _ g4
      simp only [List.nil_append] at h2'
      have := (h1.det h1').1
      rw [this, ← h2']; exact g1

/-- What has been written for these options is an encoding of them if they are encodable, and is read as
something else if they are not. -/
def Extent (prev : Nat) (os : List Opt) (ob : List UInt8) : Prop :=
  (os = [] → ob = []) ∧ (os ≠ [] → ob ≠ []) ∧ (OptsEncodable prev os → IsOpts prev os ob) ∧
  (¬ OptsEncodable prev os → ∀ prev' plen p, prev' % 65536 = prev →
    heard (readRest prev' plen (ob ++ encPayload p)) ≠ optsMeant os p) ∧
  ∀ p, Later prev os p (ob ++ encPayload p)

theorem readRest_some {prev plen : Nat} {b : UInt8} {bs : List UInt8} (hb : b ≠ 0xFF) : (readRest prev plen (b :: bs)).1 ≠ [] := by
  rw [readRest, if_neg hb]
  (repeat' split) <;> simp

theorem Later.nil (prev : Nat) (p : Option (List UInt8)) : Later prev [] p ([] ++ encPayload p) := by
  intro prev' plen u _ hs hl h
  cases p with
  | none => simp [encPayload] at hl
  | some q =>
    simp only [encPayload, List.nil_append] at hs hl
    cases u with
    | nil => rw [readRest_nil] at h; simp [heard, optsMeant] at h
    | cons y u =>
      by_cases hy : y = 255
      · subst hy
        rw [readRest_marker] at h
        simp only [heard, optsMeant, Prod.mk.injEq, Option.some.injEq] at h
        rw [h.2] at hl; simp at hl
      · have : (readRest prev' plen (y :: u)).1 ≠ [] := readRest_some hy
        simp only [heard, optsMeant, Prod.mk.injEq, List.map_nil, List.map_eq_nil_iff] at h
        exact this h.1

theorem Later.cons {prev : Nat} {o : Opt} {os : List Opt} {hdr ob : List UInt8} {q : OptEnc} {pos : UInt8}
    (h1 : prev ≤ o.number) (h2 : o.number < 65536) (h3 : o.value.length < 65536) (b3 : o.number - prev < 65266)
    (b4 : Emits ⟨UInt16.ofNat o.number, UInt16.ofNat o.value.length, []⟩ ⟨.firstByte, UInt16.ofNat prev, pos⟩ hdr q)
    (hob : os = [] → ob = []) (p : Option (List UInt8)) (hx : Later o.number os p (ob ++ encPayload p)) :
    Later prev (o :: os) p (hdr ++ o.value ++ ob ++ encPayload p) := by
  have hsub := sub_ofNat h1 h2
  have hlm : (UInt16.ofNat o.value.length).toNat = o.value.length := by simp; omega
  obtain ⟨w, tl, rfl, hS, hc⟩ := header_shifted ⟨UInt16.ofNat o.number, UInt16.ofNat o.value.length, []⟩
      (UInt16.ofNat prev) pos hdr q (by simp only [hsub]; exact b3) b4
  simp only [hsub, hlm] at hS hc
  generalize hrest : ob ++ encPayload p = rest at hx
  have hlist : w :: tl ++ o.value ++ ob ++ encPayload p = w :: (tl ++ (o.value ++ rest)) := by rw [← hrest]; simp
  rw [hlist]
  intro prev' plen u hp hs hl h
  have hs' : u <:+ tl ++ (o.value ++ rest) := by
    rcases List.suffix_cons_iff.1 hs with e | e
    · rw [e] at hl; simp at hl
    · exact e
  cases u with
  | nil => rw [readRest_nil] at h; simp [heard, optsMeant] at h
  | cons y u =>
    by_cases hy : y = 255
    · subst hy
      rw [readRest_marker] at h
      simp [heard, optsMeant] at h
    · cases e1 : readExt (y.toNat / 16) u with
      | none =>
        rw [readRest_cut_delta hy e1] at h
        simp only [heard, optsMeant, List.map_cons, List.map_nil, Prod.mk.injEq, List.cons.injEq] at h
        obtain ⟨⟨⟨g1, g2, -⟩, g4⟩, g5⟩ := h
        have hos : os = [] := by simpa using g4.symm
        have hn : o.number - prev = 0 := by
          have := congrArg UInt16.toNat g1
          simp at this; omega
        rw [hc (by rw [← g2]; decide), codeExt, if_pos (by rw [hsub]; omega), ← g2, ← hrest, hob hos, ← g5] at hs'
        simp [encPayload] at hs'
      | some r1 =>
        obtain ⟨x, u1⟩ := r1
        cases e2 : readExt (y.toNat % 16) u1 with
        | none =>
          rw [readRest_cut_length hy e1 e2] at h
          simp only [heard, optsMeant, List.map_cons, List.map_nil, Prod.mk.injEq, List.cons.injEq] at h
          obtain ⟨⟨⟨g1, g2, -⟩, g4⟩, g5⟩ := h
          have hos : os = [] := by simpa using g4.symm
          have gx : x % 65536 = o.number - prev := by
            have := congrArg UInt16.toNat g1
            simp at this; omega
          rw [hc (by rw [← g2]; decide), ← g2, ← hrest, hob hos, ← g5] at hs'
          simp only [encPayload, List.append_nil] at hs'
          obtain ⟨-, a2, a3, -⟩ := readExt_uses e1
          have hle := hs'.length_le
          unfold codeExt at hs' hle
          rw [hsub] at hs' hle
          by_cases c1 : o.number - prev < 13
          · rw [if_pos c1] at hle; simp at hle
          · rw [if_neg c1] at hle hs'
            by_cases c2 : o.number - prev < 242
            · rw [if_pos c2] at hle; simp only [List.length_cons, List.length_nil] at hle; omega
            · rw [if_neg c2] at hle hs'
              simp only [List.length_cons, List.length_nil] at hle
              have hu : u.length = 1 := by omega
              have heq := hs'.eq_of_length (by simp [hu])
              have : y = helper (UInt16.ofNat o.number - UInt16.ofNat prev) 1 := by
                have := List.cons.inj heq; exact this.1
              apply hy
              rw [this]
              apply UInt8.toNat_inj.1
              rw [(helper_16 (v := UInt16.ofNat o.number - UInt16.ofNat prev) (by omega) (by omega)).2.1, hsub]
              simp; omega
        | some r2 =>
          obtain ⟨l, u2⟩ := r2
          rw [readRest_option hy e1 e2] at h
          simp only [heard, optsMeant, List.map_cons, Prod.mk.injEq, List.cons.injEq] at h
          obtain ⟨⟨⟨g1, g2, g3⟩, g4⟩, g5⟩ := h
          have g3' := of_decide_eq_true g3
          have gl : l % 65536 = o.value.length := by
            rw [← g2, List.length_take, Nat.min_eq_left g3']
          have gx : x % 65536 = o.number - prev := by
            have := congrArg UInt16.toNat g1
            simp at this; omega
          have s1 := (readExt_uses e1).2.2.2.2
          have s2 := (readExt_uses e2).2.2.2.2
          have hlen : u2.length < (o.value ++ rest).length := by
            obtain ⟨a, ha⟩ := hs'
            rcases List.append_eq_append_iff.1 ha with ⟨b, rfl, hb⟩ | ⟨b, rfl, hb⟩
            · cases b with
              | nil =>
                simp only [List.nil_append] at hb
                rw [← hb]
                have := s1.length_le; have := s2.length_le
                simp; omega
              | cons c b =>
                simp only [List.cons_append, List.cons.injEq] at hb
                obtain ⟨rfl, rfl⟩ := hb
                exact hS a y b _ rfl hy x u1 l u2 e1 gx e2 gl
            · rw [hb]
              have := s1.length_le; have := s2.length_le
              simp; omega
          refine hx (prev' + x) _ (u2.drop (l % 65536)) ?_ ?_ ?_ (Prod.ext g4 g5)
          · omega
          · have t1 : u2 <:+ tl ++ (o.value ++ rest) := (s2.trans (s1.trans (List.suffix_cons y u))).trans hs'
            have t2 : u2.drop (l % 65536) <:+ tl ++ (o.value ++ rest) := (List.drop_suffix _ _).trans t1
            have t3 : rest <:+ tl ++ (o.value ++ rest) := (List.suffix_append _ _).trans (List.suffix_append _ _)
            refine List.suffix_of_suffix_length_le t2 t3 ?_
            rw [List.length_drop]; simp at hlen; omega
          · rw [List.length_drop]; simp at hlen; omega

theorem Extent.nil (prev : Nat) : Extent prev [] [] := ⟨fun _ => rfl, by simp, fun _ => .nil, fun h => absurd trivial h, Later.nil prev⟩

theorem Extent.cons {prev : Nat} {o : Opt} {os : List Opt} {hdr ob : List UInt8} {q : OptEnc} {pos : UInt8}
    (h1 : prev ≤ o.number) (h2 : o.number < 65536) (h3 : o.value.length < 65536)
    (b3 : o.number - prev < 65266)
    (b4 : Emits ⟨UInt16.ofNat o.number, UInt16.ofNat o.value.length, []⟩ ⟨.firstByte, UInt16.ofNat prev, pos⟩ hdr q)
    (b5 : Encodable (o.number - prev) o.value.length → HdrOf hdr (o.number - prev) o.value.length)
    (hx : Extent o.number os ob) : Extent prev (o :: os) (hdr ++ o.value ++ ob) := by
  obtain ⟨c0, -, c2, c3, c4⟩ := hx
  refine ⟨by simp, fun _ => ?_, fun he => .cons h1 h2 h3 (b5 he.1) (c2 he.2), ?_, fun p => .cons h1 h2 h3 b3 b4 c0 p (c4 p)⟩
  · obtain ⟨t, rfl, -⟩ := b4.inv_byte (by simp) (o' := ⟨.firstByteDone, UInt16.ofNat prev, 0⟩) (by simp [generate]; rfl)
    simp
  intro hne prev' plen p hp
  by_cases he : Encodable (o.number - prev) o.value.length
  · have hne' : ¬ OptsEncodable o.number os := fun h => hne ⟨he, h⟩
    obtain ⟨w, e1, e2, rfl, hw, hr1, hr2⟩ := b5 he
    obtain ⟨x, hx, hxm⟩ := hr1 (e2 ++ (o.value ++ (ob ++ encPayload p)))
    obtain ⟨y, hy, hym⟩ := hr2 (o.value ++ (ob ++ encPayload p))
    have hlist : w :: (e1 ++ e2) ++ o.value ++ ob ++ encPayload p =
        w :: (e1 ++ (e2 ++ (o.value ++ (ob ++ encPayload p)))) := by simp
    rw [hlist, readRest_option hw hx hy, hym]
    intro h
    rw [List.drop_left' rfl] at h
    simp only [heard, optsMeant, List.map_cons, Prod.mk.injEq, List.cons.injEq] at h
    refine c3 hne' (prev' + x) o.value.length p (by omega) ?_
    simp only [heard, optsMeant, Prod.mk.injEq]
    exact ⟨h.1.2, h.2⟩
  · have hsub := sub_ofNat h1 h2
    have hlm : (UInt16.ofNat o.value.length).toNat = o.value.length := by simp; omega
    obtain ⟨w, t, rfl, hw, hR, hB⟩ := bad_header ⟨UInt16.ofNat o.number, UInt16.ofNat o.value.length, []⟩
      (UInt16.ofNat prev) pos hdr q (by simp only [hsub]; exact b3) (by simp only [hsub, hlm]; exact he) b4
    simp only [hlm] at hB
    have h13 : 13 ≤ o.value.length := by
      apply Decidable.byContradiction; intro h; exact he ⟨b3, Or.inl (by omega)⟩
    rw [List.append_assoc (w :: _ ++ o.value)]
    refine bad_option hB hw hR rfl h13 prev' plen o.number h2 os p ?_ (c4 p)
    intro hos
    rw [c0 hos]; rfl

theorem opts_extent (os : List Opt) : ∀ (prev : Nat) (s s' : SEnc), OptsOk prev os →
    s.oe.current = UInt16.ofNat prev →
    writeOpts s os = .ok (s', true) → s'.out.length < s.cap →
    ∃ ob, s'.out = s.out ++ ob ∧ Extent prev os ob := by
  induction os with
  | nil =>
    intro prev s s' _ _ h _
    simp only [writeOpts, Except.ok.injEq, Prod.mk.injEq, and_true] at h; subst h
    exact ⟨[], by simp, .nil prev⟩
  | cons o os ih =>
    intro prev s s' hok hcur h hroom
    obtain ⟨h1, h2, h3, h4⟩ := hok
    rw [writeOpts] at h
    cases ho : s.option (UInt16.ofNat o.number) o.value with
    | error e => rw [ho] at h; cases h
    | ok r =>
      obtain ⟨s1, ok⟩ := r
      rw [ho] at h
      cases ok with
      | false => simp at h
      | true =>
        simp only at h
        obtain ⟨a1, a2⟩ := option_appends _ _ _ _ ho
        obtain ⟨a3, a4⟩ := writeOpts_appends os _ _ h
        have hroom1 : s1.out.length < s.cap := by have := a4.length_le; omega
        obtain ⟨hdr, b1, b2, b3, ⟨q, pos, b4⟩, b5⟩ := option_uncut prev o.number o.value h1 h2 h3 s s1 hcur ho hroom1
        obtain ⟨ob, c1, c2⟩ := ih o.number s1 s' h4 b2 h (by rw [a1]; exact hroom)
        exact ⟨hdr ++ o.value ++ ob, by rw [c1, b1]; simp, .cons h1 h2 h3 b3 b4 b5 c2⟩

theorem putn_uncut (s : SEnc) (bs : List UInt8) (h : (s.putn bs).1.out.length < s.cap) :
    (s.putn bs).1 = { s with out := s.out ++ bs } := by
  have : bs.take s.room = bs := by
    apply List.take_of_length_le
    simp only [putn, List.length_append, List.length_take] at h
    unfold room at h ⊢; omega
  simp only [putn, this]

theorem putc_appends (s : SEnc) (b : UInt8) : (s.putc b).1.cap = s.cap ∧ s.out <+: (s.putc b).1.out := by
  unfold putc; split <;> simp

theorem putn_appends (s : SEnc) (bs : List UInt8) : (s.putn bs).1.cap = s.cap ∧ s.out <+: (s.putn bs).1.out := by
  simp [putn]

theorem writePayload_uncut (s : SEnc) (p : Option (List UInt8)) (h : (writePayload s p).out.length < s.cap) :
    (writePayload s p).out = s.out ++ encPayload p := by
  cases p with
  | none => simp [writePayload, encPayload]
  | some p =>
    simp only [writePayload, payloadMarker] at h ⊢
    obtain ⟨a1, a2⟩ := putc_appends s 0xFF
    obtain ⟨b1, b2⟩ := putn_appends (s.putc 0xFF).1 p
    have hl : (s.putc 0xFF).1.out.length < s.cap := by have := b2.length_le; omega
    rw [putn_uncut _ _ (by rw [a1]; exact h)]
    have hc : s.out.length < s.cap := by have := a2.length_le; omega
    simp [putc, hc, encPayload]

theorem writePayload_appends (s : SEnc) (p : Option (List UInt8)) : s.out <+: (writePayload s p).out := by
  cases p with
  | none => exact List.prefix_rfl
  | some p => exact (putc_appends s 0xFF).2.trans (putn_appends (s.putc 0xFF).1 p).2

/-- The option reports among the events. -/
def optEvents (evs : List Event) : List (UInt16 × List UInt8 × Bool) :=
  evs.filterMap fun e => match e with | .option n v l => some (n, v, l) | _ => none

/-- The payload reports among the events. -/
def payEvents (evs : List Event) : List (List UInt8) :=
  evs.filterMap fun e => match e with | .payload p _ => some p | _ => none

theorem report_heard {b0 b1 b2 b3 : UInt8} {tok rest : List UInt8} {m : Msg}
    (h : reportOf b0 b1 b2 b3 tok rest = delivery m) : heard (readRest 0 0 rest) = optsMeant m.opts m.payload := by
  have ho := congrArg optEvents h
  have hp := congrArg payEvents h
  simp only [reportOf, delivery, optEvents, payEvents, List.filterMap_append, List.filterMap_map] at ho hp
  generalize readRest 0 0 rest = r at ho hp
  obtain ⟨is, p⟩ := r
  simp only [heard, optsMeant, Prod.mk.injEq]
  have hnone : ∀ {α : Type} (l : List α), l.filterMap (fun _ => (none : Option (List UInt8))) = [] := by simp
  cases p <;> cases hm : m.payload <;> rw [hm] at ho hp <;> simp [Function.comp_def] at ho hp <;>
    simp [hnone] at hp
  · exact ⟨ho, rfl⟩
  · exact ⟨ho, by rw [hp]⟩

theorem extent_decoded (m : Msg) (hm : m.Ok) (ob : List UInt8) (hx : Extent 0 m.opts ob) (junk : Dec) (hj : junk.tbuf.length = 8)
    (hst : junk.opt.st ≠ .payload ∨ m.token ≠ [] ∨ m.opts ≠ [] ∨ m.payload ≠ none) :
    (∃ N d' c', ∀ fuel, N ≤ fuel → Dec.processToDone fuel (Dec.fresh junk) ⟨wire m ob, 0, true⟩ = .ok (d', c', delivery m)) ↔
      OptsEncodable 0 m.opts := by
  obtain ⟨-, c0, c2, c3, -⟩ := hx
  constructor
  · rintro ⟨N, d', c', hd⟩
    apply Decidable.byContradiction
    intro hne
    have h2 := c3 hne 0 0 m.payload rfl
    obtain ⟨m1, m2, m3, m4, m5, m6, m7⟩ := hm
    have hb0 : (UInt8.ofNat (64 * m.version + 16 * m.type + m.token.length) &&& 0x0F).toNat = m.token.length := by
      rw [tkl_toNat]; simp; omega
    obtain ⟨N', d2, c2', -, hd2⟩ := any_bytes_reported junk hj (UInt8.ofNat (64 * m.version + 16 * m.type + m.token.length))
      (UInt8.ofNat m.code) (UInt8.ofNat (m.mid / 256)) (UInt8.ofNat (m.mid % 256)) m.token (ob ++ encPayload m.payload)
      hb0.symm m5 (by
        by_cases hp : m.payload = none
        · by_cases ho' : m.opts = []
          · exfalso; rw [ho'] at hne; exact hne trivial
          · refine Or.inr (Or.inr ?_)
            exact fun h => c0 ho' (List.append_eq_nil_iff.1 h).1
        · obtain ⟨p, hp⟩ := Option.ne_none_iff_exists'.1 hp
          exact Or.inr (Or.inr (by rw [hp]; simp [encPayload])))
    have e1 := hd (N + N') (by omega)
    have e2 := hd2 (N + N') (by omega)
    have hwl : wire m ob = UInt8.ofNat (64 * m.version + 16 * m.type + m.token.length) :: UInt8.ofNat m.code ::
        UInt8.ofNat (m.mid / 256) :: UInt8.ofNat (m.mid % 256) :: (m.token ++ (ob ++ encPayload m.payload)) := by
      simp [wire, encHeader]
    rw [hwl, e2] at e1
    simp only [Except.ok.injEq, Prod.mk.injEq] at e1
    exact h2 (report_heard e1.2.2)
  · intro he
    obtain ⟨N, d', -, h1, h2⟩ := wire_delivered_partial m hm ob (c2 he) junk hj hst
    exact ⟨N, d', _, h2⟩

/-- C22 with its exact extent: a message that was written completely, with success reported and the buffer not
full, decodes to the same header, token, options and payload if and only if every delta and value length is
one of `Encodable`.  So no message with an option value of 13 bytes or more survives, except the few lengths of
`Encodable`. -/
theorem stream_round_trip_iff_partial (m : Msg) (hm : m.Ok)
    (h : Header) (hh : fields h.b0 h.b1 h.b2 h.b3 = ⟨m.version, m.type, m.token.length, m.code, m.mid⟩)
    (cap : Nat) (s' : SEnc) (hw : writeMsg (SEnc.init cap) h m.token m.opts m.payload = .ok (s', true))
    (hroom : s'.out.length < cap) (junk : Dec) (hj : junk.tbuf.length = 8)
    (hst : junk.opt.st ≠ .payload ∨ m.token ≠ [] ∨ m.opts ≠ [] ∨ m.payload ≠ none) :
    (∃ N d' c', ∀ fuel, N ≤ fuel → Dec.processToDone fuel (Dec.fresh junk) ⟨s'.out, 0, true⟩ = .ok (d', c', delivery m)) ↔
      OptsEncodable 0 m.opts := by
  have hhb := header_bytes m hm h hh
  -- what was written
  rw [writeMsg] at hw
  cases ho : writeOpts (((SEnc.init cap).header h).token m.token) m.opts with
  | error e => rw [ho] at hw; cases hw
  | ok r =>
    obtain ⟨s1, ok⟩ := r
    rw [ho] at hw
    cases ok with
    | false => simp at hw
    | true =>
      simp only [Except.ok.injEq, Prod.mk.injEq, and_true] at hw
      subst hw
      obtain ⟨a1, a2⟩ := putn_appends (SEnc.init cap) [h.b0, h.b1, h.b2, h.b3]
      obtain ⟨a3, a4⟩ := putn_appends ((SEnc.init cap).header h) m.token
      obtain ⟨a5, a6⟩ := writeOpts_appends m.opts _ _ ho
      have a7 := writePayload_appends s1 m.payload
      have hcap1 : s1.cap = cap := by rw [a5, SEnc.token, a3, SEnc.header, a1]; rfl
      have l1 := a2.length_le
      have l3 := a4.length_le
      have l5 := a6.length_le
      have l7 := a7.length_le
      have hh1 : (SEnc.init cap).header h = ⟨OptEnc.init, encHeader m, cap⟩ := by
        rw [SEnc.header, putn_uncut _ _ (by
          simp only [SEnc.header, SEnc.token] at l3 l5; simp only [SEnc.init] at *; omega), hhb]
        simp [SEnc.init]
      have hh2 : SEnc.token ⟨OptEnc.init, encHeader m, cap⟩ m.token = ⟨OptEnc.init, encHeader m ++ m.token, cap⟩ := by
        rw [hh1] at l5
        rw [SEnc.token, putn_uncut _ _ (by simp only [SEnc.token] at l5; simp only; omega)]
      rw [hh1, hh2] at ho
      obtain ⟨ob, c1, c2⟩ := opts_extent m.opts 0 _ s1 hm.2.2.2.2.2.1 rfl ho (by simp only; omega)
      rw [writePayload_uncut s1 m.payload (by rw [hcap1]; exact hroom), c1]
      have hwire : encHeader m ++ m.token ++ ob ++ encPayload m.payload = wire m ob := rfl
      rw [hwire]
      exact extent_decoded m hm ob c2 junk hj hst

-- a message that survives and one that does not; both are written, with room to spare
example : streamSample.Ok ∧ OptsEncodable 0 streamSample.opts ∧
    ∃ s', writeMsg (SEnc.init 100) ⟨0x42, 1, 0x12, 0x34⟩ streamSample.token streamSample.opts streamSample.payload = .ok (s', true) ∧
      s'.out.length < 100 :=
  ⟨by decide, by decide, _, by rfl, by decide +kernel⟩
example : longPathMsg.Ok ∧ ¬ OptsEncodable 0 longPathMsg.opts ∧
    ∃ s', writeMsg (SEnc.init 1000) ⟨0x40, 1, 0, 1⟩ longPathMsg.token longPathMsg.opts longPathMsg.payload = .ok (s', true) ∧
      s'.out.length < 1000 :=
  ⟨by decide, by decide, ⟨⟨.optionLengthDone, 11, 0⟩, [0x40, 1, 0, 1, 0xBD, 0] ++ List.replicate 254 0xFF ++ [13] ++
    List.replicate 13 0x61, 1000⟩, by decide +kernel, by decide +kernel⟩

end Verif.Props
