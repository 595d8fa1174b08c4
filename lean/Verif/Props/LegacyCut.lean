import Verif.Props.AggregateUri

/-! # The older dispatch when a buffer ends inside an option value (C47, C53, C55) -/
namespace Verif.Props
open Verif.Model Verif.Model.Dispatch Verif.Proofs Verif.Proofs.Route Verif.Spec Header Dec

/-- Forget the announced length. -/
def forget : LEvent → LEvent
  | .option n _ => .option n 0
  | e => e

/-- Calls of the older observer, lengths forgotten, corresponding to an event of the newer one. -/
def trTwo : Event → List LEvent
  | .header h => [.header h]
  | .token t => if t = [] then [] else [.token t true]
  | .option n v l => .option n 0 :: (if v = [] then [] else [.value n v l])
  | .payload p true => [.payload p true, .complete]
  | _ => []

theorem lnote_note_forget (d : Dec) (r : List UInt8) (hl : LInv d) (hh : HOK d r) (hb : d.tbuf.length = 8) (hp : d.st ≠ .payload)
    (hr : r ≠ [] ∨ ¬(d.st = .options ∧ d.opt.st = .valueStart)) :
    (lnote d r).map forget = (note d r true).flatMap trTwo := by
  cases hs : d.st <;> simp only [lnote, note, notify, hs]
  case headerDone => rfl
  case tokenDone =>
    have h8 : d.hdr.tokenLength.toNat ≤ 8 := by simpa [HOK, hs] using hh
    have h9 : d.hdr.tokenLength.toNat ≤ d.tbuf.length := by omega
    simp only [h9, if_true]
    by_cases h0 : d.hdr.tokenLength = 0
    · simp [h0, trTwo]
    · have h1 : 0 < d.hdr.tokenLength.toNat := Nat.pos_of_ne_zero fun h => h0 (UInt8.toNat_inj.1 h)
      have h2 : d.tbuf.take d.hdr.tokenLength.toNat ≠ [] := by
        intro h; have := congrArg List.length h; simp only [List.length_take, List.length_nil] at this; omega
      simp only [h0, if_false, List.flatMap_cons, List.flatMap_nil, List.append_nil, trTwo, h2, List.map_cons, List.map_nil, forget]
  case options =>
    by_cases ho : d.opt.st = .valueStart
    · have hne : r ≠ [] := by
        rcases hr with h | h
        · exact h
        · exact absurd ⟨hs, ho⟩ h
      have hL : d.holder.length = d.opt.length := by have := hl.2.1 hs; simpa [ho] using this
      simp only [ho, beq_self_eq_true, if_true, hL]
      by_cases h0 : d.opt.length = 0
      · simp [h0, trTwo, forget]
      · have h1 : 0 < d.opt.length.toNat := Nat.pos_of_ne_zero fun h => h0 (UInt16.toNat_inj.1 h)
        have hgt : d.opt.length > 0 := by rw [gt_iff_lt, UInt16.lt_iff_toNat_lt]; exact h1
        simp only [hgt, if_true, h0, if_false, optionValue, Ctx.remainder, List.drop_zero]
        by_cases hle : d.opt.length.toNat ≤ r.length
        · have h2 : r.take d.opt.length.toNat ≠ [] := by
            intro h; have := congrArg List.length h; simp only [List.length_take, List.length_nil] at this; omega
          simp [hle, trTwo, h2, forget]
        · have h3 : r.take d.opt.length.toNat = r := List.take_of_length_le (by omega)
          simp [hle, trTwo, h3, forget, hne]
    · simp [ho]
  case payload => exact absurd hs hp
  all_goals rfl

theorem lfeed_feed_forget (n : Nat) : ∀ (d : Dec) (r : List UInt8), meas d r < n → r ≠ [] → Going d → LInv d → HOK d r →
    d.tbuf.length = 8 → ((feed true d r).2.1.st = .options ∧ (feed true d r).2.1.opt.st = .optionValue) → (feed true d r).2.2 = [] →
    (lfeed d r).map forget = (lnote d r).map forget ++ (feed true d r).1.flatMap trTwo := by
  induction n with
  | zero => intro d r hm; exact absurd hm (Nat.not_lt_zero _)
  | succ n ih =>
    intro d r hm hr hg hl hh hb hend hemp
    obtain ⟨b, bs, rfl⟩ := List.exists_cons_of_ne_nil hr
    obtain ⟨d1, c, hmc⟩ : ∃ d1 c, micro d b = (d1, c) := ⟨_, _, rfl⟩
    have hl1 := micro_linv d b hl
    have hh1 := micro_hok d b bs hl.2.2.1 hh
    have hb1 := micro_tbuf d b
    have hg1 := micro_going d b hg
    rw [hmc] at hl1 hh1 hb1 hg1
    rw [hb] at hb1
    have hf := feed_cons true d b bs hg d1 c hmc
    rw [lfeed_cons d b bs hg d1 c hmc]
    rw [hf] at hend hemp ⊢
    simp only [] at hend hemp ⊢
    have hm1 : meas d1 (if c then bs else b :: bs) < n := by
      cases c
      · have := micro_rank d b (by rw [hmc])
        rw [hmc] at this
        simp only [] at this
        simp only [meas, Bool.false_eq_true, if_false] at hm ⊢
        omega
      · have := drank_le d1
        simp only [meas, if_true, List.length_cons] at hm ⊢
        omega
    simp only [] at hg1 hh1
    generalize hr1 : (if c = true then bs else b :: bs) = r1 at *
    have hh1' : HOK d1 r1 := hh1
    rcases hg1 with hg1 | ⟨hp, hc⟩
    · have hnp : d1.st ≠ .payload := fun h => hg1 (Or.inl h)
      by_cases hr1' : r1 = []
      · subst hr1'
        rw [feed_nil] at hend
        have hn := lnote_note_forget d1 [] hl1 hh1' hb1 hnp (Or.inr (by simp at hend; simp [hend]))
        have h0 : lnote d1 [] = [] := by simp at hend; simp [lnote, hend]
        rw [h0, List.map_nil] at hn
        simp [feed_nil, lfeed_nil, ← hn]
      · have hn := lnote_note_forget d1 r1 hl1 hh1' hb1 hnp (Or.inl hr1')
        have := ih d1 r1 hm1 hr1' hg1 hl1 hh1' hb1 hend hemp
        rw [List.map_append, this, List.flatMap_append, hn]
    · rw [feed_stop _ _ _ (by simp [Going, hp])] at hend
      simp [hp] at hend

/-- The number the next option counts from. -/
def countedFrom (prev : Nat) : List Opt → Nat
  | [] => prev
  | o :: os => countedFrom o.number os

theorem options_cut_feed (os : List Opt) (prev : Nat) (ob hdr a : List UInt8) (n len : Nat) (hob : IsOpts prev os ob)
    (hn : countedFrom prev os ≤ n) (hn' : n < 65536) (hh : HdrOf hdr (n - countedFrom prev os) len) (ha : a ≠ []) (hlt : a.length < len)
    (hlen : len < 65536) : ∀ d : Dec, d.st = .options → Ready d.opt → d.holder.number = UInt16.ofNat prev →
    ∃ d', d'.st = .options ∧ d'.opt.st = .optionValue ∧
      feed true d (ob ++ (hdr ++ a)) = (optEvents os ++ [.option (UInt16.ofNat n) a false], d', []) := by
  induction hob with
  | @nil prev =>
    intro d hds hr hd
    simp only [countedFrom] at hn hh
    obtain ⟨o1, q, he⟩ := header_wire d.opt d.holder hdr (n - prev) len a hr hh
    have hnum : d.holder.number + UInt16.ofNat (n - prev) = UInt16.ofNat n := by
      rw [hd]; apply UInt16.toNat_inj.1; simp [UInt16.toNat_add]; omega
    obtain ⟨o', h1, h2⟩ := hend_cut true
      { d with opt := o1, holder := ⟨d.holder.number + UInt16.ofNat (n - prev), UInt16.ofNat len⟩ } a len hds he rfl ha
      (by rw [Nat.mod_eq_of_lt hlen]; exact hlt)
    refine ⟨{ d with opt := o', holder := ⟨d.holder.number + UInt16.ofNat (n - prev), UInt16.ofNat len⟩ }, hds, h1, ?_⟩
    rw [List.nil_append, q.1 d true hds rfl rfl, h2]
    simp only [optEvents, List.map_nil, List.nil_append, hnum]
  | @cons prev o os hdr' ob h1 h2 h3 hh' h4 ih =>
    intro d hds hr hd
    obtain ⟨o1, g1, g2⟩ := wire_option_feed true d hdr' (o.number - prev) o.value (ob ++ (hdr ++ a)) hds hr
      hh' h3 (by simp [ha])
    have hnum : d.holder.number + UInt16.ofNat (o.number - prev) = UInt16.ofNat o.number := by
      rw [hd]; apply UInt16.toNat_inj.1; simp [UInt16.toNat_add]; omega
    obtain ⟨d', k1, k2, k3⟩ := ih hn hh
      { d with opt := o1, holder := ⟨d.holder.number + UInt16.ofNat (o.number - prev), UInt16.ofNat o.value.length⟩ }
      hds (Or.inr g1) hnum
    refine ⟨d', k1, k2, ?_⟩
    rw [List.append_assoc (_ ++ _), g2, k3, hnum]
    simp [optEvents]

/-- The header as decoded. -/
def hdrOf (m : Msg) : Header := ⟨UInt8.ofNat (64 * m.version + 16 * m.type + m.token.length), UInt8.ofNat m.code,
  UInt8.ofNat (m.mid / 256), UInt8.ofNat (m.mid % 256)⟩

/-- What the newer decoder makes of a buffer ending inside an option value. -/
theorem cut_feed (m : Msg) (hm : m.Ok) (os : List Opt) (ob hdr a : List UInt8) (n len : Nat)
    (hob : IsOpts 0 os ob) (hn : countedFrom 0 os ≤ n) (hn' : n < 65536)
    (hh : HdrOf hdr (n - countedFrom 0 os) len) (ha : a ≠ []) (hlt : a.length < len) (hlen : len < 65536) (junk : Dec) (hj : junk.tbuf.length = 8) :
    HOK (fresh junk) (encHeader m ++ m.token ++ (ob ++ (hdr ++ a))) ∧
    ∃ d, d.st = .options ∧ d.opt.st = .optionValue ∧ feed true (fresh junk) (encHeader m ++ m.token ++ (ob ++ (hdr ++ a))) =
      ([.header (hdrOf m), .token m.token, .optionStart] ++ optEvents os ++ [.option (UInt16.ofNat n) a false], d, []) := by
  obtain ⟨h1, h2, h3, h4, h5, -, -⟩ := hm
  generalize hb0 : UInt8.ofNat (64 * m.version + 16 * m.type + m.token.length) = b0
  have htk : (b0 &&& 0x0F).toNat = m.token.length := by
    have : (b0 &&& 0x0F).toNat = b0.toNat % 16 := by
      rw [UInt8.toNat_and]; exact Nat.and_two_pow_sub_one_eq_mod b0.toNat 4
    rw [this, ← hb0, UInt8.toNat_ofNat']; omega
  have henc : encHeader m ++ m.token ++ (ob ++ (hdr ++ a)) = b0 :: UInt8.ofNat m.code :: UInt8.ofNat (m.mid / 256) ::
      UInt8.ofNat (m.mid % 256) :: (m.token ++ (ob ++ (hdr ++ a))) := by simp [encHeader, hb0]
  rw [henc]
  refine ⟨?_, ?_⟩
  · show ∀ b ∈ _, _
    rintro b ⟨⟩
    rw [htk]; exact h5
  rw [header_feed true (fresh junk) _ _ _ _ _ rfl]
  have hH : (⟨b0, UInt8.ofNat m.code, UInt8.ofNat (m.mid / 256), UInt8.ofNat (m.mid % 256)⟩ : Header) = hdrOf m := by
    simp [hdrOf, hb0]
  rw [hH]
  have hHt : (hdrOf m).tokenLength.toNat = m.token.length := by rw [← hH]; exact htk
  have hne : ob ++ (hdr ++ a) ≠ [] := by simp [ha]
  have after : ∀ d2 : Dec, d2.st = .tokenDone → ∃ d, d.st = .options ∧ d.opt.st = .optionValue ∧
      feed true d2 (ob ++ (hdr ++ a)) = (.optionStart :: (optEvents os ++ [.option (UInt16.ofNat n) a false]), d, []) := by
    intro d2 hs2
    obtain ⟨d', k1, k2, k3⟩ := options_cut_feed os 0 ob hdr a n len hob hn hn' hh ha hlt hlen
      { d2 with st := .options, opt := { d2.opt with st := .firstByte }, holder := ⟨0, 0⟩ } rfl (Or.inl rfl) rfl
    exact ⟨d', k1, k2, by rw [start_feed true d2 _ hs2 hne, k3]⟩
  by_cases htn : m.token = []
  · rw [htn, List.length_nil] at hHt
    rw [htn, List.nil_append]
    obtain ⟨d, k1, k2, k3⟩ := after { ({ fresh junk with st := .headerDone, hdr := hdrOf m, hpos := 4 } : Dec) with st := .tokenDone } rfl
    refine ⟨d, k1, k2, ?_⟩
    rw [token_feed_empty true _ _ rfl hHt hne, k3]
    simp
  · obtain ⟨d2, e1, e2, e3, e4, e5⟩ := token_feed true m.token { fresh junk with st := .headerDone, hdr := hdrOf m, hpos := 4 }
      (ob ++ (hdr ++ a)) rfl htn hHt h5 hj
    obtain ⟨d, k1, k2, k3⟩ := after d2 e1
    refine ⟨d, k1, k2, ?_⟩
    rw [e5, k3]
    simp

/-- Calls none of which is a part of something. -/
def Whole (es : List LEvent) : Prop := ∀ e ∈ es, (∀ n p, e ≠ .value n p false) ∧ ∀ p, e ≠ .payload p false

theorem whole_glue : ∀ (es : List LEvent), Whole es → ∀ Z, es.foldr glueCons Z = es ++ Z
  | [], _, Z => rfl
  | e :: es, h, Z => by
    have ih := whole_glue es (fun x hx => h x (List.mem_cons_of_mem _ hx)) Z
    obtain ⟨h1, h2⟩ := h e List.mem_cons_self
    rw [List.foldr_cons, ih]
    unfold glueCons
    split
    · exact absurd rfl (h1 _ _)
    · exact absurd rfl (h2 _)
    · rfl

theorem glue_part {n : UInt16} {a v : List UInt8} {X R : List LEvent} (h : glueCons (.value n a false) X = .value n (a ++ v) true :: R) :
    X = .value n v true :: R := by
  cases X with
  | nil => simp [glueCons] at h
  | cons x X =>
    cases x with
    | value k c l =>
      simp only [glueCons] at h
      by_cases hk : n = k
      · rw [if_pos hk] at h
        simp only [List.cons.injEq, LEvent.value.injEq, true_and, List.append_cancel_left_eq] at h
        rw [← hk, h.1.1, h.1.2, h.2]
      · rw [if_neg hk] at h; simp at h
    | _ => simp [glueCons] at h

theorem complete_glue : ∀ (es X : List LEvent), LEvent.complete ∈ X → LEvent.complete ∈ es.foldr glueCons X
  | [], _, h => h
  | _ :: es, X, h => mem_glueCons (Or.inr (complete_glue es X h))

/-- The calls about the beginning of a message up to these options. -/
def headCalls (m : Msg) (os : List Opt) : List LEvent :=
  .header (hdrOf m) :: ((if m.token = [] then [] else [.token m.token true]) ++ os.flatMap owedOption)

theorem headCalls_whole (m : Msg) (os : List Opt) : Whole (headCalls m os) := by
  intro e he
  simp only [headCalls, List.mem_cons, List.mem_append, List.mem_flatMap, owedOption] at he
  rcases he with rfl | he | ⟨o, -, rfl | he⟩
  · simp
  · split at he
    · simp at he
    · simp only [List.mem_cons, List.not_mem_nil, or_false] at he; subst he; simp
  · simp
  · split at he
    · simp at he
    · simp only [List.mem_cons, List.not_mem_nil, or_false] at he; subst he; simp

theorem butTrailing_behind (l : List LEvent) (n : UInt16) (v : List UInt8) (Y : List LEvent) :
    butTrailing (l ++ .value n v true :: Y) = l ++ .value n v true :: butTrailing Y := by
  rcases List.eq_nil_or_concat Y with rfl | ⟨Y', y, rfl⟩
  · simp [butTrailing]
  · rw [List.concat_eq_append]
    have h1 : (l ++ .value n v true :: (Y' ++ [y])).getLast? = some y := by simp [List.getLast?_append, List.getLast?_cons]
    have h2 : (Y' ++ [y]).getLast? = some y := by simp
    have h3 : (l ++ .value n v true :: (Y' ++ [y])).dropLast = l ++ .value n v true :: Y' := by
      have : l ++ LEvent.value n v true :: (Y' ++ [y]) = (l ++ .value n v true :: Y') ++ [y] := by simp
      rw [this, List.dropLast_concat]
    simp only [butTrailing, h1, h2, h3, List.dropLast_concat]
    split <;> rfl

/-- The calls about what follows an option: the later options, the payload, the end. -/
def tailCalls (m : Msg) (os : List Opt) : List LEvent :=
  match m.payload with
  | none => butTrailing (os.flatMap owedOption)
  | some p => os.flatMap owedOption ++ [.payload p true, .complete]

theorem whole_calls (m : Msg) (os0 os1 : List Opt) (n : Nat) (v : List UInt8) (hv : v ≠ []) (ho : m.opts = os0 ++ ⟨n, v⟩ :: os1) :
    (if m.payload = none then butTrailing (owedHead m) else owed m) =
      headCalls m os0 ++ .option (UInt16.ofNat n) (UInt16.ofNat v.length) :: .value (UInt16.ofNat n) v true :: tailCalls m os1 := by
  have hhead : owedHead m = (headCalls m os0 ++ [.option (UInt16.ofNat n) (UInt16.ofNat v.length)]) ++
      .value (UInt16.ofNat n) v true :: os1.flatMap owedOption := by
    simp only [owedHead, ho, headCalls, List.flatMap_append, List.flatMap_cons, owedOption, hv, if_false, hdrOf]
    simp
  cases hp : m.payload with
  | none =>
    rw [if_pos rfl, hhead, butTrailing_behind]
    simp [tailCalls, hp]
  | some p =>
    rw [if_neg (by simp), owed, hhead, hp]
    simp [tailCalls, hp]

theorem isOpts_behind (os : List Opt) (o : Opt) (os1 : List Opt) (hdr ob1 : List UInt8) : ∀ (prev : Nat) (ob : List UInt8), IsOpts prev os ob →
    countedFrom prev os ≤ o.number → o.number < 65536 → o.value.length < 65536 → HdrOf hdr (o.number - countedFrom prev os) o.value.length →
    IsOpts o.number os1 ob1 → IsOpts prev (os ++ o :: os1) (ob ++ (hdr ++ o.value ++ ob1)) := by
  intro prev ob h
  induction h with
  | nil => intro h1 h2 h3 h4 h5; exact .cons h1 h2 h3 h4 h5
  | @cons prev x os hdr' ob h1 h2 h3 hh h4 ih =>
    intro g1 g2 g3 g4 g5
    have := IsOpts.cons h1 h2 h3 hh (ih g1 g2 g3 g4 g5)
    simpa using this

/-- The bytes of a message up to a place inside the value of an option: the options before it (`ob`), the header of
that option, the first part of its value. -/
def uptoPart (m : Msg) (ob hdr a : List UInt8) : List UInt8 := encHeader m ++ m.token ++ (ob ++ (hdr ++ a))

/-- C47: when a buffer ends inside an option value, the observer gets the option's number and length once, the first
part of the value marked unfinished, and with the next buffer the second part marked as the last one; all other
calls are those for the message in one buffer. -/
theorem legacy_cut_value (m : Msg) (hm : m.Ok) (os0 os1 : List Opt) (n : Nat) (a b : List UInt8) (ha : a ≠ []) (hb : b ≠ [])
    (ho : m.opts = os0 ++ ⟨n, a ++ b⟩ :: os1) (ob0 hdr ob1 : List UInt8) (h0 : IsOpts 0 os0 ob0)
    (hn : countedFrom 0 os0 ≤ n) (hn' : n < 65536) (hlen : (a ++ b).length < 65536) (hh : HdrOf hdr (n - countedFrom 0 os0) (a ++ b).length)
    (h1 : IsOpts n os1 ob1) (junk : Dec) (hj : junk.tbuf.length = 8) :
    ∃ N d', ∀ fuel, N ≤ fuel →
      legacyChunks fuel (fresh junk) [uptoPart m ob0 hdr a] (b ++ ob1 ++ encPayload m.payload) =
        .ok (d', headCalls m os0 ++ .option (UInt16.ofNat n) (UInt16.ofNat (a ++ b).length) ::
          .value (UInt16.ofNat n) a false :: .value (UInt16.ofNat n) b true :: tailCalls m os1) := by
  have hob := isOpts_behind os0 ⟨n, a ++ b⟩ os1 hdr ob1 0 ob0 h0 hn hn' hlen hh h1
  rw [← ho] at hob
  have hw : wire m (ob0 ++ (hdr ++ (a ++ b) ++ ob1)) = uptoPart m ob0 hdr a ++ (b ++ ob1 ++ encPayload m.payload) := by
    simp [wire, uptoPart]
  have hX : lfeed (fresh junk) (uptoPart m ob0 hdr a ++ (b ++ ob1 ++ encPayload m.payload)) =
      headCalls m os0 ++ .option (UInt16.ofNat n) (UInt16.ofNat (a ++ b).length) ::
        .value (UInt16.ofNat n) (a ++ b) true :: tailCalls m os1 := by
    rw [← whole_calls m os0 os1 n (a ++ b) (by simp [ha]) ho, ← hw]
    by_cases hp : m.payload = none
    · rw [if_pos hp]; exact (lfeed_nopayload m hm _ hob junk hj hp).1
    · rw [if_neg hp]; exact lfeed_payload_message m hm _ hob junk hj hp
  have hHok : HOK (fresh junk) (uptoPart m ob0 hdr a ++ (b ++ ob1 ++ encPayload m.payload)) := by
    rw [← hw]
    by_cases hp : m.payload = none
    · exact (lfeed_nopayload m hm _ hob junk hj hp).2
    · exact (wire_chunkEnd m hm _ hob junk hj (Or.inr (Or.inr (Or.inr hp)))).2.1
  obtain ⟨hk, d0, hd1, hd2, hfeed⟩ := cut_feed m hm os0 ob0 hdr a n (a ++ b).length h0 hn hn' hh ha
    (by have := List.length_pos_iff.2 hb; simp only [List.length_append]; omega) hlen junk hj
  change HOK (fresh junk) (uptoPart m ob0 hdr a) at hk
  change feed true (fresh junk) (uptoPart m ob0 hdr a) = _ at hfeed
  generalize hl2 : b ++ ob1 ++ encPayload m.payload = l2 at *
  have hl2ne : l2 ≠ [] := by rw [← hl2]; simp [hb]
  have hc1ne : uptoPart m ob0 hdr a ≠ [] := by simp [uptoPart, ha]
  generalize hc1 : uptoPart m ob0 hdr a = c1 at *
  obtain ⟨a1, a2, a3, a4, a5⟩ := fresh_left junk hj c1 hk
  have hr : (⟨c1, 0, false⟩ : Ctx).remainder = c1 := rfl
  have hi : DInv (fresh junk) ⟨c1, 0, false⟩ :=
    ⟨by simp, hj, by simp [fresh], by simp [fresh], by simp [fresh], by simp [fresh], by simp [fresh], by simp [fresh]⟩
  have hgo : Going (fresh junk) := by simp [Going, fresh]
  -- with nothing to come
  obtain ⟨N1, d1, evs1, X1, hrun1, hX1, -, hl1⟩ := legacy_chunk _ (fresh junk) ⟨c1, 0, false⟩ [] (lfeed (fresh junk) c1) (Nat.lt_succ_self _)
    (by simpa [hr] using a1) a4 hi (by simpa [hr] using a3) (by simp) (Or.inl ⟨hc1ne, hgo⟩)
  obtain ⟨k1, k2, k3⟩ := hl1 rfl
  -- with the rest to come
  obtain ⟨b1, b2, b3, b4, b5⟩ := fresh_left junk hj (c1 ++ l2) hHok
  obtain ⟨N2, d2, evs2, X2, hrun2, hX2, -, hl2'⟩ := legacy_chunk _ (fresh junk) ⟨c1, 0, false⟩ l2 (lfeed (fresh junk) (c1 ++ l2)) (Nat.lt_succ_self _)
    (by rw [hr]; exact b1) a4 hi (by rw [hr]; exact hHok) (by simp) (Or.inl ⟨hc1ne, hgo⟩)
  obtain ⟨g1, g2, g3⟩ := hl2' rfl
  have hsame := (hrun1 (max N1 N2) (by omega)).symm.trans (hrun2 (max N1 N2) (by omega))
  simp only [Except.ok.injEq, Prod.mk.injEq, true_and] at hsame
  obtain ⟨rfl, rfl⟩ := hsame
  have hev := lfeed_feed_forget _ (fresh junk) c1 (Nat.lt_succ_self _) hc1ne hgo a4 hk hj (by rw [hfeed]; exact ⟨hd1, hd2⟩) (by rw [hfeed])
  have hn0 : lnote (fresh junk) c1 = [] := by simp [lnote, fresh]
  rw [hn0, hfeed] at hev
  have hev' : (lfeed (fresh junk) c1).map forget =
      (headCalls m os0 ++ [LEvent.option (UInt16.ofNat n) 0]).map forget ++ [.value (UInt16.ofNat n) a false] := by
    rw [hev]
    have ht : (optEvents os0).flatMap trTwo = (os0.flatMap owedOption).map forget := by
      simp only [optEvents, List.flatMap_map, List.map_flatMap]
      congr 1
      funext o
      by_cases hv : o.value = [] <;> simp [trTwo, owedOption, hv, forget]
    simp only [List.map_nil, List.nil_append, List.flatMap_append, List.flatMap_cons, List.flatMap_nil, ht]
    by_cases htk : m.token = [] <;> simp [headCalls, trTwo, htk, forget, ha]
  have hgd : Going d1 := by
    rcases k1.1 with ⟨h, e⟩ | ⟨h, -⟩ | ⟨h, -⟩
    · exfalso
      have hc : LEvent.complete ∈ lfeed (fresh junk) c1 := by rw [hX1, e]; exact complete_glue _ _ (by simp)
      have hc' := List.mem_map_of_mem (f := forget) hc
      rw [hev'] at hc'
      simp only [forget, List.mem_append, List.mem_map, List.mem_cons, List.not_mem_nil, or_false, reduceCtorEq] at hc'
      obtain ⟨e, he | he, hf⟩ := hc'
      · have : e = .complete := by cases e <;> simp [forget] at hf <;> rfl
        subst this
        simp only [headCalls, List.mem_cons, List.mem_append, List.mem_flatMap, owedOption, reduceCtorEq, false_or] at he
        rcases he with he | ⟨o, -, he⟩
        · split at he <;> simp at he
        · split at he <;> simp at he
      · subst he; simp [forget] at hf
    · simp [Going, h]
    · exact h
  rw [owed_nil k1.1 hgd, k3] at hX1
  rw [hX1] at hev'
  obtain ⟨E, y, he, hE, hy⟩ := List.map_eq_append_iff.1 hev'
  have hy' : y = [.value (UInt16.ofNat n) a false] := by
    obtain ⟨z, rfl, hz⟩ : ∃ z, y = [z] ∧ forget z = .value (UInt16.ofNat n) a false := by
      cases y with
      | nil => simp at hy
      | cons z y => simp at hy; exact ⟨z, by simp [hy.2], hy.1⟩
    cases z <;> simp [forget] at hz
    simp [hz]
  have hEw : Whole E := by
    intro e hin
    have h1 : forget e ∈ (headCalls m os0 ++ [LEvent.option (UInt16.ofNat n) 0]).map forget := by rw [← hE]; exact List.mem_map_of_mem hin
    obtain ⟨e', h2, h3⟩ := List.mem_map.1 h1
    have h4 : (∀ n p, e' ≠ .value n p false) ∧ ∀ p, e' ≠ .payload p false := by
      rcases List.mem_append.1 h2 with h | h
      · exact headCalls_whole m os0 e' h
      · simp only [List.mem_cons, List.not_mem_nil, or_false] at h; subst h; simp
    refine ⟨fun k p h => ?_, fun p h => ?_⟩ <;> subst h
    · cases e' <;> simp [forget] at h3
      obtain ⟨rfl, rfl, rfl⟩ := h3
      exact h4.1 _ _ rfl
    · cases e' <;> simp [forget] at h3
      obtain ⟨rfl, rfl⟩ := h3
      exact h4.2 _ rfl
  rw [hX, he, hy', List.foldr_append, whole_glue E hEw] at hX2
  have hlE : E.length = (headCalls m os0).length + 1 := by
    have := congrArg List.length hE
    simpa using this
  have hsplit := List.append_inj (s₁ := headCalls m os0 ++ [.option (UInt16.ofNat n) (UInt16.ofNat (a ++ b).length)])
    (t₁ := .value (UInt16.ofNat n) (a ++ b) true :: tailCalls m os1) (s₂ := E) (by simpa using hX2) (by simp [hlE])
  have hX2' := glue_part hsplit.2.symm
  -- the second buffer
  obtain ⟨q1, q2, q3, q4, q5⟩ := left_move (c' := ⟨l2, 0, true⟩) g1 rfl rfl
  have hr2 : (⟨l2, 0, true⟩ : Ctx).remainder = l2 := rfl
  obtain ⟨N3, d3, evs3, X3, hrun3, hX3, hl3, -⟩ := legacy_chunk _ d1 ⟨l2, 0, true⟩ [] X2 (Nat.lt_succ_self _)
    (by simpa [hr2] using q1) q4 q2 (by simpa [hr2] using q3) (fun _ => rfl) (Or.inl ⟨hl2ne, hgd⟩)
  obtain ⟨e1, -, e2, -⟩ := hl3 rfl
  rw [e1, e2, hX2'] at hX3
  refine ⟨max N1 N3, d3, fun fuel hf => ?_⟩
  simp only [legacyChunks]
  rw [hrun1 fuel (by omega), ]
  simp only []
  rw [hrun3 fuel (by omega)]
  simp only []
  rw [he, hy', ← hsplit.1, ← hX3]
  simp

/-- A message, one of its options with the value `a ++ b`, the bytes of the options before it, of its header and of the
options behind it. -/
structure Cut (m : Msg) (os0 os1 : List Opt) (n : Nat) (a b ob0 hdr ob1 : List UInt8) : Prop where
  ok : m.Ok
  opts : m.opts = os0 ++ ⟨n, a ++ b⟩ :: os1
  first : a ≠ []
  second : b ≠ []
  before : IsOpts 0 os0 ob0
  header : HdrOf hdr (n - countedFrom 0 os0) (a ++ b).length
  behind : IsOpts n os1 ob1

theorem optsOk_at (os : List Opt) (o : Opt) (os1 : List Opt) : ∀ prev, OptsOk prev (os ++ o :: os1) →
    countedFrom prev os ≤ o.number ∧ o.number < 65536 ∧ o.value.length < 65536 := by
  induction os with
  | nil => intro prev h; exact ⟨h.1, h.2.1, h.2.2.1⟩
  | cons x os ih => intro prev h; exact ih x.number h.2.2.2

/-- The calls for a message cut there. -/
theorem Cut.calls {m : Msg} {os0 os1 : List Opt} {n : Nat} {a b ob0 hdr ob1 : List UInt8} (h : Cut m os0 os1 n a b ob0 hdr ob1)
    (junk : Dec) (hj : junk.tbuf.length = 8) :
    ∃ N d', ∀ fuel, N ≤ fuel →
      legacyChunks fuel (fresh junk) [uptoPart m ob0 hdr a] (b ++ ob1 ++ encPayload m.payload) =
        .ok (d', headCalls m os0 ++ .option (UInt16.ofNat n) (UInt16.ofNat (a ++ b).length) ::
          .value (UInt16.ofNat n) a false :: .value (UInt16.ofNat n) b true :: tailCalls m os1) := by
  have h1 := h.ok.2.2.2.2.2.1
  rw [h.opts] at h1
  obtain ⟨g1, g2, g3⟩ := optsOk_at _ _ _ _ h1
  exact legacy_cut_value m h.ok os0 os1 n a b h.first h.second h.opts ob0 hdr ob1 h.before g1 g2 g3 h.header h.behind junk hj

theorem goes_skip (cs : Bool) (kids : List Route) : ∀ (os : List Opt) (t : List Call), (∀ o ∈ os, o.number < 65536) →
    (∀ o ∈ os, o.number ≠ 11 ∨ o.value = []) → goes cs kids (optCalls os ++ t) = goes cs kids t
  | [], t, _, _ => by simp [optCalls]
  | o :: os, t, h1, h2 => by
    rw [goes_pass cs kids o os t (h1 o List.mem_cons_self) (h2 o List.mem_cons_self)]
    exact goes_skip cs kids os t (fun o ho => h1 o (List.mem_cons_of_mem _ ho)) fun o ho => h2 o (List.mem_cons_of_mem _ ho)

/-- A request whose first path segment is cut, behind nested dispatchers. -/
theorem cut_goes (cs : Bool) (kids : List Route) {m : Msg} (hreq : m.code < 32) {os0 os1 : List Opt} {a b ob0 hdr ob1 : List UInt8}
    (h : Cut m os0 os1 11 a b ob0 hdr ob1) (h0 : ∀ o ∈ os0, o.number ≠ 11 ∨ o.value = []) (junk : Dec) (hj : junk.tbuf.length = 8) :
    ∃ N d' evs, (∀ fuel, N ≤ fuel → legacyChunks fuel (fresh junk) [uptoPart m ob0 hdr a] (b ++ ob1 ++ encPayload m.payload) = .ok (d', evs)) ∧
      (dispCalls cs kids (DState'.init kids) (evs.map toCall)).2 =
        goes cs kids (.option 11 a false :: .option 11 b true :: handed m os1) := by
  obtain ⟨N, d', hrun⟩ := h.calls junk hj
  refine ⟨N, d', _, hrun, ?_⟩
  generalize hlen : UInt16.ofNat (a ++ b).length = len
  rw [show UInt16.ofNat 11 = 11 from rfl]
  have hnum := optsOk_numbers m.opts 0 h.ok.2.2.2.2.2.1
  have hopen : ∀ x ∈ ((LEvent.header (hdrOf m) :: if m.token = [] then [] else [.token m.token true]).map toCall), Opening x := by
    intro x hx
    by_cases ht : m.token = [] <;> simp [ht, toCall] at hx
    · subst hx; exact request_header m hreq _
    · rcases hx with rfl | rfl
      · exact request_header m hreq _
      · trivial
  have hcalls : ∃ c, (c = [] ∨ c = [Call.complete]) ∧ (tailCalls m os1).map toCall = handed m os1 ++ c := by
    cases hp : m.payload with
    | none => exact ⟨[], Or.inl rfl, by simp [tailCalls, handed, hp]⟩
    | some p => exact ⟨[.complete], Or.inr rfl, by simp [tailCalls, handed, hp, optCalls, toCall]⟩
  obtain ⟨c, hc, htail⟩ := hcalls
  have hbody : ∀ x ∈ handed m os1, Body x := by
    intro x hx
    cases hp : m.payload with
    | none =>
      simp only [handed, hp] at hx
      apply optCalls_body os1
      obtain ⟨y, hy, rfl⟩ := List.mem_map.1 hx
      apply List.mem_map_of_mem
      unfold butTrailing at hy
      split at hy
      · exact hy
      · exact List.dropLast_subset _ hy
    | some p =>
      simp only [handed, hp] at hx
      rcases List.mem_append.1 hx with hx | hx
      · exact optCalls_body os1 x hx
      · simp only [List.mem_cons, List.not_mem_nil, or_false] at hx; subst hx; trivial
  have hform : (headCalls m os0 ++ .option 11 len :: .value 11 a false :: .value 11 b true :: tailCalls m os1).map toCall =
      ((LEvent.header (hdrOf m) :: if m.token = [] then [] else [.token m.token true]).map toCall) ++
        ((optCalls os0 ++ (.optionHead 11 len :: .option 11 a false :: .option 11 b true :: handed m os1)) ++ c) := by
    simp only [headCalls, List.map_append, List.map_cons, htail, optCalls, toCall]
    simp
  rw [hform, request_goes cs kids _ _ c hopen ?_ hc, goes_skip cs kids os0 _ ?_ h0]
  · simp [goes]
  · intro o ho; exact hnum o (by rw [h.opts]; simp [ho])
  · intro x hx
    rcases List.mem_append.1 hx with hx | hx
    · exact optCalls_body os0 x hx
    · simp only [List.mem_cons] at hx
      rcases hx with rfl | rfl | rfl | hx
      · trivial
      · trivial
      · trivial
      · exact hbody x hx

/-- C53 fails when a buffer ends inside the path: the first part of the segment alone decides which observer is told
the request, and the observer gets the second part as if it were a further segment. -/
theorem cut_path_first_part (cs : Bool) (kids : List Route) (m : Msg) (hreq : m.code < 32) (os0 os1 : List Opt) (a b ob0 hdr ob1 : List UInt8)
    (h : Cut m os0 os1 11 a b ob0 hdr ob1) (h0 : ∀ o ∈ os0, o.number ≠ 11 ∨ o.value = []) (junk : Dec) (hj : junk.tbuf.length = 8) :
    ∃ N d' evs, (∀ fuel, N ≤ fuel → legacyChunks fuel (fresh junk) [uptoPart m ob0 hdr a] (b ++ ob1 ++ encPayload m.payload) = .ok (d', evs)) ∧
      (∀ name id, LastAgreeing cs kids a (.leaf name id) →
        (dispCalls cs kids (DState'.init kids) (evs.map toCall)).2 = (.option 11 b true :: handed m os1).map (id, ·)) ∧
      (∀ name below name' id, LastAgreeing cs kids a (.node name below) → LastAgreeing cs below b (.leaf name' id) →
        (dispCalls cs kids (DState'.init kids) (evs.map toCall)).2 = (handed m os1).map (id, ·)) ∧
      ((∀ k ∈ kids, ¬Agree cs a k.pre) → (dispCalls cs kids (DState'.init kids) (evs.map toCall)).2 = []) := by
  obtain ⟨N, d', evs, hrun, he⟩ := cut_goes cs kids hreq h h0 junk hj
  refine ⟨N, d', evs, hrun, fun name id hl => ?_, fun name below name' id hl hl' => ?_, fun hn => ?_⟩
  · rw [he]; simp [goes, lastAgree_of _ _ _ _ hl]
  · rw [he]; simp [goes, lastAgree_of _ _ _ _ hl, lastAgree_of _ _ _ _ hl']
  · rw [he]; simp [goes, (lastAgree_none cs a kids).2 hn]

theorem agree_begin (cs : Bool) (a t : List UInt8) (hp : Plain cs a) : Agree cs a (a ++ t) := by
  intro i x y hx hy
  have hi : i < a.length := by
    rw [List.getElem?_eq_some_iff] at hx; exact hx.1
  rw [List.getElem?_append_left hi, hx] at hy
  cases hy
  exact ⟨rfl, fun h => hp h x (List.mem_of_getElem? hx)⟩

/-- C53 fails when a buffer ends inside the path: of two observers whose names begin alike, the second is told every
request for the first whose path is cut within the common beginning. -/
theorem cut_path_other_observer (cs : Bool) (m : Msg) (hreq : m.code < 32) (os0 os1 : List Opt) (a b t ob0 hdr ob1 : List UInt8)
    (h : Cut m os0 os1 11 a b ob0 hdr ob1) (h0 : ∀ o ∈ os0, o.number ≠ 11 ∨ o.value = []) (hp : Plain cs (a ++ b))
    (hd : ¬Agree cs (a ++ b) (a ++ t)) (i j : Nat) (junk : Dec) (hj : junk.tbuf.length = 8) :
    let kids : List Route := [.leaf (a ++ b) i, .leaf (a ++ t) j]
    (∃ N d' evs, (∀ fuel, N ≤ fuel → legacyChunks fuel (fresh junk) [] (uptoPart m ob0 hdr a ++ (b ++ ob1 ++ encPayload m.payload)) = .ok (d', evs)) ∧
      (dispCalls cs kids (DState'.init kids) (evs.map toCall)).2 = (handed m os1).map (i, ·)) ∧
    (∃ N d' evs, (∀ fuel, N ≤ fuel → legacyChunks fuel (fresh junk) [uptoPart m ob0 hdr a] (b ++ ob1 ++ encPayload m.payload) = .ok (d', evs)) ∧
      (dispCalls cs kids (DState'.init kids) (evs.map toCall)).2 = (.option 11 b true :: handed m os1).map (j, ·)) := by
  intro kids
  have ha : Plain cs a := fun hc x hx => hp hc x (List.mem_append_left _ hx)
  refine ⟨?_, ?_⟩
  · have h1 := h.ok.2.2.2.2.2.1
    rw [h.opts] at h1
    obtain ⟨g1, g2, g3⟩ := optsOk_at _ _ _ _ h1
    have hob := isOpts_behind os0 ⟨11, a ++ b⟩ os1 hdr ob1 0 ob0 h.before g1 g2 g3 h.header h.behind
    rw [← h.opts] at hob
    have hw : wire m (ob0 ++ (hdr ++ (a ++ b) ++ ob1)) = uptoPart m ob0 hdr a ++ (b ++ ob1 ++ encPayload m.payload) := by
      simp [wire, uptoPart]
    obtain ⟨N, d', hrun⟩ := legacy_one_buffer m h.ok _ hob junk hj
    rw [hw] at hrun
    refine ⟨N, d', _, hrun, (message_goes cs kids m h.ok hreq).1 i os1 ?_⟩
    rw [h.opts]
    clear h h1 hob hw hrun g1 g2 g3
    induction os0 with
    | nil =>
      refine .leaf rfl ?_ (name := a ++ b) ⟨[], [.leaf (a ++ t) j], rfl, ?_, ?_⟩
      · intro e; exact hd (by simp at e; simp [e, Agree])
      · have := agree_begin cs (a ++ b) [] hp
        rwa [List.append_nil] at this
      · intro k hk
        simp only [List.mem_cons, List.not_mem_nil, or_false] at hk
        subst hk; exact hd
    | cons o os ih => exact .skip (h0 o List.mem_cons_self) (ih fun o ho => h0 o (List.mem_cons_of_mem _ ho))
  · obtain ⟨N, d', evs, hrun, he, -⟩ := cut_path_first_part cs kids m hreq os0 os1 a b ob0 hdr ob1 h h0 junk hj
    exact ⟨N, d', evs, hrun, he (a ++ t) j ⟨[.leaf (a ++ b) i], [], rfl, agree_begin cs a t ha, by simp⟩⟩

/-- What an aggregate sees of a message with a cut option value. -/
theorem cut_acted {m : Msg} {os0 os1 : List Opt} {n : Nat} {a b : List UInt8} (len : UInt16) :
    ((headCalls m os0 ++ .option (UInt16.ofNat n) len :: .value (UInt16.ofNat n) a false :: .value (UInt16.ofNat n) b true :: tailCalls m os1).map
      toCall).filter acted = told os0 none ++ (.option (UInt16.ofNat n) a false :: .option (UInt16.ofNat n) b true :: told os1 m.payload) := by
  have hb : ∀ os : List Opt, ((butTrailing (os.flatMap owedOption)).map toCall).filter acted = told os none := by
    intro os
    rw [← optCalls_acted, optCalls]
    rcases List.eq_nil_or_concat os with rfl | ⟨os', o, rfl⟩
    · simp [butTrailing]
    · rw [List.concat_eq_append]
      by_cases hv : o.value = []
      · rw [← List.nil_append ((os' ++ [o]).flatMap owedOption), butTrailing_empty [] os' o hv]
        simp [owedOption, hv, toCall, acted]
      · rw [← List.nil_append ((os' ++ [o]).flatMap owedOption), butTrailing_value [] os' o hv]
  have ht : ((tailCalls m os1).map toCall).filter acted = told os1 m.payload := by
    cases hp : m.payload with
    | none => simp only [tailCalls, hp]; exact hb os1
    | some p =>
      simp only [tailCalls, hp, List.map_append, List.filter_append]
      rw [show (os1.flatMap owedOption).map toCall = optCalls os1 from rfl, optCalls_acted, told_split os1 (some p)]
      simp [toCall, acted]
  have hh : ((headCalls m os0).map toCall).filter acted = told os0 none := by
    rw [← optCalls_acted]
    by_cases ht : m.token = [] <;> simp [headCalls, toCall, acted, ht, optCalls]
  simp only [List.map_append, List.filter_append, hh, List.map_cons, toCall]
  simp only [List.filter_cons, acted, ht, if_true, Bool.false_eq_true, if_false]

/-- C55 fails for a segment cut between two buffers: if no name fits the first part alone, the second part is looked up
as if it were a segment, and the handler found is told the rest of the request, whatever handler the whole segment
belongs to. -/
theorem aggregate_cut_second_part (cs : Bool) (names : List (List UInt8)) (hp : ∀ n ∈ names, Plain cs n) (m : Msg) (os0 os1 : List Opt)
    (a b ob0 hdr ob1 : List UInt8) (h : Cut m os0 os1 11 a b ob0 hdr ob1) (h0 : ∀ o ∈ os0, ¬Named names o) (ha : ∀ n ∈ names, ¬n <+: a)
    (i : Nat) (hi : FirstPrefix names b i) (junk : Dec) (hj : junk.tbuf.length = 8) :
    ∃ N d' evs a', (∀ fuel, N ≤ fuel → legacyChunks fuel (fresh junk) [uptoPart m ob0 hdr a] (b ++ ob1 ++ encPayload m.payload) = .ok (d', evs)) ∧
      Agg.init.calls cs names (evs.map toCall) = some a' ∧
      a'.given = (.option 11 b true :: told os1 m.payload).map fun c => (i, c) := by
  obtain ⟨N, d', hrun⟩ := h.calls junk hj
  have hnum := optsOk_numbers m.opts 0 h.ok.2.2.2.2.2.1
  obtain ⟨x, e⟩ := unserved_options cs names hp none os0 h0 (fun o ho => hnum o (by rw [h.opts]; simp [ho])) Agg.init rfl
  refine ⟨N, d', _, ⟨.always, some (i, alive m.payload), [(i, .option 11 b true)] ++ (told os1 m.payload).map fun c => (i, c)⟩, hrun, ?_, ?_⟩
  · rw [aggCalls_acted, cut_acted, aggCalls_append, e]
    simp only [Option.bind_some, Agg.calls, show UInt16.ofNat 11 = 11 from rfl]
    have e1 : ({ Agg.init with interest := x } : Agg).call cs names (.option 11 a false) = some ⟨.never, none, []⟩ := by
      simp [Agg.call, Agg.look, Agg.hand, Agg.init, aggFind_none cs names hp _ ha]
    have e2 : (⟨.never, none, []⟩ : Agg).call cs names (.option 11 b true) = some ⟨.always, some (i, true), [(i, .option 11 b true)]⟩ := by
      simp [Agg.call, Agg.look, Agg.hand, aggFind_first cs names hp _ _ hi]
    rw [e1, Option.bind_some, e2, Option.bind_some, hand_message cs names i _ rfl os1 m.payload]
  · simp

/-- C55 fails for a segment cut between two buffers: the handler found for the first part alone is told both parts, one
after the other, although a name registered before it may fit the whole segment. -/
theorem aggregate_cut_first_part (cs : Bool) (names : List (List UInt8)) (hp : ∀ n ∈ names, Plain cs n) (m : Msg) (os0 os1 : List Opt)
    (a b ob0 hdr ob1 : List UInt8) (h : Cut m os0 os1 11 a b ob0 hdr ob1) (h0 : ∀ o ∈ os0, ¬Named names o)
    (i : Nat) (hi : FirstPrefix names a i) (junk : Dec) (hj : junk.tbuf.length = 8) :
    ∃ N d' evs a', (∀ fuel, N ≤ fuel → legacyChunks fuel (fresh junk) [uptoPart m ob0 hdr a] (b ++ ob1 ++ encPayload m.payload) = .ok (d', evs)) ∧
      Agg.init.calls cs names (evs.map toCall) = some a' ∧
      a'.given = (.option 11 a false :: .option 11 b true :: told os1 m.payload).map fun c => (i, c) := by
  obtain ⟨N, d', hrun⟩ := h.calls junk hj
  have hnum := optsOk_numbers m.opts 0 h.ok.2.2.2.2.2.1
  obtain ⟨x, e⟩ := unserved_options cs names hp none os0 h0 (fun o ho => hnum o (by rw [h.opts]; simp [ho])) Agg.init rfl
  refine ⟨N, d', _, ⟨.always, some (i, alive m.payload),
    [(i, .option 11 a false), (i, .option 11 b true)] ++ (told os1 m.payload).map fun c => (i, c)⟩, hrun, ?_, ?_⟩
  · rw [aggCalls_acted, cut_acted, aggCalls_append, e]
    simp only [Option.bind_some, Agg.calls, show UInt16.ofNat 11 = 11 from rfl]
    have e1 : ({ Agg.init with interest := x } : Agg).call cs names (.option 11 a false) =
        some ⟨.always, some (i, true), [(i, .option 11 a false)]⟩ := by
      simp [Agg.call, Agg.look, Agg.hand, Agg.init, aggFind_first cs names hp _ _ hi]
    have e2 : (⟨.always, some (i, true), [(i, .option 11 a false)]⟩ : Agg).call cs names (.option 11 b true) =
        some ⟨.always, some (i, true), [(i, .option 11 a false), (i, .option 11 b true)]⟩ := by
      simp [Agg.call, Agg.look, Agg.hand]
    rw [e1, Option.bind_some, e2, Option.bind_some, hand_message cs names i _ rfl os1 m.payload]
  · simp

/-- GET coap://h/abc?q with a payload. -/
def askAbc : Msg := ⟨1, 0, 1, 7, [0xAA], [⟨3, [0x68]⟩, ⟨11, [0x61, 0x62, 0x63]⟩, ⟨15, [0x71]⟩], some [5]⟩

theorem askAbc_cut : Cut askAbc [⟨3, [0x68]⟩] [⟨15, [0x71]⟩] 11 [0x61] [0x62, 0x63] [0x31, 0x68] [0x83] [0x41, 0x71] := by
  refine ⟨by decide, rfl, by simp, by simp, ?_, ?_, ?_⟩
  · exact isOpts_encOpts 0 [⟨3, [0x68]⟩] (by decide)
  · exact ⟨0x83, [], [], rfl, by decide, fun t => ⟨8, rfl, rfl⟩, fun t => ⟨3, rfl, rfl⟩⟩
  · exact isOpts_encOpts 11 [⟨15, [0x71]⟩] (by decide)

-- "abc" and "axy" begin alike; cut behind the "a", the request for "abc" is given to "axy"
example : Plain true ([0x61] ++ [0x62, 0x63]) ∧ ¬Agree true ([0x61] ++ [0x62, 0x63]) ([0x61] ++ [0x78, 0x79]) ∧ askAbc.code < 32 := by
  refine ⟨by simp [Plain], fun h => ?_, by decide⟩
  have := h 1 0x62 0x78 rfl rfl
  simp at this
example : ∃ d evs, legacyChunks 90 (fresh Dec.zero) [uptoPart askAbc [0x31, 0x68] [0x83] [0x61]] [0x62, 0x63, 0x41, 0x71, 0xFF, 5] = .ok (d, evs) ∧
    (dispCalls true [.leaf [0x61, 0x62, 0x63] 0, .leaf [0x61, 0x78, 0x79] 1] (DState'.init [.leaf [0x61, 0x62, 0x63] 0, .leaf [0x61, 0x78, 0x79] 1])
      (evs.map toCall)).2 = [(1, .option 11 [0x62, 0x63] true), (1, .optionHead 15 1), (1, .option 15 [0x71] true), (1, .payload [5] true)] := by
  refine ⟨_, _, rfl, ?_⟩
  decide +kernel
-- names "abc" and "bc": the second gets the cut request; names "abc" and "a": likewise
example : (∀ n ∈ [[0x61, 0x62, 0x63], [0x62, 0x63]], ¬n <+: [(0x61 : UInt8)]) ∧ FirstPrefix [[0x61, 0x62, 0x63], [0x62, 0x63]] [0x62, 0x63] 1 ∧
    FirstPrefix [[0x61, 0x62, 0x63], [0x61]] [0x61] 1 ∧ FirstPrefix [[0x61, 0x62, 0x63], [0x61]] [0x61, 0x62, 0x63] 0 := by
  refine ⟨by decide, ⟨[0x62, 0x63], rfl, by simp, ?_⟩, ⟨[0x61], rfl, by simp, ?_⟩, ⟨[0x61, 0x62, 0x63], rfl, by simp, by omega⟩⟩ <;>
  · intro j n' hj h
    have : j = 0 := by omega
    subst this
    simp only [List.getElem?_cons_zero, Option.some.injEq] at h
    subst h
    decide

end Verif.Props
