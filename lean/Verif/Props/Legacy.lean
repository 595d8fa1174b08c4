import Verif.Proofs.LegacyRun
import Verif.Props.DecoderMessage

/-! # The older dispatch (C47) -/
namespace Verif.Props
open Verif.Model Verif.Proofs Verif.Spec Header Dec

/-- Calls of the older observer corresponding to an event of the newer one. -/
def trOne : Event → List LEvent
  | .header h => [.header h]
  | .token t => if t = [] then [] else [.token t true]
  | .option n v true => .option n (UInt16.ofNat v.length) :: (if v = [] then [] else [.value n v true])
  | .payload p true => [.payload p true, .complete]
  | _ => []

theorem lnote_note (d : Dec) (r : List UInt8) (hl : LInv d) (hh : HOK d r) (hb : d.tbuf.length = 8) (hp : d.st ≠ .payload)
    (hno : ∀ n v, Event.option n v false ∉ note d r true) : lnote d r = (note d r true).flatMap trOne := by
  cases hs : d.st <;> simp only [lnote, note, notify, hs] at hno ⊢
  case headerDone => rfl
  case tokenDone =>
    have h8 : d.hdr.tokenLength.toNat ≤ 8 := by simpa [HOK, hs] using hh
    have h9 : d.hdr.tokenLength.toNat ≤ d.tbuf.length := by omega
    simp only [h9, if_true]
    by_cases h0 : d.hdr.tokenLength = 0
    · simp [h0, trOne]
    · have h1 : 0 < d.hdr.tokenLength.toNat := Nat.pos_of_ne_zero fun h => h0 (UInt8.toNat_inj.1 h)
      have h2 : d.tbuf.take d.hdr.tokenLength.toNat ≠ [] := by
        intro h; have := congrArg List.length h; simp only [List.length_take, List.length_nil] at this; omega
      simp only [h0, if_false, List.flatMap_cons, List.flatMap_nil, List.append_nil, trOne, h2]
  case options =>
    by_cases ho : d.opt.st = .valueStart
    · have hL : d.holder.length = d.opt.length := by have := hl.2.1 hs; simpa [ho] using this
      simp only [ho, beq_self_eq_true, if_true, hL] at hno ⊢
      by_cases h0 : d.opt.length = 0
      · simp [h0, trOne]
      · have h1 : 0 < d.opt.length.toNat := Nat.pos_of_ne_zero fun h => h0 (UInt16.toNat_inj.1 h)
        have hgt : d.opt.length > 0 := by rw [gt_iff_lt, UInt16.lt_iff_toNat_lt]; exact h1
        simp only [hgt, if_true, h0, if_false, optionValue, Ctx.remainder, List.drop_zero] at hno ⊢
        by_cases hle : d.opt.length.toNat ≤ r.length
        · simp only [hle, if_true, decide_true, List.flatMap_cons, List.flatMap_nil, List.append_nil]
          have h2 : r.take d.opt.length.toNat ≠ [] := by
            intro h; have := congrArg List.length h; simp only [List.length_take, List.length_nil] at this; omega
          have h3 : (r.take d.opt.length.toNat).length = d.opt.length.toNat := by rw [List.length_take]; omega
          simp [trOne, h2, h3, -List.length_take]
        · simp [hle] at hno
    · simp [ho]
  case payload => exact absurd hs hp
  all_goals rfl

theorem micro_tbuf (d : Dec) (b : UInt8) : (micro d b).1.tbuf.length = d.tbuf.length := by
  cases hs : d.st <;> simp only [micro, hs]
  case header => simp only [putHeader]; split <;> rfl
  case token => simp only [putToken]; split <;> simp

theorem micro_going (d : Dec) (b : UInt8) (hg : Going d) :
    Going (micro d b).1 ∨ ((micro d b).1.st = .payload ∧ (micro d b).2 = false) := by
  cases hs : d.st <;> simp only [micro, hs]
  case header => left; simp only [putHeader]; split <;> simp [Going, hs]
  case headerDone => left; split <;> simp [Going]
  case token => left; simp only [putToken]; split <;> simp [Going, hs]
  case options => left; split <;> simp [Going]
  case optionsDone => right; simp
  case payload => exact absurd (Or.inl hs) hg
  case payloadDone => exact absurd (Or.inr (Or.inl hs)) hg
  case done => exact absurd (Or.inr (Or.inr hs)) hg
  all_goals left; simp [Going]

/-- What is owed by the older dispatch, in terms of the events of the newer one. -/
theorem lfeed_feed (n : Nat) : ∀ (d : Dec) (r : List UInt8), meas d r < n → r ≠ [] → Going d → LInv d → HOK d r →
    d.tbuf.length = 8 → (∀ n v, Event.option n v false ∉ (feed true d r).1) →
    lfeed d r ++ (if (feed true d r).2.2 = [] then lnote (feed true d r).2.1 [] else []) =
      lnote d r ++ (feed true d r).1.flatMap trOne := by
  induction n with
  | zero => intro d r hm; exact absurd hm (Nat.not_lt_zero _)
  | succ n ih =>
    intro d r hm hr hg hl hh hb hno
    obtain ⟨b, bs, rfl⟩ := List.exists_cons_of_ne_nil hr
    obtain ⟨d1, c, hmc⟩ : ∃ d1 c, micro d b = (d1, c) := ⟨_, _, rfl⟩
    have hl1 := micro_linv d b hl
    have hh1 := micro_hok d b bs hl.2.2.1 hh
    have hb1 := micro_tbuf d b
    have hg1 := micro_going d b hg
    rw [hmc] at hl1 hh1 hb1 hg1
    rw [hb] at hb1
    have hf := feed_cons true d b bs hg d1 c hmc
    rw [lfeed_cons d b bs hg d1 c hmc]
    rw [hf] at hno ⊢
    simp only [List.mem_append, not_or] at hno
    have hm1 : meas d1 (if c then bs else b :: bs) < n := by
      cases c
      · have := micro_rank d b (by rw [hmc])
        rw [hmc] at this
        simp only [] at this
        simp only [meas, Bool.false_eq_true, if_false] at hm ⊢
        omega
      · have := drank_le d1
        simp only [meas, if_true, List.length_cons] at hm ⊢
        omega
    simp only [] at hg1 hh1
    generalize hr1 : (if c = true then bs else b :: bs) = r1 at *
    have hh1' : HOK d1 r1 := hh1
    rcases hg1 with hg1 | ⟨hp, hc⟩
    · have hnp : d1.st ≠ .payload := fun h => hg1 (Or.inl h)
      have hn := lnote_note d1 r1 hl1 hh1' hb1 hnp (fun n v => (hno n v).1)
      by_cases hr1' : r1 = []
      · subst hr1'
        simp [feed_nil, lfeed_nil, hn]
      · have := ih d1 r1 hm1 hr1' hg1 hl1 hh1' hb1 (fun n v => (hno n v).2)
        rw [List.append_assoc, this, List.flatMap_append, hn]
    · have hr1' : r1 ≠ [] := by rw [← hr1, hc]; simp
      rw [feed_stop _ _ _ (by simp [Going, hp]), lfeed_payload d1 r1 hp hr1']
      simp [hr1', note, notify, hp, trOne, Ctx.remainder]

theorem feed_end_payload (n : Nat) : ∀ (d : Dec) (r : List UInt8), meas d r < n → Going d → (feed true d r).2.2 ≠ [] →
    (feed true d r).2.1.st = .payload := by
  induction n with
  | zero => intro d r hm; exact absurd hm (Nat.not_lt_zero _)
  | succ n ih =>
    intro d r hm hg hr
    cases r with
    | nil => rw [feed_nil] at hr; exact absurd rfl hr
    | cons b bs =>
      obtain ⟨d1, c, hmc⟩ : ∃ d1 c, micro d b = (d1, c) := ⟨_, _, rfl⟩
      have hg1 := micro_going d b hg
      rw [hmc] at hg1
      have hf := feed_cons true d b bs hg d1 c hmc
      rw [hf] at hr ⊢
      rcases hg1 with hg1 | ⟨hp, hc⟩
      · refine ih d1 _ ?_ hg1 hr
        cases c
        · have := micro_rank d b (by rw [hmc])
          rw [hmc] at this
          simp only [] at this
          simp only [meas, Bool.false_eq_true, if_false] at hm ⊢
          omega
        · have := drank_le d1
          simp only [meas, if_true, List.length_cons] at hm ⊢
          omega
      · have hng : ¬ Going d1 := fun h => h (Or.inl hp)
        rw [feed_stop _ _ _ hng]
        exact hp

theorem fresh_left (junk : Dec) (hj : junk.tbuf.length = 8) (bytes : List UInt8) (hh : HOK (fresh junk) bytes) :
    Left (fresh junk) ⟨[], 0, false⟩ bytes (lfeed (fresh junk) bytes) := by
  refine ⟨Or.inr (Or.inr ⟨by simp [Going, fresh], by simp [fresh], rfl⟩), ?_, hh, ?_, by simp [Between, fresh]⟩
  · exact ⟨by simp, hj, by simp [fresh], by simp [fresh], by simp [fresh], by simp [fresh], by simp [fresh], by simp [fresh]⟩
  · exact ⟨by simp [fresh], by simp [HL, fresh], by simp [fresh], by simp [fresh]⟩

theorem trOne_options (os : List Opt) : (optEvents os).flatMap trOne = os.flatMap owedOption := by
  simp only [optEvents, List.flatMap_map]
  rfl

/-- A new subject given `bytes` in parts, the last of them not empty. -/
theorem legacy_parts (junk : Dec) (hj : junk.tbuf.length = 8) (cs : List (List UInt8)) (l : List UInt8)
    (hh : HOK (fresh junk) (cs.flatten ++ l)) (hl : l ≠ [] ∨ LEvent.complete ∈ lfeed (fresh junk) (cs.flatten ++ l)) :
    ∃ N d' evs, (∀ fuel, N ≤ fuel → legacyChunks fuel (fresh junk) cs l = .ok (d', evs)) ∧
      glue evs = lfeed (fresh junk) (cs.flatten ++ l) ∧
      (LEvent.complete ∈ lfeed (fresh junk) (cs.flatten ++ l) → d'.st = .payloadDone) :=
  legacy_chunks cs l (fresh junk) _ (fresh_left junk hj _ hh) (Or.inl (by simp [Going, fresh])) hl

/-- C47: however a byte sequence is cut into buffers - empty buffers, cuts inside option values and inside the
payload included -, the older dispatch makes the same calls once the parts of values and payload are joined,
and it always returns.  (The token length is legal and the last buffer is not empty.) -/
theorem legacy_split (junk : Dec) (hj : junk.tbuf.length = 8) (b : UInt8) (bs : List UInt8) (hb : (b &&& 0x0F).toNat ≤ 8) :
    ∃ X, ∀ cs l, cs.flatten ++ l = b :: bs → l ≠ [] →
      ∃ N d' evs, (∀ fuel, N ≤ fuel → legacyChunks fuel (fresh junk) cs l = .ok (d', evs)) ∧ glue evs = X := by
  refine ⟨lfeed (fresh junk) (b :: bs), fun cs l h hl => ?_⟩
  obtain ⟨N, d', evs, h1, h2, -⟩ := legacy_parts junk hj cs l (by rw [h]; simpa [HOK, fresh] using hb) (Or.inl hl)
  exact ⟨N, d', evs, h1, by rw [h2, h]⟩

theorem lfeed_payload_message (m : Msg) (hm : m.Ok) (ob : List UInt8) (hob : IsOpts 0 m.opts ob) (junk : Dec)
    (hj : junk.tbuf.length = 8) (hp : m.payload ≠ none) : lfeed (fresh junk) (wire m ob) = owed m := by
  obtain ⟨-, hh, hr, hg, k, e, -, -, -, he, hlast, hrest⟩ := wire_chunkEnd m hm ob hob junk hj (Or.inr (Or.inr (Or.inr hp)))
  obtain ⟨he', -⟩ := hlast hp
  obtain ⟨p, hp'⟩ := Option.ne_none_iff_exists'.1 hp
  have hpne : p ≠ [] := by
    intro h; have := hm.2.2.2.2.2.2; rw [hp', h] at this; exact this rfl
  have hne : (feed true (fresh junk) (wire m ob)).2.2 ≠ [] := by rw [hrest, hp']; exact hpne
  have hst := feed_end_payload _ _ _ (Nat.lt_succ_self _) hg hne
  rw [he'] at he
  simp only [chunkEnd, hst, if_true, List.append_nil] at he
  have hev : (feed true (fresh junk) (wire m ob)).1 =
      [.header ⟨UInt8.ofNat (64 * m.version + 16 * m.type + m.token.length), UInt8.ofNat m.code,
        UInt8.ofNat (m.mid / 256), UInt8.ofNat (m.mid % 256)⟩, .token m.token, .optionStart] ++
      optEvents m.opts ++ [.optionsCompleted] ++ [.payload p true] := by
    have : delivery m = ([.header ⟨UInt8.ofNat (64 * m.version + 16 * m.type + m.token.length), UInt8.ofNat m.code,
        UInt8.ofNat (m.mid / 256), UInt8.ofNat (m.mid % 256)⟩, .token m.token, .optionStart] ++
      optEvents m.opts ++ [.optionsCompleted] ++ [.payload p true]) ++ [.completed] := by
      simp [delivery, optEvents, hp']
    rw [this] at he
    exact List.append_cancel_right he
  have := lfeed_feed _ (fresh junk) (wire m ob) (Nat.lt_succ_self _) hr hg (fresh_left junk hj _ hh).2.2.2.1 hh hj
    (by intro n v; rw [hev]; simp [optEvents])
  rw [if_neg hne, List.append_nil, hev] at this
  rw [this]
  have h0 : lnote (fresh junk) (wire m ob) = [] := by simp [lnote, fresh]
  rw [h0, List.nil_append]
  simp only [List.flatMap_append, trOne_options]
  by_cases ht : m.token = [] <;> simp [trOne, owed, owedHead, ht, hp']

/-- C47 (partial: messages with a payload): a well-formed message with a payload, handed over in any number of
buffers cut anywhere, is reported exactly - header, token, every option with number, length and value, payload,
completion once at the end - for every legal encoding of its options and whatever the uninitialised members held. -/
theorem legacy_payload_message_partial (m : Msg) (hm : m.Ok) (ob : List UInt8) (hob : IsOpts 0 m.opts ob) (junk : Dec)
    (hj : junk.tbuf.length = 8) (hp : m.payload ≠ none) (cs : List (List UInt8)) (l : List UInt8)
    (hw : cs.flatten ++ l = wire m ob) :
    ∃ N d' evs, (∀ fuel, N ≤ fuel → legacyChunks fuel (fresh junk) cs l = .ok (d', evs)) ∧ glue evs = owed m ∧
      d'.st = .payloadDone := by
  have hx := lfeed_payload_message m hm ob hob junk hj hp
  have hh := (wire_chunkEnd m hm ob hob junk hj (Or.inr (Or.inr (Or.inr hp)))).2.1
  have hc : LEvent.complete ∈ lfeed (fresh junk) (cs.flatten ++ l) := by rw [hw, hx]; simp [owed]
  obtain ⟨N, d', evs, h1, h2, h3⟩ := legacy_parts junk hj cs l (by rw [hw]; exact hh) (Or.inr hc)
  exact ⟨N, d', evs, h1, by rw [h2, hw, hx], h3 hc⟩

/-- Without a payload: where the decoder stands at the end and which events it fired. -/
theorem nopayload_feed (m : Msg) (hm : m.Ok) (ob : List UInt8) (hob : IsOpts 0 m.opts ob) (junk : Dec)
    (hj : junk.tbuf.length = 8) (hp : m.payload = none) :
    ∃ evs d, feed true (fresh junk) (wire m ob) = (evs, d, []) ∧ HOK (fresh junk) (wire m ob) ∧ wire m ob ≠ [] ∧
      (∀ n v, Event.option n v false ∉ evs) ∧
      ∃ t, owedHead m = evs.flatMap trOne ++ t ∧
        ((m.opts = [] ∧ t = [] ∧ (lnote d []).length = 1) ∨
         (m.opts ≠ [] ∧ lnote d [] = [] ∧ ((t = [] ∧ ∀ o ∈ m.opts.getLast?, o.value ≠ []) ∨ ∃ n, t = [.option n 0]))) := by
  obtain ⟨h1, h2, h3, h4, h5, h6, h7⟩ := hm
  generalize hb0 : UInt8.ofNat (64 * m.version + 16 * m.type + m.token.length) = b0
  have htk : (b0 &&& 0x0F).toNat = m.token.length := by
    have : (b0 &&& 0x0F).toNat = b0.toNat % 16 := by
      rw [UInt8.toNat_and]; exact Nat.and_two_pow_sub_one_eq_mod b0.toNat 4
    rw [this, ← hb0, UInt8.toNat_ofNat']; omega
  have henc : wire m ob = b0 :: UInt8.ofNat m.code :: UInt8.ofNat (m.mid / 256) :: UInt8.ofNat (m.mid % 256) ::
      (m.token ++ ob) := by simp [wire, encHeader, hb0, hp, encPayload]
  have hh : HOK (fresh junk) (wire m ob) := by
    rw [henc]
    show ∀ b ∈ _, _
    rintro b ⟨⟩
    rw [htk]; exact h5
  rw [henc, header_feed true (fresh junk) _ _ _ _ _ rfl]
  rw [henc] at hh
  generalize hH : (⟨b0, UInt8.ofNat m.code, UInt8.ofNat (m.mid / 256), UInt8.ofNat (m.mid % 256)⟩ : Header) = H
  have hHt : H.tokenLength.toNat = m.token.length := by rw [← hH]; exact htk
  generalize hd1 : ({ fresh junk with st := .headerDone, hdr := H, hpos := 4 } : Dec) = d1
  have hd1s : d1.st = .headerDone := by rw [← hd1]
  have hd1h : d1.hdr = H := by rw [← hd1]
  have hd1b : d1.tbuf.length = 8 := by rw [← hd1]; exact hj
  have hown : owedHead m = .header H :: ((if m.token = [] then [] else [.token m.token true]) ++ m.opts.flatMap owedOption) := by
    simp [owedHead, hb0, hH]
  -- the options
  have after : ∀ d2 : Dec, d2.st = .tokenDone → m.opts ≠ [] → ∃ es d, feed true d2 ob = (es, d, []) ∧
      (∀ n v, Event.option n v false ∉ es) ∧ ∃ t, m.opts.flatMap owedOption = es.flatMap trOne ++ t ∧ lnote d [] = [] ∧
      ((t = [] ∧ ∀ o ∈ m.opts.getLast?, o.value ≠ []) ∨ ∃ n, t = [.option n 0]) := by
    intro d2 hs2 hos
    have hemp : ob ≠ [] := fun h => hos (hob.nil_iff.1 h)
    rw [start_feed true d2 _ hs2 hemp]
    obtain ⟨o', h', es, hfe, hcase⟩ := wire_options_feed_end true m.opts 0
      { d2 with st := .options, opt := { d2.opt with st := .firstByte }, holder := ⟨0, 0⟩ } rfl (Or.inl rfl) rfl ob hob hos
    rw [hfe]
    rcases hcase with ⟨he, hov, hlst⟩ | ⟨n, he, hhe, hh'⟩
    · refine ⟨_, _, rfl, ?_, [], ?_, ?_, Or.inl ⟨rfl, fun o ho => (hlst o ho).1⟩⟩
      · intro n v; rw [he]; simp [optEvents]
      · rw [he]; simp [trOne, trOne_options]
      · simp [lnote, hov]
    · refine ⟨_, _, rfl, ?_, [.option n 0], ?_, ?_, Or.inr ⟨n, rfl⟩⟩
      · intro n' v h
        have h' : Event.option n' v false ∈ optEvents m.opts := by
          rw [← he]
          rcases List.mem_cons.1 h with h | h
          · cases h
          · exact List.mem_append_left _ h
        simp [optEvents] at h'
      · rw [← trOne_options, ← he]; simp [trOne]
      · simp [lnote, hhe.2.2.2.2.1]
  by_cases htn : m.token = []
  · rw [htn, List.nil_append] at hh ⊢
    rw [htn, List.length_nil] at hHt
    by_cases hos : m.opts = []
    · have hob' : ob = [] := hob.nil_iff.2 hos
      subst hob'
      rw [feed_nil]
      refine ⟨_, _, rfl, hh, by simp, by simp, [], by simp [hown, htn, hos, trOne], Or.inl ⟨hos, rfl, by simp [lnote, hd1s]⟩⟩
    · have hemp : ob ≠ [] := fun h => hos (hob.nil_iff.1 h)
      rw [token_feed_empty true d1 _ hd1s (by rw [hd1h]; exact hHt) hemp]
      obtain ⟨es, d, hfe, hno, t, ht, hl, hc⟩ := after { d1 with st := .tokenDone } rfl hos
      rw [hfe]
      refine ⟨_, _, rfl, hh, by simp, ?_, t, by simp [hown, htn, ht, trOne], Or.inr ⟨hos, hl, hc⟩⟩
      intro n v; simpa using hno n v
  · obtain ⟨d2, e1, e2, e3, e4, e5⟩ := token_feed true m.token d1 ob hd1s htn (by rw [hd1h]; exact hHt) h5 hd1b
    rw [e5]
    by_cases hos : m.opts = []
    · have hob' : ob = [] := hob.nil_iff.2 hos
      subst hob'
      rw [feed_nil]
      refine ⟨_, _, rfl, hh, by simp, by simp, [], by simp [hown, htn, hos, trOne], Or.inl ⟨hos, rfl, ?_⟩⟩
      have : H.tokenLength ≠ 0 := by
        intro h; rw [h] at hHt; simp at hHt; exact htn (List.length_eq_zero_iff.1 hHt.symm)
      simp [lnote, e1, e3, hd1h, this]
    · obtain ⟨es, d, hfe, hno, t, ht, hl, hc⟩ := after d2 e1 hos
      rw [hfe]
      refine ⟨_, _, rfl, hh, by simp, ?_, t, by simp [hown, htn, ht, trOne], Or.inr ⟨hos, hl, hc⟩⟩
      intro n v; simpa using hno n v

theorem mem_glueCons {e : LEvent} {es : List LEvent} (h : e = .complete ∨ LEvent.complete ∈ es) :
    LEvent.complete ∈ glueCons e es := by
  unfold glueCons
  split
  · simp only [reduceCtorEq, List.mem_cons, false_or] at h
    split <;> simp [h]
  · simpa using h
  · rcases h with rfl | h
    · simp
    · simp [h]

theorem mem_glue {es : List LEvent} (h : LEvent.complete ∈ es) : LEvent.complete ∈ glue es := by
  induction es with
  | nil => simp at h
  | cons e es ih =>
    apply mem_glueCons
    rcases List.mem_cons.1 h with h | h
    · exact Or.inl h.symm
    · exact Or.inr (ih h)

theorem lfeed_nopayload (m : Msg) (hm : m.Ok) (ob : List UInt8) (hob : IsOpts 0 m.opts ob) (junk : Dec)
    (hj : junk.tbuf.length = 8) (hp : m.payload = none) :
    lfeed (fresh junk) (wire m ob) = butTrailing (owedHead m) ∧ HOK (fresh junk) (wire m ob) := by
  obtain ⟨evs, d, hf, hh, hne, hno, t, ht, hcase⟩ := nopayload_feed m hm ob hob junk hj hp
  have key := lfeed_feed _ (fresh junk) (wire m ob) (Nat.lt_succ_self _) hne (by simp [Going, fresh])
    (fresh_left junk hj _ hh).2.2.2.1 hh hj (by rw [hf]; exact hno)
  rw [hf] at key
  simp only [if_true] at key
  have h0 : lnote (fresh junk) (wire m ob) = [] := by simp [lnote, fresh]
  rw [h0, List.nil_append] at key
  refine ⟨?_, hh⟩
  rcases hcase with ⟨hos, rfl, hlen⟩ | ⟨hos, hl, hcase⟩
  · rw [List.append_nil] at ht
    have hd : (owedHead m).dropLast = lfeed (fresh junk) (wire m ob) := by
      rw [ht, ← key]
      obtain ⟨x, hx⟩ := List.length_eq_one_iff.1 hlen
      rw [hx]; simp
    have : butTrailing (owedHead m) = (owedHead m).dropLast := by
      by_cases htn : m.token = [] <;> simp [butTrailing, owedHead, hos, htn]
    rw [this, hd]
  · rw [hl, List.append_nil] at key
    rw [← key] at ht
    rcases hcase with ⟨rfl, hv⟩ | ⟨n, rfl⟩
    · rw [List.append_nil] at ht
      rw [← ht]
      obtain ⟨os, o, hoo⟩ : ∃ os o, m.opts = os ++ [o] := ⟨_, _, (List.dropLast_concat_getLast hos).symm⟩
      have hov : o.value ≠ [] := hv o (by simp [hoo])
      have hg : (owedHead m).getLast? = some (.value (UInt16.ofNat o.number) o.value true) := by
        simp [owedHead, hoo, owedOption, hov, List.getLast?_append, List.getLast?_cons]
      simp [butTrailing, hg]
    · rw [ht]; simp [butTrailing]

/-- C47 (why only partial): for a well-formed message without payload, cut anywhere, completion is never reported,
and of the header, token and options the last call is missing unless it delivers a value: a message that is only a
header goes unnoticed, a token at the end and a final empty option are lost. -/
theorem legacy_no_payload_incomplete (m : Msg) (hm : m.Ok) (ob : List UInt8) (hob : IsOpts 0 m.opts ob) (junk : Dec)
    (hj : junk.tbuf.length = 8) (hp : m.payload = none) (cs : List (List UInt8)) (l : List UInt8)
    (hw : cs.flatten ++ l = wire m ob) (hl : l ≠ []) :
    ∃ N d' evs, (∀ fuel, N ≤ fuel → legacyChunks fuel (fresh junk) cs l = .ok (d', evs)) ∧
      glue evs = butTrailing (owedHead m) ∧ LEvent.complete ∉ evs := by
  obtain ⟨hx, hh⟩ := lfeed_nopayload m hm ob hob junk hj hp
  obtain ⟨N, d', evs, h1, h2, -⟩ := legacy_parts junk hj cs l (by rw [hw]; exact hh) (Or.inl hl)
  refine ⟨N, d', evs, h1, by rw [h2, hw, hx], fun h => ?_⟩
  have h3 := mem_glue h
  rw [h2, hw, hx] at h3
  have : LEvent.complete ∉ owedHead m := by
    intro h
    simp only [owedHead, owedOption, List.mem_cons, List.mem_append, List.mem_flatMap, reduceCtorEq, false_or] at h
    rcases h with h | ⟨o, -, h⟩
    · split at h <;> simp at h
    · split at h <;> simp at h
  unfold butTrailing at h3
  split at h3
  · exact this h3
  · exact this (List.dropLast_subset _ h3)

/-- A message consisting of a header only: the observer hears nothing at all. -/
theorem legacy_header_only_unnoticed (m : Msg) (hm : m.Ok) (junk : Dec) (hj : junk.tbuf.length = 8) (ht : m.token = [])
    (ho : m.opts = []) (hp : m.payload = none) (cs : List (List UInt8)) (l : List UInt8) (hw : cs.flatten ++ l = encMsg m)
    (hl : l ≠ []) : ∃ N d', ∀ fuel, N ≤ fuel → legacyChunks fuel (fresh junk) cs l = .ok (d', []) := by
  obtain ⟨N, d', evs, h1, h2, -⟩ := legacy_no_payload_incomplete m hm _ (isOpts_encOpts 0 m.opts hm.2.2.2.2.2.1) junk hj hp cs l hw hl
  refine ⟨N, d', fun fuel hf => ?_⟩
  have : evs = [] := by
    have hz : glue evs = [] := by rw [h2]; simp [butTrailing, owedHead, ht, ho]
    cases evs with
    | nil => rfl
    | cons e es =>
      exfalso
      have : ∀ e es, glueCons e es ≠ [] := by
        intro e es; unfold glueCons; split
        · split <;> simp
        · simp
        · simp
      exact this _ _ hz
  rw [h1 fuel hf, this]

/-- C47 fails for a second message: after a message with a payload the next call consumes none of its buffer and
reports nothing, and the call after that begins with another completion although no message came in between. -/
theorem legacy_next_message_stuck (m : Msg) (hm : m.Ok) (ob : List UInt8) (hob : IsOpts 0 m.opts ob) (junk : Dec)
    (hj : junk.tbuf.length = 8) (hp : m.payload ≠ none) (cs : List (List UInt8)) (l : List UInt8)
    (hw : cs.flatten ++ l = wire m ob) (next : List UInt8) (last : Bool) :
    ∃ N d' d2 evs, (∀ fuel, N ≤ fuel → legacyChunks fuel (fresh junk) cs l = .ok (d', evs)) ∧
      (∀ fuel, 0 < fuel → legacyRun fuel d' ⟨next, 0, last⟩ = .ok (d2, ⟨next, 0, last⟩, [])) ∧
      (∀ fuel d3 c3 evs3, legacyRun fuel d2 ⟨next, 0, last⟩ = .ok (d3, c3, evs3) → ∃ es, evs3 = .complete :: es) := by
  obtain ⟨N, d', evs, h1, -, h3⟩ := legacy_payload_message_partial m hm ob hob junk hj hp cs l hw
  refine ⟨N, d', { d' with st := .done }, evs, h1, fun fuel hf => ?_, fun fuel d3 c3 evs3 h => ?_⟩
  · obtain ⟨f, rfl⟩ : ∃ f, fuel = f + 1 := ⟨fuel - 1, by omega⟩
    simp [legacyRun, legacyIterate, legacyDispatch, h3, step]
  · cases fuel with
    | zero => simp [legacyRun] at h
    | succ f =>
      simp only [legacyRun, legacyIterate, legacyDispatch, step] at h
      split at h
      · simp only [Except.ok.injEq, Prod.mk.injEq] at h; exact ⟨[], h.2.2.symm⟩
      · split at h
        · cases h
        · simp only [Except.ok.injEq, Prod.mk.injEq] at h; exact ⟨_, h.2.2.symm⟩

/-- In one buffer no parts are left to be joined. -/
theorem legacy_one (junk : Dec) (hj : junk.tbuf.length = 8) (l : List UInt8) (hh : HOK (fresh junk) l) (hl : l ≠ []) :
    ∃ N d', ∀ fuel, N ≤ fuel → legacyChunks fuel (fresh junk) [] l = .ok (d', lfeed (fresh junk) l) := by
  obtain ⟨a1, a2, a3, a4, -⟩ := fresh_left junk hj l hh
  have hr : (⟨l, 0, true⟩ : Ctx).remainder = l := rfl
  have hi : DInv (fresh junk) ⟨l, 0, true⟩ :=
    ⟨by simp, hj, by simp [fresh], by simp [fresh], by simp [fresh], by simp [fresh], by simp [fresh], by simp [fresh]⟩
  obtain ⟨N, d', evs, X', hrun, hX, hX', -⟩ := legacy_chunk _ (fresh junk) ⟨l, 0, true⟩ [] (lfeed (fresh junk) l) (Nat.lt_succ_self _)
    (by simpa [hr] using a1) a4 hi (by simpa [hr] using a3) (fun _ => rfl) (Or.inl ⟨hl, by simp [Going, fresh]⟩)
  refine ⟨N, d', fun fuel hf => ?_⟩
  obtain ⟨e1, -, e2, -⟩ := hX' rfl
  simp only [legacyChunks, hrun fuel hf]
  rw [hX, e1, e2]

/-- C47: a well-formed message in one buffer is reported in whole parts: with a payload every call that is owed is made,
in order and exactly once; without one, all but a trailing call which is not a value, and no completion. -/
theorem legacy_one_buffer (m : Msg) (hm : m.Ok) (ob : List UInt8) (hob : IsOpts 0 m.opts ob) (junk : Dec)
    (hj : junk.tbuf.length = 8) :
    ∃ N d', ∀ fuel, N ≤ fuel → legacyChunks fuel (fresh junk) [] (wire m ob) =
      .ok (d', if m.payload = none then butTrailing (owedHead m) else owed m) := by
  by_cases hp : m.payload = none
  · obtain ⟨e, hh⟩ := lfeed_nopayload m hm ob hob junk hj hp
    obtain ⟨-, -, -, -, hne, -⟩ := nopayload_feed m hm ob hob junk hj hp
    rw [if_pos hp, ← e]
    exact legacy_one junk hj _ hh hne
  · obtain ⟨-, hh, hne, -⟩ := wire_chunkEnd m hm ob hob junk hj (Or.inr (Or.inr (Or.inr hp)))
    rw [if_neg hp, ← lfeed_payload_message m hm ob hob junk hj hp]
    exact legacy_one junk hj _ hh hne

-- token, an option cut in the middle, an empty option, a payload cut in the middle, an empty buffer
example : ∃ d e, legacyChunks 60 (fresh Dec.zero) [[0x41, 1, 0, 7], [], [0xAA, 0xB3, 0x61], [0x62, 0x63, 0x00, 0xFF, 1]] [2, 3] = .ok (d, e) ∧
    e = [.header ⟨0x41, 1, 0, 7⟩, .token [0xAA] true, .option 11 3, .value 11 [0x61] false, .value 11 [0x62, 0x63] true,
      .option 11 0, .payload [1] false, .payload [2, 3] true, .complete] ∧
    glue e = owed ⟨1, 0, 1, 7, [0xAA], [⟨11, [0x61, 0x62, 0x63]⟩, ⟨11, []⟩], some [1, 2, 3]⟩ := ⟨_, _, rfl, by decide, by decide⟩

example : butTrailing (owedHead ⟨1, 0, 1, 7, [0xAA], [], none⟩) = [.header ⟨0x41, 1, 0, 7⟩] := by decide

end Verif.Props
