import Verif.Props.Diagnostic
import Verif.Props.EchoCuts

/-! # C57: the text of the path of a message in several buffers -/
namespace Verif.Props
open Verif.Model Verif.Spec Verif.Proofs Verif.Model.Header Dec

/-- The text is built from the options as they are seen. -/
theorem buildUri_seen (bufs : List (List UInt8)) : ∀ (os : List Opt) (k : Nat) (bs : List UInt8) (u : Option (List UInt8)),
    (cutOptions bufs k os bs).foldl buildUri u =
      ((seenOpts bufs k os bs).map fun o => Event.option (UInt16.ofNat o.number) o.value true).foldl buildUri u
  | [], _, _, _ => rfl
  | o :: os, k, bs, u => by
    simp only [cutOptions, seenOpts, List.map_cons, List.foldl_cons]
    rw [buildUri_seen bufs os]
    rfl

theorem seenOpts_numbers (bufs : List (List UInt8)) : ∀ (os : List Opt) (k : Nat) (bs : List UInt8),
    (seenOpts bufs k os bs).map Opt.number = os.map Opt.number
  | [], _, _ => rfl
  | o :: os, k, bs => by simp only [seenOpts, List.map_cons, seenOpts_numbers bufs os]

/-- The path as it appears in the text of a message in the buffers `cs` and the final buffer `l`: of each segment the part in
the buffer in which it starts; and an empty segment at the end if the message ends with a path segment that is not empty, has
no payload, and the final buffer is empty. -/
def shownPath (m : Msg) (ob : List UInt8) (cs : List (List UInt8)) (l : List UInt8) : List (List UInt8) :=
  (asSeen m ob (cs ++ [l])).path ++
    (if m.payload = none ∧ l = [] ∧ (∃ o ∈ m.opts.getLast?, o.number = 11 ∧ o.value ≠ []) then [[]] else [])

theorem pathText_append (a b : List (List UInt8)) : pathText (a ++ b) = pathText a ++ pathText b := by simp [pathText]

/-- C57, exactly and for every cut into buffers (empty ones included; partial: room for the text): the text is that of
`shownPath`, whatever was there before. -/
theorem uri_text_cut_exact_partial (m : Msg) (hm : m.Ok) (ob : List UInt8) (hob : IsOpts 0 m.opts ob)
    (junk : Dec) (hj : junk.tbuf.length = 8) (hst : junk.opt.st ≠ .payload ∨ m.token ≠ [] ∨ m.opts ≠ [] ∨ m.payload ≠ none)
    (cs : List (List UInt8)) (l : List UInt8) (hcut : cs.flatten ++ l = wire m ob)
    (hroom : (pathText (shownPath m ob cs l)).length ≤ 127) (u : Option (List UInt8)) :
    ∃ N d' evs, (∀ fuel, N ≤ fuel → deliverChunks fuel (fresh junk) cs l = .ok (d', evs)) ∧
      evs.foldl buildUri u = some (pathText (shownPath m ob cs l)) := by
  obtain ⟨N, d', -, h⟩ := every_cut_exact m hm ob hob junk hj hst cs l hcut
  refine ⟨N, d', _, h, ?_⟩
  have hn : ∀ o ∈ m.opts, o.number < 65536 := by
    have : ∀ (os : List Opt) (p : Nat), OptsOk p os → ∀ o ∈ os, o.number < 65536 := by
      intro os
      induction os with
      | nil => simp
      | cons o os ih =>
        intro p h x hx
        rcases List.mem_cons.1 hx with rfl | hx
        · exact h.2.1
        · exact ih _ h.2.2.2 x hx
    exact this m.opts 0 hm.2.2.2.2.2.1
  have hn' : ∀ o ∈ seenOpts (cs ++ [l]) (4 + m.token.length) m.opts (ob ++ encPayload m.payload), o.number < 65536 := by
    intro o ho
    have h1 := List.mem_map_of_mem (f := Opt.number) ho
    rw [seenOpts_numbers] at h1
    obtain ⟨o', h2, h3⟩ := List.mem_map.1 h1
    rw [← h3]; exact hn o' h2
  have hpay : ∀ (es : List Event) (v : Option (List UInt8)), (∀ e ∈ es, ∃ p b, e = .payload p b) → es.foldl buildUri v = v := by
    intro es
    induction es with
    | nil => intros; rfl
    | cons e es ih =>
      intro v he
      obtain ⟨p, b, rfl⟩ := he e List.mem_cons_self
      exact ih v fun e h => he e (List.mem_cons_of_mem _ h)
  have hpe : ∀ (p : List UInt8) (n : Nat) e, e ∈ payloadEvents p n → ∃ p b, e = .payload p b := by
    intro p n e he
    unfold payloadEvents at he
    split at he
    · simp only [List.mem_cons, List.not_mem_nil, or_false] at he; exact ⟨_, _, he⟩
    · rcases List.mem_cons.1 he with rfl | he
      · exact ⟨_, _, rfl⟩
      · rw [(List.mem_replicate.1 he).2]; exact ⟨_, _, rfl⟩
  generalize hext : (if m.payload = none ∧ l = [] ∧ (∃ o ∈ m.opts.getLast?, o.number = 11 ∧ o.value ≠ []) then [[]] else ([] : List (List UInt8))) = ext
  have hroom' : (pathText (asSeen m ob (cs ++ [l])).path).length + (pathText ext).length ≤ 127 := by
    rw [← hext]
    rw [shownPath, pathText_append, List.length_append] at hroom
    exact hroom
  have hphan : ((phantoms m cs l).map fun k => Event.option (UInt16.ofNat k) [] true).foldl buildUri (some (pathText (asSeen m ob (cs ++ [l])).path)) =
      some (pathText (asSeen m ob (cs ++ [l])).path ++ pathText ext) := by
    unfold phantoms
    by_cases hc : m.payload = none ∧ l = []
    · rw [if_pos hc]
      cases hg : m.opts.getLast? with
      | none =>
        have : ext = [] := by rw [← hext, if_neg]; rintro ⟨-, -, o, ho, -⟩; rw [hg] at ho; simp at ho
        subst this
        simp only []
        have h0 : ¬UInt16.ofNat 0 = 11 := by decide
        by_cases hq : (if m.token = [] then 3 else 2) ≤ trailing cs
        · rw [if_pos hq]
          simp only [List.map_cons, List.map_nil, List.foldl_cons, List.foldl_nil, buildUri, beq_iff_eq, h0, if_false]
          simp [pathText]
        · rw [if_neg hq]
          simp [pathText]
      | some o =>
        simp only []
        have ho := hn o (List.mem_of_getLast? hg)
        by_cases hv : o.value = []
        · have : ext = [] := by
            rw [← hext, if_neg]; rintro ⟨-, -, o', ho', -, h⟩; rw [hg] at ho'; simp at ho'; subst ho'; exact h hv
          subst this
          simp [hv, pathText]
        · rw [if_neg hv]
          by_cases h11 : o.number = 11
          · have : ext = [[]] := by rw [← hext, if_pos]; exact ⟨hc.1, hc.2, o, by simp [hg], h11, hv⟩
            subst this
            have h1 : (pathText [[]]).length = 1 := rfl
            simp only [List.map_cons, List.map_nil, List.foldl_cons, List.foldl_nil, h11, buildUri, show UInt16.ofNat 11 = 11 from rfl,
              beq_self_eq_true, if_true, Option.bind_some, List.length_nil]
            rw [if_pos (by omega)]
            simp [pathText]
          · have : ext = [] := by
              rw [← hext, if_neg]; rintro ⟨-, -, o', ho', h, -⟩; rw [hg] at ho'; simp at ho'; subst ho'; exact h11 h
            subst this
            have h11' : ¬UInt16.ofNat o.number = 11 := by
              rw [← UInt16.toNat_inj, UInt16.toNat_ofNat']
              simp only [show (11 : UInt16).toNat = 11 from rfl]
              omega
            simp [buildUri, h11', pathText]
    · have : ext = [] := by rw [← hext, if_neg]; rintro ⟨h1, h2, -⟩; exact hc ⟨h1, h2⟩
      subst this
      rw [if_neg hc]
      simp [pathText]
  have hopts := buildUri_opts (seenOpts (cs ++ [l]) (4 + m.token.length) m.opts (ob ++ encPayload m.payload)) hn' [] (by
    have : (pathText (asSeen m ob (cs ++ [l])).path).length ≤ 127 := by omega
    simpa [Msg.path, asSeen] using this)
  rw [exactReport, List.foldl_append, List.foldl_append, List.foldl_append, List.foldl_append, List.foldl_append, buildUri_seen]
  simp only [List.foldl_cons, List.foldl_nil, buildUri, hopts, List.nil_append]
  have e : pathText (((seenOpts (cs ++ [l]) (4 + m.token.length) m.opts (ob ++ encPayload m.payload)).filter fun o => o.number = 11).map Opt.value) =
      pathText (asSeen m ob (cs ++ [l])).path := rfl
  rw [e, hphan, hpay _ _ (by
    cases m.payload with
    | none => simp
    | some p => exact fun e he => hpe _ _ e he)]
  rw [shownPath, pathText_append, hext]

theorem seen_text (bufs : List (List UInt8)) : ∀ (os : List Opt) (k : Nat) (bs : List UInt8),
    (pathText (((seenOpts bufs k os bs).filter fun o => o.number = 11).map Opt.value)).length ≤
      (pathText ((os.filter fun o => o.number = 11).map Opt.value)).length ∧
    (pathText (((seenOpts bufs k os bs).filter fun o => o.number = 11).map Opt.value) =
        pathText ((os.filter fun o => o.number = 11).map Opt.value) →
      ((seenOpts bufs k os bs).filter fun o => o.number = 11).map Opt.value = (os.filter fun o => o.number = 11).map Opt.value)
  | [], _, _ => ⟨Nat.le_refl _, fun _ => rfl⟩
  | o :: os, k, bs => by
    simp only [seenOpts]
    generalize hv : k + (bs.length - (behindHead bs).length) = v
    obtain ⟨h1, h2⟩ := seen_text bufs os (v + o.value.length) ((behindHead bs).drop o.value.length)
    generalize hs : seenOpts bufs (v + o.value.length) os ((behindHead bs).drop o.value.length) = s at *
    by_cases h11 : o.number = 11
    · rw [List.filter_cons_of_pos (by simpa using h11), List.filter_cons_of_pos (by simpa using h11)]
      generalize hx : (restOfBuffer v bufs).take o.value.length = x
      have hxl : x.length ≤ o.value.length := by rw [← hx, List.length_take]; omega
      simp only [pathText, List.map_cons, List.flatMap_cons] at h1 h2 ⊢
      refine ⟨?_, fun h => ?_⟩
      · simp only [List.length_append] at h1 ⊢; omega
      · have hl := congrArg List.length h
        simp only [List.length_append] at hl
        obtain ⟨e1, e2⟩ := List.append_inj h (by simp only [List.length_append]; omega)
        rw [h2 e2, List.append_cancel_right e1]
    · rw [List.filter_cons_of_neg (by simpa using h11), List.filter_cons_of_neg (by simpa using h11)]
      exact ⟨h1, h2⟩

/-- C57, for every cut into buffers: the text is right exactly if every path segment lies whole in the buffer in which it starts
and no path segment is made up. -/
theorem uri_text_right_iff (m : Msg) (hm : m.Ok) (ob : List UInt8) (hob : IsOpts 0 m.opts ob) (hroom : (pathText m.path).length < 127)
    (junk : Dec) (hj : junk.tbuf.length = 8) (hst : junk.opt.st ≠ .payload ∨ m.token ≠ [] ∨ m.opts ≠ [] ∨ m.payload ≠ none)
    (cs : List (List UInt8)) (l : List UInt8) (hcut : cs.flatten ++ l = wire m ob) (hl : m.payload ≠ none ∨ l ≠ []) (u : Option (List UInt8)) :
    ∃ N d' evs, (∀ fuel, N ≤ fuel → deliverChunks fuel (fresh junk) cs l = .ok (d', evs)) ∧
      (evs.foldl buildUri u = some (pathText m.path) ↔ (asSeen m ob (cs ++ [l])).path = m.path) := by
  have hs : shownPath m ob cs l = (asSeen m ob (cs ++ [l])).path := by
    rw [shownPath, if_neg, List.append_nil]
    rintro ⟨h1, h2, -⟩
    rcases hl with h | h
    · exact h h1
    · exact h h2
  obtain ⟨h1, h2⟩ := seen_text (cs ++ [l]) m.opts (4 + m.token.length) (ob ++ encPayload m.payload)
  obtain ⟨N, d', evs, h, he⟩ := uri_text_cut_exact_partial m hm ob hob junk hj hst cs l hcut (by
    rw [hs]; exact Nat.le_trans h1 (Nat.le_of_lt hroom)) u
  refine ⟨N, d', evs, h, ?_⟩
  rw [he, hs, Option.some.injEq]
  exact ⟨fun h => h2 h, fun h => by rw [h]⟩

/-- C57 fails for every path segment cut between two buffers: behind at least one byte and before its last, the text is not that of
the path, whatever else is in the message (here: the first path segment, with the options before it in the first buffer). -/
theorem uri_text_cut_wrong (m : Msg) (hm : m.Ok) (os : List Opt) (a b hdr ob : List UInt8) (ha : a ≠ []) (hb : b ≠ [])
    (hopts : m.opts = ⟨11, a ++ b⟩ :: os) (hhdr : HdrOf hdr 11 (a ++ b).length) (hob : IsOpts 11 os ob) (hroom : (pathText m.path).length < 127)
    (junk : Dec) (hj : junk.tbuf.length = 8) (u : Option (List UInt8)) :
    ∃ N d' evs, (∀ fuel, N ≤ fuel → deliverChunks fuel (fresh junk) [encHeader m ++ m.token ++ hdr ++ a] (b ++ ob ++ encPayload m.payload) =
      .ok (d', evs)) ∧ evs.foldl buildUri u ≠ some (pathText m.path) := by
  have hnl : (a ++ b).length < 65536 := by
    have := hm.2.2.2.2.2.1
    rw [hopts] at this
    exact this.2.2.1
  have hob' : IsOpts 0 m.opts (hdr ++ (a ++ b) ++ ob) := by
    rw [hopts]
    exact .cons (o := ⟨11, a ++ b⟩) (Nat.zero_le _) (by show (11 : Nat) < _; omega) hnl hhdr hob
  have hlen : (encHeader m ++ m.token).length = 4 + m.token.length := by simp [encHeader]; omega
  obtain ⟨N, d', evs, h, he⟩ := uri_text_right_iff m hm _ hob' hroom junk hj (Or.inr (Or.inr (Or.inl (by simp [hopts]))))
    [encHeader m ++ m.token ++ hdr ++ a] (b ++ ob ++ encPayload m.payload) (by simp [wire]) (Or.inr (by simp [hb])) u
  refine ⟨N, d', evs, h, fun hc => ?_⟩
  have hp := he.mp hc
  have e1 : behindHead (hdr ++ (a ++ b) ++ ob ++ encPayload m.payload) = a ++ b ++ (ob ++ encPayload m.payload) := by
    rw [List.append_assoc, List.append_assoc, behindHead_hdr hhdr]
  have e2 : 4 + m.token.length + ((hdr ++ (a ++ b) ++ ob ++ encPayload m.payload).length - (a ++ b ++ (ob ++ encPayload m.payload)).length) =
      (encHeader m ++ m.token ++ hdr).length := by
    rw [List.length_append (as := encHeader m ++ m.token), hlen]
    simp only [List.length_append]
    omega
  have e3 : restOfBuffer (encHeader m ++ m.token ++ hdr).length
      [encHeader m ++ m.token ++ hdr ++ a, b ++ ob ++ encPayload m.payload] = a := by
    have := List.length_pos_iff.2 ha
    rw [restOfBuffer_first (by rw [List.length_append (bs := a)]; omega), List.drop_left]
  simp only [Msg.path, asSeen, hopts, seenOpts, List.cons_append, List.nil_append, e1, e2, e3] at hp
  simp only [List.filter_cons, decide_true, if_true, List.map_cons, List.cons.injEq] at hp
  have := congrArg List.length hp.1
  have hbl := List.length_pos_iff.2 hb
  simp only [List.length_take, List.length_append] at this
  omega

/-- C57 fails for a message without payload that ends with a path segment, when an empty buffer ends it: the text has a slash
more than the path (here: everything else in one buffer). -/
theorem uri_text_made_up (m : Msg) (hm : m.Ok) (ob : List UInt8) (hob : IsOpts 0 m.opts ob) (hp : m.payload = none) (o : Opt)
    (ho : m.opts.getLast? = some o) (h11 : o.number = 11) (hv : o.value ≠ []) (hroom : (pathText m.path).length < 127)
    (junk : Dec) (hj : junk.tbuf.length = 8) (u : Option (List UInt8)) :
    ∃ N d' evs, (∀ fuel, N ≤ fuel → deliverChunks fuel (fresh junk) [wire m ob] [] = .ok (d', evs)) ∧
      evs.foldl buildUri u = some (pathText m.path ++ [0x2F]) := by
  have hne : m.opts ≠ [] := by intro h; rw [h] at ho; simp at ho
  have hlen : (encHeader m ++ m.token).length = 4 + m.token.length := by simp [encHeader]; omega
  have hseen : asSeen m ob ([wire m ob] ++ [[]]) = m := by
    have := seen_first hob (wire m ob) [[]] (encHeader m ++ m.token) (encPayload m.payload) ⟨encPayload m.payload, by simp [wire]⟩ (by simp [wire])
    rw [hlen] at this
    rw [List.cons_append, List.nil_append, asSeen, this]
  have hs : shownPath m ob [wire m ob] [] = m.path ++ [[]] := by
    rw [shownPath, hseen, if_pos]
    exact ⟨hp, rfl, o, by simp [ho], h11, hv⟩
  have ht : pathText (m.path ++ [[]]) = pathText m.path ++ [0x2F] := by rw [pathText_append]; rfl
  obtain ⟨N, d', evs, h, he⟩ := uri_text_cut_exact_partial m hm ob hob junk hj (Or.inr (Or.inr (Or.inl hne))) [wire m ob] [] (by simp)
    (by rw [hs, ht]; simp only [List.length_append, List.length_cons, List.length_nil]; omega) u
  exact ⟨N, d', evs, h, by rw [he, hs, ht]⟩

-- `/abc/d`, cut behind the `a`
example : (asSeen ⟨1, 0, 1, 7, [], [⟨11, [0x61, 0x62, 0x63]⟩, ⟨11, [0x64]⟩], none⟩ [0xB3, 0x61, 0x62, 0x63, 0x01, 0x64]
    [[0x40, 1, 0, 7, 0xB3, 0x61], [0x62, 0x63, 0x01, 0x64]]).path = [[0x61], [0x64]] := by decide
example : HdrOf [0xB3] 11 ([0x61] ++ [0x62, 0x63] : List UInt8).length :=
  ⟨0xB3, [], [], rfl, by decide, fun t => ⟨11, rfl, rfl⟩, fun t => ⟨3, rfl, rfl⟩⟩
-- `/a` followed by an empty buffer reads `a//`
example : ∃ d evs, deliverChunks 60 (fresh Dec.zero) [[0x40, 1, 0, 7, 0xB1, 0x61]] [] = .ok (d, evs) ∧
    evs.foldl buildUri none = some [0x61, 0x2F, 0x2F] := ⟨_, _, rfl, by decide⟩

/-! ## C56: what is shown of a message in several buffers -/

/-- The numbers of the options that are shown as text: Uri-Host, Location-Path, Uri-Path and Uri-Query. -/
def textNumbers : List Nat := [3, 8, 11, 15]

theorem getFormat_text (n : UInt16) : OptionMeta.getFormat n = .string ↔ n.toNat ∈ textNumbers := by
  have hk : ∀ k : UInt16, (n == k) = decide (n.toNat = k.toNat) := by
    intro k
    by_cases h : n = k
    · simp [h]
    · have : ¬n.toNat = k.toNat := fun h' => h (UInt16.toNat_inj.1 h')
      simp [h, this]
  simp only [OptionMeta.getFormat, hk, show (1 : UInt16).toNat = 1 from rfl, show (3 : UInt16).toNat = 3 from rfl, show (4 : UInt16).toNat = 4 from rfl,
    show (5 : UInt16).toNat = 5 from rfl, show (7 : UInt16).toNat = 7 from rfl, show (8 : UInt16).toNat = 8 from rfl,
    show (11 : UInt16).toNat = 11 from rfl, show (12 : UInt16).toNat = 12 from rfl, show (15 : UInt16).toNat = 15 from rfl,
    show (17 : UInt16).toNat = 17 from rfl, show (23 : UInt16).toNat = 23 from rfl, show (27 : UInt16).toNat = 27 from rfl, textNumbers,
    List.mem_cons, List.not_mem_nil, or_false]
  generalize n.toNat = a
  by_cases h : a ∈ [1, 3, 4, 5, 7, 8, 11, 12, 15, 17, 23, 27]
  · simp only [List.mem_cons, List.not_mem_nil, or_false] at h
    rcases h with h | h | h | h | h | h | h | h | h | h | h | h <;> subst h <;> decide
  · simp only [List.mem_cons, List.not_mem_nil, or_false, not_or] at h
    simp [h]

/-- An event during which the observer stays inside its memory. -/
theorem showEvent_inside (e : Event) :
    (∃ ls, showEvent e = some ls) ↔ ∀ n v l, e = .option n v l → n.toNat ∈ textNumbers → v.length ≤ 127 := by
  cases e with
  | option n v l =>
    have ht : (∃ t, showText v = some t) ↔ v.length ≤ 127 := by
      rw [showText]
      by_cases h : (v.take 128).length < 128
      · rw [if_pos h]; rw [List.length_take] at h; exact ⟨fun _ => by omega, fun _ => ⟨_, rfl⟩⟩
      · rw [if_neg h]; rw [List.length_take] at h; exact ⟨fun ⟨_, h'⟩ => by simp at h', fun _ => by omega⟩
    constructor
    · rintro ⟨ls, h⟩ n' v' l' he hn
      cases he
      rw [showEvent, showValue, (getFormat_text n).2 hn] at h
      simp only [] at h
      refine ht.1 ?_
      cases hs : showText v with
      | none => rw [hs] at h; simp at h
      | some t => exact ⟨t, rfl⟩
    · intro h
      rw [showEvent, showValue]
      cases hf : OptionMeta.getFormat n with
      | string =>
        obtain ⟨t, ht'⟩ := ht.2 (h n v l rfl ((getFormat_text n).1 hf))
        exact ⟨_, by rw [ht']; rfl⟩
      | empty => exact ⟨_, rfl⟩
      | «opaque» => exact ⟨_, rfl⟩
      | uint => exact ⟨_, rfl⟩
      | unknown => exact ⟨_, rfl⟩
  | _ => exact ⟨fun _ _ _ _ h => by simp at h, fun _ => ⟨_, rfl⟩⟩

/-- C56: whatever is dispatched to it — from any bytes, in any buffers — the observer stays inside its memory exactly if no text
option of 128 or more bytes is reported. -/
theorem diagnostic_inside_iff : ∀ evs : List Event,
    (∃ ls, showEvents evs = some ls) ↔ ∀ n v l, Event.option n v l ∈ evs → n.toNat ∈ textNumbers → v.length ≤ 127
  | [] => ⟨fun _ _ _ _ h => by simp at h, fun _ => ⟨_, rfl⟩⟩
  | e :: es => by
    have ih := diagnostic_inside_iff es
    have he := showEvent_inside e
    have : (∃ ls, showEvents (e :: es) = some ls) ↔ (∃ ls, showEvent e = some ls) ∧ ∃ ls, showEvents es = some ls := by
      simp only [showEvents]
      cases showEvent e with
      | none => simp
      | some a => cases showEvents es <;> simp
    rw [this, he, ih]
    constructor
    · rintro ⟨h1, h2⟩ n v l hm hn
      rcases List.mem_cons.1 hm with h | h
      · exact h1 n v l h.symm hn
      · exact h2 n v l h hn
    · intro h
      exact ⟨fun n v l he => h n v l (he ▸ List.mem_cons_self), fun n v l hm => h n v l (List.mem_cons_of_mem _ hm)⟩

theorem opts_small {os : List Opt} : ∀ {p : Nat}, OptsOk p os → ∀ o ∈ os, o.number < 65536 := by
  induction os with
  | nil => simp
  | cons o os ih =>
    intro p h x hx
    rcases List.mem_cons.1 hx with rfl | hx
    · exact h.2.1
    · exact ih h.2.2.2 x hx

/-- C56: a message in one buffer keeps the observer inside its memory exactly if none of its text options has 128 or more bytes. -/
theorem diagnostic_message_inside_iff (m : Msg) (hm : m.Ok) (ob : List UInt8) (hob : IsOpts 0 m.opts ob) :
    (∃ ls, Prints m ob (some ls)) ↔ ∀ o ∈ m.opts, o.number ∈ textNumbers → o.value.length ≤ 127 := by
  have hn := opts_small hm.2.2.2.2.2.1
  have hnum : ∀ o ∈ m.opts, (UInt16.ofNat o.number).toNat = o.number := fun o ho => by
    have := hn o ho
    rw [UInt16.toNat_ofNat']; omega
  have key : (∃ ls, showEvents (delivery m) = some ls) ↔ ∀ o ∈ m.opts, o.number ∈ textNumbers → o.value.length ≤ 127 := by
    rw [diagnostic_inside_iff]
    constructor
    · intro h o ho ht
      refine h (UInt16.ofNat o.number) o.value true ?_ (by rw [hnum o ho]; exact ht)
      simp only [delivery, List.mem_append, List.mem_map]
      exact Or.inl (Or.inl (Or.inl (Or.inr ⟨o, ho, rfl⟩)))
    · intro h n v l he ht
      simp only [delivery, List.mem_append, List.mem_map] at he
      have : ∃ o ∈ m.opts, Event.option (UInt16.ofNat o.number) o.value true = .option n v l := by
        rcases he with (((he | he) | he) | he) | he
        · simp at he
        · exact he
        · simp at he
        · cases hp : m.payload <;> rw [hp] at he <;> simp at he
        · simp at he
      obtain ⟨o, ho, e⟩ := this
      cases e
      rw [hnum o ho] at ht
      exact h o ho ht
  constructor
  · rintro ⟨ls, h⟩
    obtain ⟨N, d', c', evs, h1, h2⟩ := h { Dec.zero with opt := { Dec.zero.opt with st := .garbage } } (by decide) (Or.inl (by decide))
    obtain ⟨N', d'', -, -, h3⟩ := wire_delivered_partial m hm ob hob { Dec.zero with opt := { Dec.zero.opt with st := .garbage } } (by decide) (Or.inl (by decide))
    have e := (h1 (max N N') (Nat.le_max_left ..)).symm.trans (h3 _ (Nat.le_max_right ..))
    simp only [Except.ok.injEq, Prod.mk.injEq] at e
    exact key.1 ⟨ls, e.2.2 ▸ h2⟩
  · intro h
    obtain ⟨ls, h'⟩ := key.2 h
    exact ⟨ls, prints_of m hm ob hob _ h'⟩

/-- The options that are shown of a message in the buffers `cs` and the final buffer `l`: of each value the part in the buffer in
which it starts, and behind them those that are made up (an empty one more, after an empty last buffer). -/
def shownOpts (m : Msg) (ob : List UInt8) (cs : List (List UInt8)) (l : List UInt8) : List Opt :=
  (asSeen m ob (cs ++ [l])).opts ++ (phantoms m cs l).map fun k => ⟨k, []⟩

theorem showEvents_seen (bufs : List (List UInt8)) : ∀ (os : List Opt) (k : Nat) (bs : List UInt8),
    showEvents (cutOptions bufs k os bs) =
      showEvents ((seenOpts bufs k os bs).map fun o => Event.option (UInt16.ofNat o.number) o.value true)
  | [], _, _ => rfl
  | o :: os, k, bs => by
    simp only [cutOptions, seenOpts, List.map_cons, showEvents]
    rw [showEvents_seen bufs os]
    rfl

/-- The lines of the payload: the part in the buffer in which it starts, and an empty one for each buffer that follows (one
less if the part itself is empty). -/
def payloadLines (q : List UInt8) (n : Nat) : List Line :=
  match n with
  | 0 => [.payload q.length q]
  | n + 1 => .payload q.length q :: List.replicate (if q = [] then n else n + 1) (.payload 0 [])

theorem showEvents_payload (q : List UInt8) (n : Nat) : showEvents (payloadEvents q n) = some (payloadLines q n) := by
  have hr : ∀ k, showEvents (List.replicate k (.payload [] false)) = some (List.replicate k (.payload 0 [])) := by
    intro k
    induction k with
    | zero => rfl
    | succ k ih => simp [List.replicate_succ, showEvents, showEvent, ih]
  cases n with
  | zero => rfl
  | succ n => simp [payloadEvents, payloadLines, showEvents, showEvent, hr]

/-- C56, for every cut into buffers (partial: what is shown is made of options whose format the code knows, with numbers of at most
eight bytes and texts of at most 127 bytes without zero): the lines are those of the header, the token, the options as they are
seen in the buffers, the beginning of the payload and the end. -/
theorem diagnostic_cut_exact_partial (m : Msg) (hm : m.Ok) (ob : List UInt8) (hob : IsOpts 0 m.opts ob)
    (junk : Dec) (hj : junk.tbuf.length = 8) (hst : junk.opt.st ≠ .payload ∨ m.token ≠ [] ∨ m.opts ≠ [] ∨ m.payload ≠ none)
    (cs : List (List UInt8)) (l : List UInt8) (hcut : cs.flatten ++ l = wire m ob) (hs : ∀ o ∈ shownOpts m ob cs l, ∃ f, Showable o f) :
    ∃ N d' evs ls, (∀ fuel, N ≤ fuel → deliverChunks fuel (fresh junk) cs l = .ok (d', evs)) ∧ OwedLines (shownOpts m ob cs l) ls ∧
      showEvents evs = some (.header (UInt8.ofNat m.token.length) (UInt16.ofNat m.mid) :: .token m.token :: (ls ++
        (match m.payload with
         | none => []
         | some _ => payloadLines (payloadPart (4 + m.token.length + ob.length + 1) (cs ++ [l])).1
            (payloadPart (4 + m.token.length + ob.length + 1) (cs ++ [l])).2) ++ [.completed])) := by
  obtain ⟨N, d', -, h⟩ := every_cut_exact m hm ob hob junk hj hst cs l hcut
  obtain ⟨ls, e, hl⟩ := options_shown (shownOpts m ob cs l) hs
  refine ⟨N, d', _, ls, h, hl, ?_⟩
  have e' : showEvents (cutOptions (cs ++ [l]) (4 + m.token.length) m.opts (ob ++ encPayload m.payload) ++
      (phantoms m cs l).map fun k => .option (UInt16.ofNat k) [] true) = some ls := by
    rw [← e, shownOpts, List.map_append, showEvents_append, showEvents_append, showEvents_seen, List.map_map]
    rfl
  have hb : exactReport m ob cs l = [.header ⟨UInt8.ofNat (64 * m.version + 16 * m.type + m.token.length), UInt8.ofNat m.code,
      UInt8.ofNat (m.mid / 256), UInt8.ofNat (m.mid % 256)⟩, .token m.token, .optionStart] ++
      ((cutOptions (cs ++ [l]) (4 + m.token.length) m.opts (ob ++ encPayload m.payload) ++
      (phantoms m cs l).map fun k => .option (UInt16.ofNat k) [] true) ++ ([.optionsCompleted] ++
      ((match m.payload with
       | none => []
       | some _ => payloadEvents (payloadPart (4 + m.token.length + ob.length + 1) (cs ++ [l])).1
          (payloadPart (4 + m.token.length + ob.length + 1) (cs ++ [l])).2) ++ [.completed]))) := by
    simp only [exactReport, List.append_assoc]
    cases m.payload <;> rfl
  rw [hb, showEvents_append, showEvents_append, e', showEvents_append, showEvents_append]
  simp only [showEvents, header_line m hm]
  cases m.payload with
  | none => simp [showEvents, showEvent]
  | some p => simp [showEvents_payload, showEvents, showEvent]

/-- C56 fails for every option cut between two buffers behind at least one byte: if the observer stays inside its memory, the line of
the option shows the length of the first part (here: the first option). -/
theorem diagnostic_cut_wrong (m : Msg) (hm : m.Ok) (os : List Opt) (k : Nat) (a b hdr ob : List UInt8) (ha : a ≠ [])
    (hopts : m.opts = ⟨k, a ++ b⟩ :: os) (hhdr : HdrOf hdr k (a ++ b).length) (hob : IsOpts k os ob)
    (junk : Dec) (hj : junk.tbuf.length = 8) :
    ∃ N d' evs, (∀ fuel, N ≤ fuel → deliverChunks fuel (fresh junk) [encHeader m ++ m.token ++ hdr ++ a] (b ++ ob ++ encPayload m.payload) =
      .ok (d', evs)) ∧ ∀ ls, showEvents evs = some ls → ∃ name s rest,
        ls = .header (UInt8.ofNat m.token.length) (UInt16.ofNat m.mid) :: .token m.token ::
          .option (UInt16.ofNat k) a.length name s :: rest := by
  have hok := hm.2.2.2.2.2.1
  rw [hopts] at hok
  have hob' : IsOpts 0 m.opts (hdr ++ (a ++ b) ++ ob) := by
    rw [hopts]
    exact .cons (o := ⟨k, a ++ b⟩) (Nat.zero_le _) hok.2.1 hok.2.2.1 hhdr hob
  have hlen : (encHeader m ++ m.token).length = 4 + m.token.length := by simp [encHeader]; omega
  obtain ⟨N, d', -, h⟩ := every_cut_exact m hm _ hob' junk hj (Or.inr (Or.inr (Or.inl (by simp [hopts]))))
    [encHeader m ++ m.token ++ hdr ++ a] (b ++ ob ++ encPayload m.payload) (by simp [wire])
  refine ⟨N, d', _, h, fun ls hls => ?_⟩
  have e1 : behindHead (hdr ++ (a ++ b) ++ ob ++ encPayload m.payload) = a ++ b ++ (ob ++ encPayload m.payload) := by
    rw [List.append_assoc, List.append_assoc, behindHead_hdr hhdr]
  have e2 : 4 + m.token.length + ((hdr ++ (a ++ b) ++ ob ++ encPayload m.payload).length - (a ++ b ++ (ob ++ encPayload m.payload)).length) =
      (encHeader m ++ m.token ++ hdr).length := by
    rw [List.length_append (as := encHeader m ++ m.token), hlen]
    simp only [List.length_append]
    omega
  have e3 : restOfBuffer (encHeader m ++ m.token ++ hdr).length
      [encHeader m ++ m.token ++ hdr ++ a, b ++ ob ++ encPayload m.payload] = a := by
    have := List.length_pos_iff.2 ha
    rw [restOfBuffer_first (by rw [List.length_append (bs := a)]; omega), List.drop_left]
  have e4 : a.take (a ++ b).length = a := List.take_of_length_le (by simp)
  unfold exactReport at hls
  simp only [hopts, cutOptions, List.cons_append, List.nil_append, e1, e2, e3, e4] at hls
  simp only [showEvents, header_line m hm] at hls
  simp only [showEvent, Option.bind_some, Option.map_map] at hls
  cases hv : showValue (UInt16.ofNat k) a with
  | none => rw [hv] at hls; simp at hls
  | some s =>
    rw [hv] at hls
    simp only [Option.map_some, Option.bind_some, Option.map_map, Option.map_eq_some_iff] at hls
    obtain ⟨rest, -, rfl⟩ := hls
    exact ⟨_, s, _, rfl⟩

-- `/abc` cut behind the `a`: shown as a path of one byte
example : ∃ d evs, deliverChunks 60 (fresh Dec.zero) [[0x40, 1, 0, 7, 0xB3, 0x61]] [0x62, 0x63] = .ok (d, evs) ∧
    showEvents evs = some [.header 0 7, .token [], .option 11 1 "Uri-Path" (.text [0x61]), .completed] := ⟨_, _, rfl, by decide⟩

end Verif.Props
