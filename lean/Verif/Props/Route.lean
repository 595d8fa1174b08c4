import Verif.Proofs.Route
import Verif.Props.Dispatch
import Verif.Props.Legacy

/-! # Nested dispatchers (C53) -/
namespace Verif.Props
open Verif.Model Verif.Model.Dispatch Verif.Proofs Verif.Proofs.Route Verif.Spec Dec

/-- A call of the older observer interface as the dispatchers get it. -/
def toCall : LEvent → Call
  | .header h => .header h
  | .token p l => .token p l
  | .option n l => .optionHead n l
  | .value n p l => .option n p l
  | .payload p l => .payload p l
  | .complete => .complete

theorem startsWithUri_agree (cs : Bool) : ∀ (seg name : List UInt8), startsWithUri cs seg name = true ↔ Agree cs seg name
  | seg, [] => by cases seg <;> simp [startsWithUri, Agree]
  | [], p :: ps => by simp [startsWithUri, Agree]
  | b :: s, p :: ps => by
    have ih := startsWithUri_agree cs s ps
    have hsame : sameChar cs p b = true ↔ b = p ∧ (cs = true → p < 128) := by
      simp only [sameChar, Bool.and_eq_true, beq_iff_eq, Bool.not_eq_true', Bool.and_eq_false_iff, decide_eq_false_iff_not,
        UInt8.not_le]
      cases cs <;> simp [eq_comm]
    have hag : Agree cs (b :: s) (p :: ps) ↔ (b = p ∧ (cs = true → p < 128)) ∧ Agree cs s ps := by
      constructor
      · intro h
        exact ⟨h 0 b p rfl rfl, fun i x y hx hy => h (i + 1) x y (by simpa using hx) (by simpa using hy)⟩
      · rintro ⟨h1, h2⟩ i x y hx hy
        cases i with
        | zero =>
          simp only [List.getElem?_cons_zero, Option.some.injEq] at hx hy
          subst hx; subst hy; exact h1
        | succ i => exact h2 i x y (by simpa using hx) (by simpa using hy)
    rw [startsWithUri, hag, ← ih, ← hsame]
    cases sameChar cs p b <;> simp

theorem lastAgree_none (cs : Bool) (seg : List UInt8) : ∀ kids : List Route,
    lastAgree cs kids seg = none ↔ ∀ k ∈ kids, ¬Agree cs seg k.pre
  | [] => by simp [lastAgree]
  | k :: kids => by
    have ih := lastAgree_none cs seg kids
    rw [lastAgree]
    cases h : lastAgree cs kids seg with
    | some r =>
      rw [h] at ih
      simp only [reduceCtorEq, false_iff, List.mem_cons, forall_eq_or_imp] at ih ⊢
      exact fun h' => ih h'.2
    | none =>
      rw [h] at ih
      simp only [true_iff] at ih
      simp only [List.mem_cons, forall_eq_or_imp, ih, ← startsWithUri_agree]
      cases hb : startsWithUri cs seg k.pre
      · simpa using fun a ha => Bool.eq_false_iff.2 (fun h' => ih a ha ((startsWithUri_agree cs seg a.pre).1 h'))
      · simp

theorem lastAgree_some (cs : Bool) (seg : List UInt8) : ∀ (kids : List Route) (k : Route),
    lastAgree cs kids seg = some k → LastAgreeing cs kids seg k
  | [], k, h => by simp [lastAgree] at h
  | k' :: kids, k, h => by
    rw [lastAgree] at h
    cases hk : lastAgree cs kids seg with
    | some r =>
      rw [hk] at h
      simp only [Option.some.injEq] at h
      subst h
      obtain ⟨a, b, e, h1, h2⟩ := lastAgree_some cs seg kids r hk
      exact ⟨k' :: a, b, by rw [e]; rfl, h1, h2⟩
    | none =>
      rw [hk] at h
      have hn := (lastAgree_none cs seg kids).1 hk
      cases hb : startsWithUri cs seg k'.pre
      · simp [hb] at h
      · simp only [hb, if_true, Option.some.injEq] at h
        subst h
        exact ⟨[], kids, rfl, (startsWithUri_agree cs seg k'.pre).1 hb, hn⟩

theorem lastAgree_of (cs : Bool) (seg : List UInt8) (k : Route) : ∀ kids : List Route,
    LastAgreeing cs kids seg k → lastAgree cs kids seg = some k := by
  rintro kids ⟨a, b, rfl, h1, h2⟩
  have hb := (lastAgree_none cs seg b).2 h2
  induction a with
  | nil => simp [lastAgree, hb, (startsWithUri_agree cs seg k.pre).2 h1]
  | cons x a ih => rw [List.cons_append, lastAgree, ih]

theorem uri_number {o : Opt} (h : o.number < 65536) : UInt16.ofNat o.number = 11 ↔ o.number = 11 := by
  rw [← UInt16.toNat_inj, UInt16.toNat_ofNat']
  simp only [show (11 : UInt16).toNat = 11 from rfl]
  omega

/-- The calls about these options. -/
def optCalls (os : List Opt) : List Call := (os.flatMap owedOption).map toCall

theorem optCalls_cons (o : Opt) (os : List Opt) : optCalls (o :: os) =
    .optionHead (UInt16.ofNat o.number) (UInt16.ofNat o.value.length) ::
      ((if o.value = [] then [] else [.option (UInt16.ofNat o.number) o.value true]) ++ optCalls os) := by
  simp only [optCalls, List.flatMap_cons, List.map_append, owedOption, List.map_cons, List.cons_append, toCall]
  split <;> simp [toCall]

theorem goes_pass (cs : Bool) (kids : List Route) (o : Opt) (os : List Opt) (t : List Call) (hn : o.number < 65536)
    (h : o.number ≠ 11 ∨ o.value = []) : goes cs kids (optCalls (o :: os) ++ t) = goes cs kids (optCalls os ++ t) := by
  rw [optCalls_cons]
  by_cases hv : o.value = []
  · simp [hv, goes]
  · have h11 : ¬(UInt16.ofNat o.number = 11) := fun h' => by
      rcases h with h | h
      · exact h ((uri_number hn).1 h')
      · exact hv h
    simp [hv, goes, h11]

theorem goes_turn (cs : Bool) (kids : List Route) (o : Opt) (os : List Opt) (t : List Call) (h : o.number = 11) (hv : o.value ≠ []) :
    goes cs kids (optCalls (o :: os) ++ t) =
      match lastAgree cs kids o.value with
      | none => []
      | some (.leaf _ id) => (optCalls os ++ t).map (id, ·)
      | some (.node _ below) => goes cs below (optCalls os ++ t) := by
  rw [optCalls_cons, h]
  simp only [hv, if_false, goes, List.cons_append, List.nil_append, if_true, show UInt16.ofNat 11 = 11 from rfl]
  cases lastAgree cs kids o.value with
  | none => rfl
  | some k => cases k <;> rfl

theorem goes_arrives {cs : Bool} {kids : List Route} {os : List Opt} {id : Nat} {rest : List Opt} (h : Arrives cs kids os id rest)
    (t : List Call) (hn : ∀ o ∈ os, o.number < 65536) : goes cs kids (optCalls os ++ t) = (optCalls rest ++ t).map (id, ·) := by
  induction h with
  | skip h1 h2 ih =>
    rw [goes_pass _ _ _ _ _ (hn _ List.mem_cons_self) h1]
    exact ih fun o ho => hn o (List.mem_cons_of_mem _ ho)
  | leaf h1 h2 h3 => rw [goes_turn _ _ _ _ _ h1 h2, lastAgree_of _ _ _ _ h3]
  | node h1 h2 h3 h4 ih =>
    rw [goes_turn _ _ _ _ _ h1 h2, lastAgree_of _ _ _ _ h3]
    exact ih fun o ho => hn o (List.mem_cons_of_mem _ ho)

theorem goes_payload (cs : Bool) (kids : List Route) : ∀ t : List Call, (∀ c ∈ t, ∃ p l, c = .payload p l) → goes cs kids t = []
  | [], _ => by simp [goes]
  | c :: t, h => by
    obtain ⟨p, l, rfl⟩ := h c List.mem_cons_self
    rw [goes]
    · exact goes_payload cs kids t fun c hc => h c (List.mem_cons_of_mem _ hc)
    · simp

theorem goes_nowhere (cs : Bool) : ∀ (os : List Opt) (kids : List Route) (t : List Call), (¬∃ id rest, Arrives cs kids os id rest) →
    (∀ o ∈ os, o.number < 65536) → (∀ c ∈ t, ∃ p l, c = .payload p l) → goes cs kids (optCalls os ++ t) = []
  | [], kids, t, _, _, ht => by simpa [optCalls] using goes_payload cs kids t ht
  | o :: os, kids, t, h, hn, ht => by
    have hn' : ∀ o ∈ os, o.number < 65536 := fun o ho => hn o (List.mem_cons_of_mem _ ho)
    by_cases ho : o.number ≠ 11 ∨ o.value = []
    · rw [goes_pass _ _ _ _ _ (hn _ List.mem_cons_self) ho]
      exact goes_nowhere cs os kids t (fun ⟨id, rest, h'⟩ => h ⟨id, rest, .skip ho h'⟩) hn' ht
    · have h1 : o.number = 11 := by
        by_cases h' : o.number = 11
        · exact h'
        · exact absurd (Or.inl h') ho
      have h2 : o.value ≠ [] := fun h' => ho (Or.inr h')
      rw [goes_turn _ _ _ _ _ h1 h2]
      cases hk : lastAgree cs kids o.value with
      | none => rfl
      | some k =>
        have hl := lastAgree_some cs _ _ _ hk
        cases k with
        | leaf name id => exact absurd ⟨id, os, .leaf h1 h2 hl⟩ h
        | node name below => exact goes_nowhere cs os below t (fun ⟨id, rest, h'⟩ => h ⟨id, rest, .node h1 h2 hl h'⟩) hn' ht

/-- Calls at the beginning of a request. -/
def Opening : Call → Prop
  | .header h => h.isRequest = true
  | .token _ _ => True
  | _ => False

theorem opening_asking (cs : Bool) (kids : List Route) : ∀ (calls : List Call) (d : DState'), Asking kids d → (∀ c ∈ calls, Opening c) →
    (dispCalls cs kids d calls).2 = [] ∧ Asking kids (dispCalls cs kids d calls).1
  | [], d, h, _ => ⟨rfl, h⟩
  | c :: calls, d, h, ho => by
    have hc := ho c List.mem_cons_self
    have h1 : dispCall cs kids d c = passKids cs kids 0 c d.states d.chosen := by
      cases c <;> simp [Opening] at hc <;> simp only [dispCall, dispatch, h.none_]
    obtain ⟨e1, e2⟩ := asking_pass (cs := cs) h c (fun k _ => by
      cases c <;> simp only [Opening] at hc
      · simp [firstAnswer, UriHandler.call, hc]
      · simp [firstAnswer, UriHandler.call])
    simp only [dispCalls, h1, e1, List.nil_append]
    exact opening_asking cs kids calls _ e2 fun x hx => ho x (List.mem_cons_of_mem _ hx)

/-- A request as a sequence of calls. -/
theorem request_goes (cs : Bool) (kids : List Route) (a b c : List Call) (ha : ∀ x ∈ a, Opening x) (hb : ∀ x ∈ b, Body x)
    (hc : c = [] ∨ c = [.complete]) : (dispCalls cs kids (DState'.init kids) (a ++ (b ++ c))).2 = goes cs kids b := by
  obtain ⟨e1, e2⟩ := opening_asking cs kids a _ (init_asking kids) ha
  rw [dispCalls_append, e1, List.nil_append, dispCalls_append]
  simp only []
  rw [body_goes cs b kids _ e2 hb]
  rcases hc with rfl | rfl
  · simp [dispCalls]
  · simp [dispCalls, dispCall, dispatch, complete_silent]

theorem optCalls_body (os : List Opt) : ∀ c ∈ optCalls os, Body c := by
  intro c hc
  simp only [optCalls, List.mem_map, List.mem_flatMap] at hc
  obtain ⟨e, ⟨o, -, he⟩, rfl⟩ := hc
  simp only [owedOption, List.mem_cons] at he
  rcases he with rfl | he
  · trivial
  · split at he
    · simp at he
    · simp only [List.mem_cons, List.not_mem_nil, or_false] at he; subst he; trivial

theorem request_header (m : Msg) (h : m.code < 32) (b : UInt8) :
    (⟨b, UInt8.ofNat m.code, UInt8.ofNat (m.mid / 256), UInt8.ofNat (m.mid % 256)⟩ : Header).isRequest = true := by
  simp only [Header.isRequest, Header.code, beq_iff_eq, ← UInt8.toNat_inj]
  have : (UInt8.ofNat m.code >>> 5).toNat = (UInt8.ofNat m.code).toNat / 32 := by simp [Nat.shiftRight_eq_div_pow]
  rw [this, UInt8.toNat_ofNat', Nat.mod_eq_of_lt (by omega), Nat.div_eq_of_lt h]; rfl

theorem optsOk_numbers : ∀ (os : List Opt) (p : Nat), OptsOk p os → ∀ o ∈ os, o.number < 65536
  | [], _, _, _, h => by simp at h
  | o :: os, p, hp, x, hx => by
    rcases List.mem_cons.1 hx with rfl | hx
    · exact hp.2.1
    · exact optsOk_numbers os o.number hp.2.2.2 x hx

/-- The calls an observer gets that was arrived at with the options `rest` still to come. -/
def handed (m : Msg) (rest : List Opt) : List Call :=
  match m.payload with
  | none => (butTrailing (rest.flatMap owedOption)).map toCall
  | some p => optCalls rest ++ [.payload p true]

theorem arrives_snoc {cs : Bool} {o : Opt} (ho : o.value = []) : ∀ (os : List Opt) (kids : List Route) (id : Nat) (rest : List Opt),
    Arrives cs kids (os ++ [o]) id rest ↔ ∃ rest', rest = rest' ++ [o] ∧ Arrives cs kids os id rest'
  | [], kids, id, rest => by
    constructor
    · intro h
      cases h with
      | skip _ h => cases h
      | leaf _ h _ => exact absurd ho h
      | node _ h _ _ => exact absurd ho h
    · rintro ⟨r, -, h⟩; cases h
  | x :: os, kids, id, rest => by
    constructor
    · intro h
      cases h with
      | skip h1 h2 =>
        obtain ⟨r, e, h⟩ := (arrives_snoc ho os kids id rest).1 h2
        exact ⟨r, e, .skip h1 h⟩
      | leaf h1 h2 h3 => exact ⟨os, rfl, .leaf h1 h2 h3⟩
      | node h1 h2 h3 h4 =>
        obtain ⟨r, e, h⟩ := (arrives_snoc ho os _ id rest).1 h4
        exact ⟨r, e, .node h1 h2 h3 h⟩
    · rintro ⟨r, e, h⟩
      cases h with
      | skip h1 h2 => exact .skip h1 ((arrives_snoc ho os kids id rest).2 ⟨r, e, h2⟩)
      | leaf h1 h2 h3 => subst e; exact .leaf h1 h2 h3
      | node h1 h2 h3 h4 => exact .node h1 h2 h3 ((arrives_snoc ho os _ id rest).2 ⟨r, e, h4⟩)

theorem arrives_suffix {cs : Bool} {kids : List Route} {os : List Opt} {id : Nat} {rest : List Opt} (h : Arrives cs kids os id rest) :
    rest <:+ os := by
  induction h with
  | skip _ _ ih => exact ih.trans (List.suffix_cons _ _)
  | leaf _ _ _ => exact List.suffix_cons _ _
  | node _ _ _ _ ih => exact ih.trans (List.suffix_cons _ _)

theorem butTrailing_value (l : List LEvent) (os : List Opt) (o : Opt) (ho : o.value ≠ []) :
    butTrailing (l ++ (os ++ [o]).flatMap owedOption) = l ++ (os ++ [o]).flatMap owedOption := by
  simp [butTrailing, owedOption, ho, List.getLast?_append, List.getLast?_cons]

theorem butTrailing_empty (l : List LEvent) (os : List Opt) (o : Opt) (ho : o.value = []) :
    butTrailing (l ++ (os ++ [o]).flatMap owedOption) = l ++ os.flatMap owedOption := by
  have : l ++ (os ++ [o]).flatMap owedOption = (l ++ os.flatMap owedOption) ++ [.option (UInt16.ofNat o.number) 0] := by
    simp [owedOption, ho]
  rw [this]; simp [butTrailing]

/-- The calls of the older dispatch for a whole message, and what the dispatchers make of them. -/
theorem message_goes (cs : Bool) (kids : List Route) (m : Msg) (hm : m.Ok) (hreq : m.code < 32) :
    (∀ id rest, Arrives cs kids m.opts id rest →
      (dispCalls cs kids (DState'.init kids) ((if m.payload = none then butTrailing (owedHead m) else owed m).map toCall)).2 =
        (handed m rest).map (id, ·)) ∧
    ((¬∃ id rest, Arrives cs kids m.opts id rest) →
      (dispCalls cs kids (DState'.init kids) ((if m.payload = none then butTrailing (owedHead m) else owed m).map toCall)).2 = []) := by
  have hn := optsOk_numbers m.opts 0 hm.2.2.2.2.2.1
  generalize hH : (⟨UInt8.ofNat (64 * m.version + 16 * m.type + m.token.length), UInt8.ofNat m.code,
    UInt8.ofNat (m.mid / 256), UInt8.ofNat (m.mid % 256)⟩ : Header) = H
  have hHr : H.isRequest = true := by rw [← hH]; exact request_header m hreq _
  generalize hpre : LEvent.header H :: (if m.token = [] then [] else [LEvent.token m.token true]) = pre
  have hopen : ∀ x ∈ pre.map toCall, Opening x := by
    rw [← hpre]
    intro x hx
    by_cases ht : m.token = [] <;> simp [ht, toCall] at hx
    · subst hx; exact hHr
    · rcases hx with rfl | rfl
      · exact hHr
      · trivial
  have hhead : owedHead m = pre ++ m.opts.flatMap owedOption := by rw [← hpre, ← hH]; simp [owedHead]
  cases hp : m.payload with
  | some p =>
    have hcalls : (owed m).map toCall = pre.map toCall ++ ((optCalls m.opts ++ [.payload p true]) ++ [.complete]) := by
      simp [owed, hhead, hp, optCalls, toCall]
    have hb : ∀ x ∈ optCalls m.opts ++ [Call.payload p true], Body x := by
      intro x hx
      rcases List.mem_append.1 hx with hx | hx
      · exact optCalls_body _ x hx
      · simp only [List.mem_cons, List.not_mem_nil, or_false] at hx; subst hx; trivial
    simp only [reduceCtorEq, if_false, hcalls]
    rw [request_goes cs kids _ _ _ hopen hb (Or.inr rfl)]
    refine ⟨fun id rest h => ?_, fun h => ?_⟩
    · rw [goes_arrives h _ hn]; simp [handed, hp]
    · exact goes_nowhere cs _ _ _ h hn (by simp)
  | none =>
    simp only [if_true, handed, hp]
    rcases List.eq_nil_or_concat m.opts with ho | ⟨os, o, ho⟩
    · rw [ho]
      refine ⟨fun id rest h => (by cases h), fun _ => ?_⟩
      have hx : ∀ x ∈ (butTrailing (owedHead m)).map toCall, Opening x := by
        intro x hx
        rw [hhead, ho] at hx
        simp only [List.flatMap_nil, List.append_nil] at hx
        obtain ⟨y, hy, rfl⟩ := List.mem_map.1 hx
        apply hopen _ (List.mem_map_of_mem _)
        unfold butTrailing at hy
        split at hy
        · exact hy
        · exact List.dropLast_subset _ hy
      have := request_goes cs kids ((butTrailing (owedHead m)).map toCall) [] [] hx (by simp) (Or.inl rfl)
      simpa [goes] using this
    · rw [List.concat_eq_append] at ho
      by_cases hv : o.value = []
      · have hcalls : (butTrailing (owedHead m)).map toCall = pre.map toCall ++ ((optCalls os ++ []) ++ []) := by
          rw [hhead, ho, butTrailing_empty _ _ _ hv]; simp [optCalls]
        rw [hcalls, request_goes cs kids _ _ _ hopen (by simpa using optCalls_body os) (Or.inl rfl)]
        have hn' : ∀ x ∈ os, x.number < 65536 := fun x hx => hn x (by rw [ho]; simp [hx])
        rw [ho]
        refine ⟨fun id rest h => ?_, fun h => ?_⟩
        · obtain ⟨r, rfl, h'⟩ := (arrives_snoc hv os kids id rest).1 h
          rw [goes_arrives h' _ hn', List.append_nil]
          have := butTrailing_empty [] r o hv
          simp only [List.nil_append] at this
          rw [this]; rfl
        · exact goes_nowhere cs os kids [] (fun ⟨id, r, h'⟩ => h ⟨id, r ++ [o], (arrives_snoc hv os kids id _).2 ⟨r, rfl, h'⟩⟩) hn' (by simp)
      · have hcalls : (butTrailing (owedHead m)).map toCall = pre.map toCall ++ ((optCalls m.opts ++ []) ++ []) := by
          rw [hhead, ho, butTrailing_value _ _ _ hv]; simp [optCalls]
        rw [hcalls, request_goes cs kids _ _ _ hopen (by simpa using optCalls_body m.opts) (Or.inl rfl)]
        refine ⟨fun id rest h => ?_, fun h => ?_⟩
        · rw [goes_arrives h _ hn, List.append_nil]
          have : butTrailing (rest.flatMap owedOption) = rest.flatMap owedOption := by
            rcases List.eq_nil_or_concat rest with hr | ⟨r, x, hr⟩
            · subst hr; rfl
            · rw [List.concat_eq_append] at hr
              obtain ⟨l, hl⟩ := arrives_suffix h
              rw [ho, hr, ← List.append_assoc] at hl
              have hx : x = o := by
                have := congrArg List.getLast? hl
                simpa using this
              subst hx
              have := butTrailing_value [] r x hv
              simpa [hr] using this
          rw [this]; rfl
        · exact goes_nowhere cs _ _ [] h hn (by simp)

/-- C53: what observers get from a request in one buffer, from the bytes on: following the non-empty Uri-Path options, at
each dispatcher the last route that does not differ from the option is taken; the observer arrived at is called with
everything that comes after (for a message without payload, all but a trailing empty option), in order and exactly once,
and no other observer is called.  If the path leads nowhere, nobody is called.  (A dispatcher has at most ten routes.) -/
theorem routes_deliver (cs : Bool) (kids : List Route) (m : Msg) (hm : m.Ok) (hreq : m.code < 32) (ob : List UInt8)
    (hob : IsOpts 0 m.opts ob) (junk : Dec) (hj : junk.tbuf.length = 8) :
    ∃ N d' evs, (∀ fuel, N ≤ fuel → legacyChunks fuel (fresh junk) [] (wire m ob) = .ok (d', evs)) ∧
      (∀ id rest, Arrives cs kids m.opts id rest →
        (dispCalls cs kids (DState'.init kids) (evs.map toCall)).2 = (handed m rest).map (id, ·)) ∧
      ((¬∃ id rest, Arrives cs kids m.opts id rest) → (dispCalls cs kids (DState'.init kids) (evs.map toCall)).2 = []) := by
  obtain ⟨N, d', h⟩ := legacy_one_buffer m hm ob hob junk hj
  exact ⟨N, d', _, h, message_goes cs kids m hm hreq⟩

/-- C53: a response is delivered to nobody. -/
theorem routes_ignore_responses (cs : Bool) (kids : List Route) (m : Msg) (hm : m.Ok) (hres : 32 ≤ m.code) (ob : List UInt8)
    (hob : IsOpts 0 m.opts ob) (junk : Dec) (hj : junk.tbuf.length = 8) :
    ∃ N d' evs, (∀ fuel, N ≤ fuel → legacyChunks fuel (fresh junk) [] (wire m ob) = .ok (d', evs)) ∧
      (dispCalls cs kids (DState'.init kids) (evs.map toCall)).2 = [] := by
  obtain ⟨N, d', h⟩ := legacy_one_buffer m hm ob hob junk hj
  refine ⟨N, d', _, h, ?_⟩
  have key : ∀ (hd : Header) (calls : List Call), hd.isRequest = false →
      (dispCalls cs kids (DState'.init kids) (.header hd :: calls)).2 = [] := by
    intro hd calls hr
    have hf : ∀ k : Route, firstAnswer cs k (.header hd) = .never := fun k => by simp [firstAnswer, UriHandler.call, hr]
    have h1 : dispCall cs kids (DState'.init kids) (.header hd) = (⟨kids.map fun _ => some .never, none⟩, []) := by
      simp only [dispCall, dispatch]
      rw [pass_none cs _ kids 0 _ _ (init_asking kids).len (init_asking kids).open_ (fun k _ => by rw [hf]; simp)]
      simp only [hf]; rfl
    simp only [dispCalls, h1, List.nil_append]
    rw [all_never cs kids calls _ (by simp) (by simp) rfl]
  have hr : ∀ b, (⟨b, UInt8.ofNat m.code, UInt8.ofNat (m.mid / 256), UInt8.ofNat (m.mid % 256)⟩ : Header).isRequest = false := by
    intro b
    have hc : m.code < 256 := hm.2.2.1
    simp only [Header.isRequest, Header.code, beq_eq_false_iff_ne, ne_eq, ← UInt8.toNat_inj]
    have : (UInt8.ofNat m.code >>> 5).toNat = (UInt8.ofNat m.code).toNat / 32 := by simp [Nat.shiftRight_eq_div_pow]
    rw [this, UInt8.toNat_ofNat', Nat.mod_eq_of_lt (by omega)]
    have : 1 ≤ m.code / 32 := (Nat.one_le_div_iff (by omega)).2 hres
    simp only [show (0 : UInt8).toNat = 0 from rfl]
    omega
  split
  · unfold butTrailing
    split
    · rw [owedHead, List.map_cons, toCall]; exact key _ _ (hr _)
    · rw [owedHead]
      generalize (if m.token = [] then [] else [LEvent.token m.token true]) ++ m.opts.flatMap owedOption = rest
      cases rest with
      | nil => rfl
      | cons e es => rw [List.dropLast_cons_cons, List.map_cons, toCall]; exact key _ _ (hr _)
  · rw [owed, owedHead]
    simp only [List.cons_append, List.map_cons, toCall]
    exact key _ _ (hr _)

/-- Routes whose names can be told apart: none is empty, all can be compared, and of two names of the same dispatcher
neither begins with the other. -/
inductive Apart (cs : Bool) : List Route → Prop
  | mk {kids : List Route} : (∀ k ∈ kids, k.pre ≠ [] ∧ Plain cs k.pre) →
      kids.Pairwise (fun a b => ¬(a.pre <+: b.pre ∨ b.pre <+: a.pre)) →
      (∀ name below, Route.node name below ∈ kids → Apart cs below) → Apart cs kids

theorem agree_iff {cs : Bool} {seg name : List UInt8} (h : Plain cs name) : Agree cs seg name ↔ name <+: seg ∨ seg <+: name := by
  rw [← startsWithUri_agree, uri_prefix_iff cs seg name h]

theorem apart_last {cs : Bool} {kids : List Route} (h : Apart cs kids) {k : Route} (hk : k ∈ kids) : LastAgreeing cs kids k.pre k := by
  cases h with
  | mk h1 h2 _ =>
    obtain ⟨a, b, rfl⟩ := List.append_of_mem hk
    refine ⟨a, b, rfl, (agree_iff (h1 k hk).2).2 (Or.inl (List.prefix_refl _)), fun x hx => ?_⟩
    have h3 := (List.pairwise_cons.1 (List.pairwise_append.1 h2).2.1).1 x hx
    rw [agree_iff (h1 x (by simp [hx])).2]
    exact fun h => h3 h.symm

theorem meant_arrives {cs : Bool} {kids : List Route} {os : List Opt} {id : Nat} {rest : List Opt} (h : Meant kids os id rest) :
    Apart cs kids → Arrives cs kids os id rest := by
  induction h with
  | skip h1 _ ih => exact fun ha => .skip (Or.inl h1) (ih ha)
  | leaf h1 h2 h3 =>
    intro ha
    have hl := apart_last ha h3
    have hne : _ ≠ _ := (match ha with | .mk h _ _ => (h _ h3).1)
    simp only [Route.pre] at hl hne
    rw [h2] at hl hne
    exact .leaf h1 hne hl
  | node h1 h2 h3 h4 ih =>
    intro ha
    have hl := apart_last ha h3
    have hne : _ ≠ _ := (match ha with | .mk h _ _ => (h _ h3).1)
    have hb := (match ha with | .mk _ _ h => h _ _ h3)
    simp only [Route.pre] at hl hne
    rw [h2] at hl hne
    exact .node h1 hne hl (ih hb)

/-- C53 (partial: the path is one of the registered ones): when the names of every dispatcher can be told apart, a request
in one buffer whose path is registered reaches the observer registered for it, and no other. -/
theorem registered_path_reached_partial (cs : Bool) (kids : List Route) (hk : Apart cs kids) (m : Msg) (hm : m.Ok) (hreq : m.code < 32)
    (id : Nat) (rest : List Opt) (hmeant : Meant kids m.opts id rest) (ob : List UInt8)
    (hob : IsOpts 0 m.opts ob) (junk : Dec) (hj : junk.tbuf.length = 8) :
    ∃ N d' evs, (∀ fuel, N ≤ fuel → legacyChunks fuel (fresh junk) [] (wire m ob) = .ok (d', evs)) ∧
      (dispCalls cs kids (DState'.init kids) (evs.map toCall)).2 = (handed m rest).map (id, ·) := by
  obtain ⟨N, d', evs, h1, h2, -⟩ := routes_deliver cs kids m hm hreq ob hob junk hj
  exact ⟨N, d', evs, h1, h2 id rest (meant_arrives hmeant hk)⟩

/-- C53 (why only partial): an observer registered alone under a name also gets the requests for every path that is a
non-empty beginning of the name, or that the name is a beginning of, although nothing is registered for that path. -/
theorem unregistered_path_served (cs : Bool) (name seg : List UInt8) (id : Nat) (hn : Plain cs name) (hs : seg ≠ []) (hne : seg ≠ name)
    (hpre : name <+: seg ∨ seg <+: name) (m : Msg) (hm : m.Ok) (hreq : m.code < 32) (rest : List Opt)
    (ho : m.opts = ⟨11, seg⟩ :: rest) (ob : List UInt8) (hob : IsOpts 0 m.opts ob) (junk : Dec) (hj : junk.tbuf.length = 8) :
    (¬∃ id' rest', Meant [.leaf name id] m.opts id' rest') ∧
    ∃ N d' evs, (∀ fuel, N ≤ fuel → legacyChunks fuel (fresh junk) [] (wire m ob) = .ok (d', evs)) ∧
      (dispCalls cs [.leaf name id] (DState'.init [.leaf name id]) (evs.map toCall)).2 = (handed m rest).map (id, ·) := by
  constructor
  · rintro ⟨id', rest', h⟩
    rw [ho] at h
    cases h with
    | skip h1 _ => exact h1 rfl
    | leaf h1 h2 h3 =>
      simp only [List.mem_cons, Route.leaf.injEq, List.not_mem_nil, or_false] at h3
      exact hne (h2.symm.trans h3.1)
    | node h1 h2 h3 _ => simp at h3
  · obtain ⟨N, d', evs, h1, h2, -⟩ := routes_deliver cs [.leaf name id] m hm hreq ob hob junk hj
    refine ⟨N, d', evs, h1, h2 id rest ?_⟩
    rw [ho]
    exact .leaf rfl hs ⟨[], [], rfl, (agree_iff hn).2 hpre, by simp⟩

theorem passed_body (cs : Bool) (pre : List UInt8) (i : Interest) (c : Call) : ∀ y ∈ (UriHandler.call cs ⟨pre, i, []⟩ c).passed, Body y := by
  intro y hy
  cases c with
  | token | complete => simp [UriHandler.call] at hy
  | header h => simp only [UriHandler.call] at hy; split at hy <;> simp at hy
  | optionHead n l => simp only [UriHandler.call] at hy; split at hy <;> simp at hy; subst hy; trivial
  | payload p l => simp only [UriHandler.call] at hy; split at hy <;> simp at hy; subst hy; trivial
  | option n p l =>
    simp only [UriHandler.call] at hy
    split at hy
    · simp at hy; subst hy; trivial
    · split at hy <;> simp at hy

theorem dispatch_body (nth : Nat → Live → Call → Live × List (Nat × Call))
    (pass : Call → List (Option Interest) → Option (Nat × Live) → DState' × List (Nat × Call))
    (h1 : ∀ i l c, ∀ x ∈ (nth i l c).2, Body x.2) (h2 : ∀ c s ch, ∀ x ∈ (pass c s ch).2, Body x.2) (d : DState') (c : Call) :
    ∀ x ∈ (dispatch nth pass d c).2, Body x.2 := by
  intro x hx
  rcases d with ⟨st, _ | ⟨i, l⟩⟩ <;> cases c <;> simp only [dispatch] at hx <;>
    first | exact h1 _ _ _ x hx | exact h2 _ _ _ x hx | simp at hx

theorem inPass_body (call : Live → Call → Live × List (Nat × Call)) (h : ∀ l c, ∀ x ∈ (call l c).2, Body x.2) (l : Live) (c : Call) :
    ∀ x ∈ (inPass call l c).2, Body x.2 := by
  intro x hx
  cases c <;> simp only [inPass, passCalls, List.foldl_cons, List.foldl_nil, List.nil_append, List.mem_append] at hx <;>
    first | exact h _ _ x hx | (rcases hx with hx | hx <;> exact h _ _ x hx)

mutual
theorem call_body (cs : Bool) : ∀ (k : Route) (l : Live) (c : Call), ∀ x ∈ (Route.call cs k l c).2, Body x.2
  | .leaf pre id, .mk i st ch, c => by
    intro x hx
    simp only [Route.call, List.mem_map] at hx
    obtain ⟨y, hy, rfl⟩ := hx
    exact passed_body cs _ _ c y hy
  | .node pre kids, .mk i st ch, c => by
    intro x hx
    simp only [Route.call] at hx
    split at hx
    · simp at hx
    · exact dispatch_body _ _ (nth_body cs kids) (passKids_body cs kids 0) _ _ x hx

theorem nth_body (cs : Bool) : ∀ (kids : List Route) (i : Nat) (l : Live) (c : Call), ∀ x ∈ (callNth cs kids i l c).2, Body x.2
  | [], i, l, c => by simp [callNth]
  | k :: kids, 0, l, c => by rw [callNth]; exact call_body cs k l c
  | k :: kids, i + 1, l, c => by rw [callNth]; exact nth_body cs kids i l c

theorem passKids_body (cs : Bool) : ∀ (kids : List Route) (n : Nat) (c : Call) (states) (chosen),
    ∀ x ∈ (passKids cs kids n c states chosen).2, Body x.2
  | [], n, c, states, chosen => by simp [passKids]
  | k :: kids, n, c, [], chosen => by simp [passKids]
  | k :: kids, n, c, s :: states, chosen => by
    intro x hx
    rw [passKids] at hx
    split at hx
    · exact passKids_body cs kids (n + 1) c states chosen x hx
    · rcases List.mem_append.1 hx with hx | hx
      · exact inPass_body _ (call_body cs k) _ _ x hx
      · exact passKids_body cs kids (n + 1) c states _ x hx
end

/-- C53 (why only partial): whatever the routes, and whatever is delivered in whatever order, no observer behind a
dispatcher is ever told the header, the token or the end of a message. -/
theorem observers_miss_ends (cs : Bool) (kids : List Route) : ∀ (calls : List Call) (d : DState') (id : Nat) (c : Call),
    (id, c) ∈ (dispCalls cs kids d calls).2 → (∀ h, c ≠ .header h) ∧ (∀ p l, c ≠ .token p l) ∧ c ≠ .complete := by
  intro calls d id c hc
  have : ∀ (calls : List Call) (d : DState'), ∀ x ∈ (dispCalls cs kids d calls).2, Body x.2 := by
    intro calls
    induction calls with
    | nil => intro d x hx; simp [dispCalls] at hx
    | cons a calls ih =>
      intro d x hx
      simp only [dispCalls, List.mem_append] at hx
      rcases hx with hx | hx
      · exact dispatch_body _ _ (nth_body cs kids) (passKids_body cs kids 0) _ _ x hx
      · exact ih _ x hx
  have hb := this calls d _ hc
  refine ⟨?_, ?_, ?_⟩
  · rintro h rfl; exact hb
  · rintro p l rfl; exact hb
  · rintro rfl; exact hb

/-- C53 (why only partial): when the path is cut between two buffers the request may reach another observer, here of
"ab" and "ac" that of "ac" for the path "ab" (first conjunct: in one buffer it reaches that of "ab"). -/
theorem cut_path_misrouted :
    let kids : List Route := [.leaf [0x61, 0x62] 0, .leaf [0x61, 0x63] 1]
    (∃ d evs, legacyChunks 60 (fresh Dec.zero) [] [0x40, 1, 0, 7, 0xB2, 0x61, 0x62, 0xFF, 5] = .ok (d, evs) ∧
      (dispCalls true kids (DState'.init kids) (evs.map toCall)).2 = [(0, .payload [5] true)]) ∧
    (∃ d evs, legacyChunks 60 (fresh Dec.zero) [[0x40, 1, 0, 7, 0xB2, 0x61]] [0x62, 0xFF, 5] = .ok (d, evs) ∧
      (dispCalls true kids (DState'.init kids) (evs.map toCall)).2 = [(1, .option 11 [0x62] true), (1, .payload [5] true)]) := by
  refine ⟨⟨_, _, rfl, ?_⟩, ⟨_, _, rfl, ?_⟩⟩ <;> decide +kernel

/-- Two levels: "a" with "x" (0) and "y" (1) below, and "b" (2). -/
def routesX : List Route := [.node [0x61] [.leaf [0x78] 0, .leaf [0x79] 1], .leaf [0x62] 2]

example : Apart true routesX := by
  refine .mk ?_ ?_ ?_
  · simp [routesX, Plain, Route.pre]
  · simp [routesX, Route.pre]
  · intro name below h
    simp only [routesX, List.mem_cons, Route.node.injEq, reduceCtorEq, List.not_mem_nil, or_false] at h
    obtain ⟨-, rfl⟩ := h
    refine .mk ?_ ?_ (by simp)
    · simp [Plain, Route.pre]
    · simp [Route.pre]

/-- GET /a/y?q with a payload. -/
def askY : Msg := ⟨1, 0, 1, 7, [0xAA], [⟨3, [0x68]⟩, ⟨11, [0x61]⟩, ⟨11, [0x79]⟩, ⟨15, [0x71]⟩], some [5, 6]⟩

example : askY.Ok ∧ askY.code < 32 ∧ Meant routesX askY.opts 1 [⟨15, [0x71]⟩] ∧
    handed askY [⟨15, [0x71]⟩] = [.optionHead 15 1, .option 15 [0x71] true, .payload [5, 6] true] := by
  refine ⟨by decide, by decide, ?_, by decide⟩
  exact .skip (by decide) (.node (name := [0x61]) rfl rfl (by simp [routesX]; rfl) (.leaf (name := [0x79]) rfl rfl (by simp)))

example : ∃ d evs, legacyChunks 90 (fresh Dec.zero) [] (encMsg askY) = .ok (d, evs) ∧
    (dispCalls true routesX (DState'.init routesX) (evs.map toCall)).2 =
      [(1, .optionHead 15 1), (1, .option 15 [0x71] true), (1, .payload [5, 6] true)] := by
  refine ⟨_, _, rfl, ?_⟩; decide +kernel

-- the path leads nowhere
example : ¬∃ id rest, Arrives true routesX [⟨11, [0x61]⟩, ⟨11, [0x7A]⟩] id rest := by
  have h : goes true routesX (optCalls [⟨11, [0x61]⟩, ⟨11, [0x7A]⟩] ++ [.payload [1] true]) = [] := by decide +kernel
  rintro ⟨id, rest, ha⟩
  rw [goes_arrives ha [.payload [1] true] (by simp)] at h
  simp at h

-- a path "s" and an observer for "sensor"
example : Plain true [0x73, 0x65] ∧ ([0x73] : List UInt8) <+: [0x73, 0x65] := ⟨by simp [Plain], ⟨[0x65], rfl⟩⟩

end Verif.Props
