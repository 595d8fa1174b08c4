import Verif.Props.Examples

/-!
# C64, C65, C66: at which place among the options the example servers see a path or an Observe option

The iterator shows the options at the first, third, fourth, sixth, … place, those at the first, fourth, … place without
their values.
-/
namespace Verif.Props
open Verif.Model Verif.Spec Verif.Proofs Verif.Model.Header Pull Observable

/-- What the iterator shows of the only option of a kind. -/
theorem shows_single (b : Bool) (p : Opt → Bool) (hp : ∀ n v w, p ⟨n, v⟩ = p ⟨n, w⟩) (o : Opt) (ho : p o = true) (post : List Opt)
    (hpost : ∀ x ∈ post, p x = false) : ∀ pre : List Opt, (∀ x ∈ pre, p x = false) →
    (iteratorShows b (pre ++ o :: post)).filter p =
      if pre.length % 3 = 2 then [o] else if pre.length % 3 = 1 ∨ (post = [] ∧ b = false ∧ o.value ≠ []) then [] else [⟨o.number, []⟩]
  | [], _ => by
    have h0 : p ⟨o.number, []⟩ = true := by rw [hp _ _ o.value]; exact ho
    match post, hpost with
    | [], _ =>
      by_cases h : b = true ∨ o.value = []
      · have h' : ¬(b = false ∧ o.value ≠ []) := by rcases h with h | h <;> simp [h]
        simp [iteratorShows, h, h0, h']
      · have h' : b = false ∧ o.value ≠ [] := by simpa using h
        simp [iteratorShows, h']
    | [x], hx => simp [iteratorShows, h0]
    | x :: y :: rest, hx =>
      have hy : p y = false := hx y (by simp)
      have hr : (iteratorShows b rest).filter p = [] := by
        rw [List.filter_eq_nil_iff]
        intro z hz
        obtain ⟨w, hw, e⟩ := shows_mem _ _ z hz
        have := hx w (by simp [hw])
        have e' : p z = p w := by
          obtain ⟨zn, zv⟩ := z; obtain ⟨wn, wv⟩ := w
          simp only at e; subst e; exact hp _ _ _
        simp [e', this]
      simp [iteratorShows, h0, hy, hr]
  | [a], ha => by
    have h0 : p ⟨a.number, []⟩ = false := by rw [hp _ _ a.value]; exact ha a (by simp)
    match post, hpost with
    | [], _ => simp [iteratorShows, h0]
    | x :: rest, hx =>
      have hy : p x = false := hx x (by simp)
      have hr : (iteratorShows b rest).filter p = [] := by
        rw [List.filter_eq_nil_iff]
        intro z hz
        obtain ⟨w, hw, e⟩ := shows_mem _ _ z hz
        have := hx w (by simp [hw])
        have e' : p z = p w := by
          obtain ⟨zn, zv⟩ := z; obtain ⟨wn, wv⟩ := w
          simp only at e; subst e; exact hp _ _ _
        simp [e', this]
      simp [iteratorShows, h0, hy, hr]
  | [a, c], ha => by
    have h0 : p ⟨a.number, []⟩ = false := by rw [hp _ _ a.value]; exact ha a (by simp)
    have hr : (iteratorShows b post).filter p = [] := by
      rw [List.filter_eq_nil_iff]
      intro z hz
      obtain ⟨w, hw, e⟩ := shows_mem _ _ z hz
      have := hpost w hw
      have e' : p z = p w := by
        obtain ⟨zn, zv⟩ := z; obtain ⟨wn, wv⟩ := w
        simp only at e; subst e; exact hp _ _ _
      simp [e', this]
    simp [iteratorShows, h0, ho, hr]
  | a :: c :: e :: pre, ha => by
    have h0 : p ⟨a.number, []⟩ = false := by rw [hp _ _ a.value]; exact ha a (by simp)
    have he : p e = false := ha e (by simp)
    have ih := shows_single b p hp o ho post hpost pre (fun x hx => ha x (by simp [hx]))
    have hl : (pre.length + 1 + 1 + 1) % 3 = pre.length % 3 := by omega
    simp only [List.cons_append, iteratorShows, List.filter_cons, h0, he, Bool.false_eq_true, if_false, ih, List.length_cons, hl]

/-- C64, exactly when the path of one segment comes back: the option has to be at the third, sixth, ninth, … place. -/
theorem path_place_iff (m : Msg) (hm : m.Ok) (pre post : List Opt) (s : List UInt8) (hs : s ≠ []) (ho : m.opts = pre ++ ⟨11, s⟩ :: post)
    (hpre : ∀ o ∈ pre, o.number ≠ 11) (hpost : ∀ o ∈ post, o.number ≠ 11) (ob : List UInt8) (hob : IsOpts 0 m.opts ob) (junk : Dec)
    (hj : junk.tbuf.length = 8) (junkToken : List UInt8) (hjt : junkToken.length = 8) (junkHeader : Header) (cap room fuel : Nat)
    (hcap : s.length + 1 ≤ cap) (hroom : 13 + cap ≤ room) (hf : m.opts.length < fuel) :
    uriReply cap room fuel junk junkToken junkHeader (wire m ob) =
      .ok (encMsg (response m (if s = [116, 101, 115, 116] then 0x43 else 0x84) (some (s ++ [47])))) ↔ pre.length % 3 = 2 := by
  have hsh := shows_single m.payload.isSome (fun o => o.number = 11) (fun _ _ _ => rfl) ⟨11, s⟩ (by simp) post (by simpa using hpost)
    pre (by simpa using hpre)
  rw [← ho] at hsh
  have hall : m.opts.filter (fun o => o.number = 11) = [⟨11, s⟩] := by
    rw [ho, List.filter_append, List.filter_cons, List.filter_eq_nil_iff.2 (by simpa using hpre),
      List.filter_eq_nil_iff.2 (by simpa using hpost)]
    simp
  have hseg : segments m.opts = [s] := by simp [segments, hall]
  have htxt : slashText m.opts = s ++ [47] := by simp [slashText, hseg]
  have hle : (slashText (iteratorShows m.payload.isSome m.opts)).length ≤ cap := by
    simp only [slashText, segments, hsh]
    split
    · simp; omega
    · split <;> simp
      omega
  have key := path_echoed_right_iff m hm ob hob junk hj (by simp [ho]) junkToken hjt junkHeader cap room fuel hle hroom hf
  rw [hseg, htxt] at key
  simp only [List.cons.injEq, and_true] at key
  rw [key]
  simp only [slashText, segments, hsh]
  constructor
  · intro h
    by_cases h2 : pre.length % 3 = 2
    · exact h2
    · rw [if_neg h2] at h
      split at h
      · simp at h
      · simp at h
        exact absurd h hs
  · intro h
    rw [if_pos h]
    simp

/-- C66, exactly when a request for a listing at a path of one segment is answered by it: the path has to be at the third, sixth,
ninth, … place among the options. -/
theorem discovery_place_iff (m : Msg) (hm : m.Ok) (pre post : List Opt) (s : List UInt8) (hs : s ≠ []) (ho : m.opts = pre ++ ⟨11, s⟩ :: post)
    (hpre : ∀ o ∈ pre, o.number ≠ 11) (hpost : ∀ o ∈ post, o.number ≠ 11) (ob : List UInt8) (hob : IsOpts 0 m.opts ob) (junk : Dec)
    (hj : junk.tbuf.length = 8) (junkToken : List UInt8) (hjt : junkToken.length = 8) (junkHeader : Header) (paths : List Uri.Entry)
    (hpf : ParentsFirst paths) (hnames : ∀ e ∈ paths, e.seg ≠ []) (coredata : List Uri.CoREData) (title : Int → Option (List Char))
    (idCore : Int) (hid : idCore ≠ -1) (hd : Denotes paths (-1) (uriPath m) idCore) (text : List Char)
    (htext : Uri.discover coredata title paths = some text) (room fuel : Nat) (hroom : 14 + text.length ≤ room) (hf : m.opts.length < fuel) :
    discoverReply room fuel paths coredata title idCore junk junkToken junkHeader (wire m ob) =
      .ok (encMsg (response m 0x45 (some (text.map fun c => UInt8.ofNat c.toNat)))) ↔ pre.length % 3 = 2 := by
  have hsh := shows_single m.payload.isSome (fun o => o.number = 11) (fun _ _ _ => rfl) ⟨11, s⟩ (by simp) post (by simpa using hpost)
    pre (by simpa using hpre)
  rw [← ho] at hsh
  have hall : m.opts.filter (fun o => o.number = 11) = [⟨11, s⟩] := by
    rw [ho, List.filter_append, List.filter_cons, List.filter_eq_nil_iff.2 (by simpa using hpre),
      List.filter_eq_nil_iff.2 (by simpa using hpost)]
    simp
  have hu : uriPath m = [SCtx.str s] := by
    have : uriPath m = (segments m.opts).map SCtx.str := by simp [uriPath, segments, SCtx.str, Function.comp_def]
    rw [this]; simp [segments, hall]
  have hnode : ∀ q, q ≠ -1 → shownNode paths m = q → pre.length % 3 = 2 := by
    intro q hq h
    rw [shownNode, uri_path_iff hpf _ hq] at h
    simp only [segments, hsh] at h
    by_cases h2 : pre.length % 3 = 2
    · exact h2
    · rw [if_neg h2] at h
      split at h
      · simp only [List.map_nil] at h
        cases h
        exact absurd rfl hq
      · simp only [List.map_cons, List.map_nil, SCtx.str] at h
        cases h with
        | step h1 _ =>
          obtain ⟨a, b, e, e1, -⟩ := h1
          exact absurd e1 (hnames _ (by simp [e]))
  rw [discovery_answered_partial m hm ob hob junk hj (by simp [ho]) junkToken hjt junkHeader paths coredata title idCore hid text
    htext room fuel hroom hf]
  constructor
  · intro h
    by_cases hn : shownNode paths m = -1
    · rw [if_pos hn] at h
      simp [encMsg, encHeader, response] at h
    · exact hnode _ hn rfl
  · intro h
    have : shownNode paths m = idCore := by
      rw [shownNode, uri_path_iff hpf _ hid]
      simp only [segments, hsh, if_pos h]
      rw [hu] at hd
      exact hd
    rw [if_pos this, if_neg (by rw [this]; exact hid)]

/-- C65, exactly what a request with one Observe option does to the registrations, by the place `pre.length + 1` of that option: at the
third, sixth, … place its first byte decides; at the second, fifth, … it is overlooked; at the first, fourth, … the sender is
registered whatever the value is, unless the option is the last thing in the message and has a value. -/
theorem observe_place {A : Type} (m : Msg) (hm : m.Ok) (pre post : List Opt) (v : List UInt8) (ho : m.opts = pre ++ ⟨6, v⟩ :: post)
    (hpre : ∀ o ∈ pre, o.number ≠ 6) (hpost : ∀ o ∈ post, o.number ≠ 6) (ob : List UInt8) (hob : IsOpts 0 m.opts ob) (junk : Dec)
    (hj : junk.tbuf.length = 8) (junkToken : List UInt8) (hjt : junkToken.length = 8) (junkHeader : Header) (cap regCap room fuel : Nat)
    (reg : Registrar A) (addr : A) (hcap : (slashText (iteratorShows m.payload.isSome m.opts)).length ≤ cap) (hroom : 13 + cap ≤ room)
    (hreg : reg.sessions.length < regCap) (hf : m.opts.length < fuel) :
    ∃ out, observeReply cap regCap room fuel junk junkToken junkHeader reg addr (wire m ob) =
      .ok ({ reg with sessions := reg.sessions ++ if (pre.length % 3 = 0 ∧ ¬(post = [] ∧ m.payload = none ∧ v ≠ [])) ∨
        (pre.length % 3 = 2 ∧ v.headD 0 = 0) then [⟨addr, m.token, 0⟩] else [] }, out) := by
  have hsh := shows_single m.payload.isSome (fun o => o.number = 6) (fun _ _ _ => rfl) ⟨6, v⟩ (by simp) post (by simpa using hpost)
    pre (by simpa using hpre)
  rw [← ho] at hsh
  have hcount : ((observeValues (iteratorShows m.payload.isSome m.opts)).map fun v => v.headD 0).count 0 =
      if (pre.length % 3 = 0 ∧ ¬(post = [] ∧ m.payload = none ∧ v ≠ [])) ∨ (pre.length % 3 = 2 ∧ v.headD 0 = 0) then 1 else 0 := by
    simp only [observeValues, hsh]
    have h3 : pre.length % 3 = 0 ∨ pre.length % 3 = 1 ∨ pre.length % 3 = 2 := by omega
    have hn : m.payload.isSome = false ↔ m.payload = none := by cases m.payload <;> simp
    rcases h3 with h | h | h
    · by_cases hx : post = [] ∧ m.payload = none ∧ v ≠ []
      · rw [if_neg (by omega), if_pos (Or.inr ⟨hx.1, hn.2 hx.2.1, hx.2.2⟩), if_neg (by
          rintro (h' | h')
          · exact h'.2 hx
          · omega)]
        rfl
      · rw [if_neg (by omega), if_neg (by
          rintro (h' | h')
          · omega
          · exact hx ⟨h'.1, hn.1 h'.2.1, h'.2.2⟩), if_pos (Or.inl ⟨h, hx⟩)]
        rfl
    · simp [h]
    · rw [if_pos h]
      show List.count 0 [v.headD 0] = _
      by_cases hx : v.headD 0 = 0
      · rw [if_pos (Or.inr ⟨h, hx⟩), hx]
        rfl
      · rw [if_neg (by
          rintro (h' | h')
          · omega
          · exact hx h'.2)]
        exact List.count_eq_zero.2 (fun hc => hx (List.mem_singleton.1 hc).symm)
  have := observe_answered_partial m hm ob hob junk hj (by simp [ho]) junkToken hjt junkHeader cap regCap room fuel reg addr hcap hroom
    (by rw [hcount]; split <;> omega) hf
  rw [hcount] at this
  have hrep : ∀ (P : Prop) [Decidable P] (x : Session A), List.replicate (if P then 1 else 0) x = if P then [x] else [] := by
    intro P _ x
    split <;> rfl
  rw [hrep] at this
  exact ⟨_, this⟩

/-- C65, exactly when the registrations are right: the sender is added if the value of the Observe option is 0, and nobody otherwise. -/
theorem observe_place_right_iff {A : Type} (m : Msg) (hm : m.Ok) (pre post : List Opt) (v : List UInt8) (ho : m.opts = pre ++ ⟨6, v⟩ :: post)
    (hpre : ∀ o ∈ pre, o.number ≠ 6) (hpost : ∀ o ∈ post, o.number ≠ 6) (ob : List UInt8) (hob : IsOpts 0 m.opts ob) (junk : Dec)
    (hj : junk.tbuf.length = 8) (junkToken : List UInt8) (hjt : junkToken.length = 8) (junkHeader : Header) (cap regCap room fuel : Nat)
    (reg : Registrar A) (addr : A) (hcap : (slashText (iteratorShows m.payload.isSome m.opts)).length ≤ cap) (hroom : 13 + cap ≤ room)
    (hreg : reg.sessions.length < regCap) (hf : m.opts.length < fuel) :
    (∃ out, observeReply cap regCap room fuel junk junkToken junkHeader reg addr (wire m ob) =
      .ok ({ reg with sessions := reg.sessions ++ if beValue v = 0 then [⟨addr, m.token, 0⟩] else [] }, out)) ↔
    if pre.length % 3 = 2 then v.headD 0 = 0 → beValue v = 0
    else if pre.length % 3 = 1 ∨ (post = [] ∧ m.payload = none ∧ v ≠ []) then beValue v ≠ 0 else beValue v = 0 := by
  obtain ⟨out, h⟩ := observe_place m hm pre post v ho hpre hpost ob hob junk hj junkToken hjt junkHeader cap regCap room fuel reg addr
    hcap hroom hreg hf
  have h0 : beValue v = 0 → v.headD 0 = 0 := by
    intro hv
    cases v with
    | nil => rfl
    | cons b v =>
      simp only [List.headD_cons]
      simp only [beValue] at hv
      have : b.toNat * 256 ^ v.length = 0 := by omega
      have hp : 0 < 256 ^ v.length := Nat.pow_pos (by omega)
      have : b.toNat = 0 := by
        rcases Nat.mul_eq_zero.1 this with h | h
        · exact h
        · omega
      exact UInt8.toNat_inj.1 this
  have hkey : (∃ out, observeReply cap regCap room fuel junk junkToken junkHeader reg addr (wire m ob) =
      .ok ({ reg with sessions := reg.sessions ++ if beValue v = 0 then [⟨addr, m.token, 0⟩] else [] }, out)) ↔
      (((pre.length % 3 = 0 ∧ ¬(post = [] ∧ m.payload = none ∧ v ≠ [])) ∨ (pre.length % 3 = 2 ∧ v.headD 0 = 0)) ↔ beValue v = 0) := by
    rw [h]
    simp only [Except.ok.injEq, Prod.mk.injEq, Registrar.mk.injEq, List.append_cancel_left_eq, and_true]
    constructor
    · rintro ⟨_, h1, -⟩
      by_cases ha : (pre.length % 3 = 0 ∧ ¬(post = [] ∧ m.payload = none ∧ v ≠ [])) ∨ (pre.length % 3 = 2 ∧ v.headD 0 = 0)
      · by_cases hb : beValue v = 0
        · exact ⟨fun _ => hb, fun _ => ha⟩
        · rw [if_pos ha, if_neg hb] at h1; simp at h1
      · by_cases hb : beValue v = 0
        · rw [if_neg ha, if_pos hb] at h1; simp at h1
        · exact ⟨fun h => absurd h ha, fun h => absurd h hb⟩
    · intro hi
      refine ⟨out, ?_, rfl⟩
      by_cases hb : beValue v = 0
      · rw [if_pos (hi.2 hb), if_pos hb]
      · rw [if_neg (fun h => hb (hi.1 h)), if_neg hb]
  rw [hkey]
  have h3 : pre.length % 3 = 0 ∨ pre.length % 3 = 1 ∨ pre.length % 3 = 2 := by omega
  rcases h3 with h | h | h
  · by_cases hQ : post = [] ∧ m.payload = none ∧ v ≠ []
    · rw [if_neg (by omega), if_pos (Or.inr hQ)]
      exact ⟨fun hi hb => (hi.2 hb).elim (fun x => x.2 hQ) (fun x => by omega),
        fun hb => ⟨fun x => x.elim (fun x => absurd hQ x.2) (fun x => by omega), fun x => absurd x hb⟩⟩
    · rw [if_neg (by omega), if_neg (by
        rintro (x | x)
        · omega
        · exact hQ x)]
      exact ⟨fun hi => hi.1 (Or.inl ⟨h, hQ⟩), fun hb => ⟨fun _ => hb, fun _ => Or.inl ⟨h, hQ⟩⟩⟩
  · simp [h]
  · rw [if_pos h]
    exact ⟨fun hi x => hi.1 (Or.inr ⟨h, x⟩), fun hi => ⟨fun x => x.elim (fun x => by omega) (fun x => hi x.2),
      fun hb => Or.inr ⟨h, h0 hb⟩⟩⟩

/-! ## Cases that meet the hypotheses -/

/-- `GET coap://h:1/test`: the path is at the third place. -/
example : getTestHost.opts = [⟨3, [104]⟩, ⟨7, [1]⟩] ++ ⟨11, [116, 101, 115, 116]⟩ :: [] ∧ 2 % 3 = 2 := ⟨rfl, rfl⟩

/-- `coap://h/` with Observe 1 at the second and at the third place. -/
example : (observeReply 20 3 40 9 Dec.zero (List.replicate 8 0) ⟨0, 0, 0, 0⟩ ⟨[], 0⟩ (7 : Nat)
      (encMsg ⟨1, 0, 1, 7, [0x77], [⟨3, [104]⟩, ⟨6, []⟩], none⟩)).toOption.map (·.1.sessions) = some [] ∧
    (observeReply 20 3 40 9 Dec.zero (List.replicate 8 0) ⟨0, 0, 0, 0⟩ ⟨[], 0⟩ (7 : Nat)
      (encMsg ⟨1, 0, 1, 7, [0x77], [⟨1, [1]⟩, ⟨3, [104]⟩, ⟨6, []⟩], none⟩)).toOption.map (·.1.sessions) = some [⟨7, [0x77], 0⟩] := by
  decide +kernel

end Verif.Props
