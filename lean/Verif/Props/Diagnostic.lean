import Verif.Model.Diagnostic
import Verif.Spec.Diagnostic
import Verif.Props.DecoderCuts
import Verif.Props.OptionMeta
import Verif.Props.UInt

/-! # Watching messages: the diagnostic observer (C56) and the text of the path (C57) -/
namespace Verif.Props
open Verif.Model Verif.Model.OptionMeta Verif.Proofs Verif.Spec Header Dec

/-! ## C56 -/

/-- What should be shown of an option value of a format. -/
def owedValue : VFormat → List UInt8 → Shown
  | .empty, _ => .empty
  | .opaque, v => .dump v
  | .uint, v => .number (beValue v)
  | .string, v => .text v

/-- An option that can be shown: known to the code, a number of at most eight bytes, a text of at most 127 bytes
without zero. -/
def Showable (o : Opt) (f : VFormat) : Prop :=
  o.number ∉ formatGaps ∧ (∃ lo hi, (o.number, f, lo, hi) ∈ optionTable) ∧ (f = .uint → o.value.length ≤ 8) ∧
    (f = .string → o.value.length ≤ 127 ∧ 0 ∉ o.value)

/-- The line owed for an option; its name may be withheld. -/
def OwedLine (o : Opt) (l : Line) : Prop :=
  ∃ f name, Showable o f ∧ ((o.number, name) ∈ optionNames ∨ name = "Unknown") ∧
    l = .option (UInt16.ofNat o.number) o.value.length name (owedValue f o.value)

/-- One line for each option, in order. -/
inductive OwedLines : List Opt → List Line → Prop
  | nil : OwedLines [] []
  | cons {o os l ls} : OwedLine o l → OwedLines os ls → OwedLines (o :: os) (l :: ls)

theorem description_name (n : Nat) (hn : n < 65536) (h0 : n ≠ 0) :
    (n, (description (UInt16.ofNat n)).getD "Unknown") ∈ optionNames ∨ (description (UInt16.ofNat n)).getD "Unknown" = "Unknown" := by
  have hinj : ∀ k : Nat, k < 65536 → UInt16.ofNat n = UInt16.ofNat k → n = k := by
    intro k hk h
    have := congrArg UInt16.toNat h
    rw [UInt16.toNat_ofNat', UInt16.toNat_ofNat'] at this
    omega
  by_cases h : n ∈ [4, 6, 11, 12, 15, 17, 23, 27]
  · left
    simp only [List.mem_cons, List.not_mem_nil, or_false] at h
    rcases h with h | h | h | h | h | h | h | h <;> subst h <;> decide
  · right
    simp only [List.mem_cons, List.not_mem_nil, or_false, not_or] at h
    obtain ⟨k1, k2, k3, k4, k5, k6, k7, k8⟩ := h
    have e0 : ¬UInt16.ofNat n = 0 := fun h => h0 (hinj 0 (by omega) h)
    have e1 : ¬UInt16.ofNat n = 4 := fun h => k1 (hinj 4 (by omega) h)
    have e2 : ¬UInt16.ofNat n = 6 := fun h => k2 (hinj 6 (by omega) h)
    have e3 : ¬UInt16.ofNat n = 11 := fun h => k3 (hinj 11 (by omega) h)
    have e4 : ¬UInt16.ofNat n = 12 := fun h => k4 (hinj 12 (by omega) h)
    have e5 : ¬UInt16.ofNat n = 15 := fun h => k5 (hinj 15 (by omega) h)
    have e6 : ¬UInt16.ofNat n = 17 := fun h => k6 (hinj 17 (by omega) h)
    have e7 : ¬UInt16.ofNat n = 23 := fun h => k7 (hinj 23 (by omega) h)
    have e8 : ¬UInt16.ofNat n = 27 := fun h => k8 (hinj 27 (by omega) h)
    simp only [description, beq_iff_eq, e0, e1, e2, e3, e4, e5, e6, e7, e8, if_false, Option.getD_none]

theorem showText_short (v : List UInt8) (h : v.length ≤ 127) (hz : 0 ∉ v) : showText v = some v := by
  have : v.take 128 = v := List.take_of_length_le (by omega)
  rw [showText, this, if_pos (by omega)]
  congr 1
  have := List.takeWhile_append_of_pos (p := (· != 0)) (l₁ := v) (l₂ := []) fun x hx => by
    simp only [bne_iff_ne, ne_eq]
    exact fun h' => hz (h' ▸ hx)
  simpa using this

theorem number_in_table {n : Nat} {f : VFormat} {lo hi : Nat} (h : (n, f, lo, hi) ∈ optionTable) : n < 65536 := by
  have : ∀ x ∈ optionTable, x.1 < 65536 := by decide
  exact this _ h

theorem beValue_lt_pow (bs : List UInt8) : beValue bs < 256 ^ bs.length := by
  induction bs with
  | nil => simp [beValue]
  | cons b bs ih =>
    have := b.toNat_lt
    simp only [beValue, List.length_cons, Nat.pow_succ]
    have : b.toNat * 256 ^ bs.length ≤ 255 * 256 ^ bs.length := Nat.mul_le_mul_right _ (by omega)
    omega

theorem showValue_owed (o : Opt) (f : VFormat) (h : Showable o f) :
    showValue (UInt16.ofNat o.number) o.value = some (owedValue f o.value) := by
  obtain ⟨h1, ⟨lo, hi, h2⟩, h3, h4⟩ := h
  have hlt := number_in_table h2
  have hn : (UInt16.ofNat o.number).toNat = o.number := by rw [UInt16.toNat_ofNat']; omega
  have hf : getFormat (UInt16.ofNat o.number) = fmt f :=
    (get_format_exact_partial _ (by rw [hn]; exact h1) f).2 ⟨_, h2, by rw [hn], rfl⟩
  rw [showValue, hf]
  cases f with
  | empty => rfl
  | «opaque» => rfl
  | uint =>
    simp only [fmt, owedValue]
    rw [uintGet_eq 64 (by omega), Nat.mod_eq_of_lt]
    have := beValue_lt_pow o.value
    have hle : 256 ^ o.value.length ≤ 256 ^ 8 := Nat.pow_le_pow_right (by omega) (h3 rfl)
    have : (256 : Nat) ^ 8 = 2 ^ 64 := by decide
    omega
  | string =>
    obtain ⟨h5, h6⟩ := h4 rfl
    simp [fmt, showText_short _ h5 h6, owedValue]

theorem showEvents_append : ∀ (a b : List Event), showEvents (a ++ b) = (showEvents a).bind fun x => (showEvents b).map fun y => x ++ y
  | [], b => by cases h : showEvents b <;> simp [showEvents, h]
  | e :: a, b => by
    simp only [List.cons_append, showEvents]
    rw [showEvents_append a b]
    cases showEvent e with
    | none => rfl
    | some x => cases showEvents a with
      | none => rfl
      | some y => cases showEvents b <;> simp

/-- Printing a whole message from one buffer. -/
def Prints (m : Msg) (ob : List UInt8) (out : Option (List Line)) : Prop :=
  ∀ junk : Dec, junk.tbuf.length = 8 → (junk.opt.st ≠ .payload ∨ m.token ≠ [] ∨ m.opts ≠ [] ∨ m.payload ≠ none) →
    ∃ N d' c' evs, (∀ fuel, N ≤ fuel → processToDone fuel (fresh junk) ⟨wire m ob, 0, true⟩ = .ok (d', c', evs)) ∧
      showEvents evs = out

theorem prints_of (m : Msg) (hm : m.Ok) (ob : List UInt8) (hob : IsOpts 0 m.opts ob) (out : Option (List Line))
    (h : showEvents (delivery m) = out) : Prints m ob out := by
  intro junk hj hst
  obtain ⟨N, d', -, -, h'⟩ := wire_delivered_partial m hm ob hob junk hj hst
  exact ⟨N, d', _, _, h', h⟩

/-- The header of a message as printed. -/
theorem header_line (m : Msg) (hm : m.Ok) :
    showEvent (.header ⟨UInt8.ofNat (64 * m.version + 16 * m.type + m.token.length), UInt8.ofNat m.code,
      UInt8.ofNat (m.mid / 256), UInt8.ofNat (m.mid % 256)⟩) =
      some [.header (UInt8.ofNat m.token.length) (UInt16.ofNat m.mid)] := by
  obtain ⟨h1, h2, h3, h4, h5, -⟩ := hm
  simp only [showEvent, Option.some.injEq, List.cons.injEq, and_true, Line.header.injEq]
  constructor
  · apply UInt8.toNat_inj.1
    simp only [tokenLength]
    rw [tkl_toNat]
    simp only [UInt8.toNat_ofNat']
    omega
  · apply UInt16.toNat_inj.1
    rw [Header.messageId, ntoh_toNat]
    simp only [UInt8.toNat_ofNat', UInt16.toNat_ofNat']
    omega

theorem options_shown : ∀ (os : List Opt), (∀ o ∈ os, ∃ f, Showable o f) →
    ∃ ls, showEvents (os.map fun o => .option (UInt16.ofNat o.number) o.value true) = some ls ∧ OwedLines os ls
  | [], _ => ⟨[], rfl, .nil⟩
  | o :: os, h => by
    obtain ⟨f, hf⟩ := h o List.mem_cons_self
    obtain ⟨ls, e, hl⟩ := options_shown os fun o ho => h o (List.mem_cons_of_mem _ ho)
    refine ⟨.option (UInt16.ofNat o.number) o.value.length ((description (UInt16.ofNat o.number)).getD "Unknown") (owedValue f o.value) :: ls, ?_,
      .cons ⟨f, _, hf, ?_, rfl⟩ hl⟩
    · simp [showEvents, showEvent, showValue_owed o f hf, e]
    · obtain ⟨-, ⟨lo, hi, h2⟩, -⟩ := hf
      refine description_name _ (number_in_table h2) fun h0 => ?_
      rw [h0] at h2
      have : ∀ x ∈ optionTable, x.1 ≠ 0 := by decide
      exact this _ h2 rfl

/-- C56 (partial: options whose format the code knows; texts of at most 127 bytes without zero; one buffer): everything
of the message is shown, in order and once, every value in the format the RFCs define for its option. -/
theorem diagnostic_shows_partial (m : Msg) (hm : m.Ok) (ob : List UInt8) (hob : IsOpts 0 m.opts ob) (hs : ∀ o ∈ m.opts, ∃ f, Showable o f) :
    ∃ ls, OwedLines m.opts ls ∧
      Prints m ob (some (.header (UInt8.ofNat m.token.length) (UInt16.ofNat m.mid) :: .token m.token :: (ls ++
        (match m.payload with | none => [] | some p => [.payload p.length p]) ++ [.completed]))) := by
  obtain ⟨ls, e, hl⟩ := options_shown m.opts hs
  refine ⟨ls, hl, prints_of m hm ob hob _ ?_⟩
  rw [delivery, showEvents_append, showEvents_append, showEvents_append, showEvents_append, e]
  simp only [showEvents, header_line m hm]
  cases m.payload <;> simp [showEvents, showEvent]

theorem showEvents_none {e : Event} (h : showEvent e = none) : ∀ (l : List Event), e ∈ l → showEvents l = none
  | x :: l, hx => by
    rcases List.mem_cons.1 hx with rfl | hx
    · simp [showEvents, h]
    · simp only [showEvents, showEvents_none h l hx]
      cases showEvent x <;> rfl

/-- C56 fails for long texts: every message with a text option (Uri-Host, Location-Path, Uri-Path, Uri-Query) of 128 or
more bytes, which the RFC allows, makes the observer write outside its buffer. -/
theorem diagnostic_long_text (m : Msg) (hm : m.Ok) (ob : List UInt8) (hob : IsOpts 0 m.opts ob) (o : Opt) (ho : o ∈ m.opts)
    (hs : o.number = 3 ∨ o.number = 8 ∨ o.number = 11 ∨ o.number = 15) (hl : 128 ≤ o.value.length) : Prints m ob none := by
  refine prints_of m hm ob hob _ (showEvents_none (e := .option (UInt16.ofNat o.number) o.value true) ?_ _ ?_)
  · have hf : getFormat (UInt16.ofNat o.number) = .string := by rcases hs with h | h | h | h <;> rw [h] <;> rfl
    have : showText o.value = none := by
      rw [showText, if_neg]
      simp only [List.length_take]
      omega
    simp [showEvent, showValue, hf, this]
  · simp only [delivery, List.mem_append, List.mem_map]
    exact Or.inl (Or.inl (Or.inl (Or.inr ⟨o, ho, rfl⟩)))

/-- C56 fails for the six options whose format the code does not know: their values are not shown at all. -/
theorem diagnostic_gaps (k : Nat) (hk : k ∈ formatGaps) (v : List UInt8) (l : Bool) :
    ∃ name, showEvent (.option (UInt16.ofNat k) v l) = some [.option (UInt16.ofNat k) v.length name .unknown] := by
  refine ⟨(description (UInt16.ofNat k)).getD "Unknown", ?_⟩
  simp only [showEvent, showValue, (format_gaps k hk).1]
  rfl

/-- C56 fails for texts with a zero byte: what follows the zero is not shown. -/
theorem diagnostic_zero_byte (a b : List UInt8) (ha : 0 ∉ a) (h : a.length + b.length < 127) (l : Bool) :
    showEvent (.option 11 (a ++ 0 :: b) l) = some [.option 11 (a.length + b.length + 1) "Uri-Path" (.text a)] := by
  have : (a ++ 0 :: b).take 128 = a ++ 0 :: b := List.take_of_length_le (by simp; omega)
  have ht : showText (a ++ 0 :: b) = some a := by
    rw [showText, this, if_pos (by simp; omega)]
    congr 1
    rw [List.takeWhile_append_of_pos]
    · simp
    · intro x hx
      simp only [bne_iff_ne, ne_eq]
      exact fun h' => ha (h' ▸ hx)
  simp only [showEvent, showValue, show getFormat 11 = .string from rfl, ht, Option.map_some, List.length_append, List.length_cons]
  rfl

example : Showable ⟨11, [0x61]⟩ .string ∧ Showable ⟨12, [0x28]⟩ .uint ∧ Showable ⟨4, [0, 1]⟩ .opaque := by
  refine ⟨⟨by decide, ⟨0, 255, by decide⟩, by simp, by simp⟩, ⟨by decide, ⟨0, 2, by decide⟩, by simp, by simp⟩,
    ⟨by decide, ⟨1, 8, by decide⟩, by simp, by simp⟩⟩
example : showEvents (delivery ⟨1, 0, 2, 7, [0xAA], [⟨4, [0, 1]⟩, ⟨11, [0x61]⟩, ⟨12, [0x01, 0x28]⟩], some [9]⟩) =
    some [.header 1 7, .token [0xAA], .option 4 2 "ETag" (.dump [0, 1]), .option 11 1 "Uri-Path" (.text [0x61]),
      .option 12 2 "Content-Format" (.number 296), .payload 1 [9], .completed] := by decide

/-! ## C57 -/

theorem buildUri_opts : ∀ (os : List Opt), (∀ o ∈ os, o.number < 65536) → ∀ u : List UInt8,
    u.length + (pathText ((os.filter fun o => o.number = 11).map Opt.value)).length ≤ 127 →
    (os.map fun o => Event.option (UInt16.ofNat o.number) o.value true).foldl buildUri (some u) =
      some (u ++ pathText ((os.filter fun o => o.number = 11).map Opt.value))
  | [], _, u, _ => by simp [pathText]
  | o :: os, hn, u, h => by
    have ho := hn o List.mem_cons_self
    have hn' := fun o ho => hn o (List.mem_cons_of_mem _ ho)
    by_cases h11 : o.number = 11
    · rw [List.filter_cons_of_pos (by simpa using h11)] at h ⊢
      simp only [pathText, List.map_cons, List.flatMap_cons, List.length_append, List.length_cons, List.length_nil] at h
      have := buildUri_opts os hn' (u ++ o.value ++ [0x2F]) (by
        simp only [pathText, List.length_append, List.length_cons, List.length_nil]
        omega)
      simp only [List.map_cons, List.foldl_cons, h11, buildUri, show UInt16.ofNat 11 = 11 from rfl, beq_self_eq_true, if_true, Option.bind_some]
      rw [if_pos (by omega), this]
      simp [pathText]
    · have h11' : ¬UInt16.ofNat o.number = 11 := by
        rw [← UInt16.toNat_inj, UInt16.toNat_ofNat']
        simp only [show (11 : UInt16).toNat = 11 from rfl]
        omega
      rw [List.filter_cons_of_neg (by simpa using h11)] at h ⊢
      simp only [List.map_cons, List.foldl_cons, buildUri, beq_iff_eq, h11', if_false]
      exact buildUri_opts os hn' u h

/-- Building the text from a message in one buffer. -/
def Builds (u : Option (List UInt8)) (m : Msg) (ob : List UInt8) (out : Option (List UInt8)) : Prop :=
  ∀ junk : Dec, junk.tbuf.length = 8 → (junk.opt.st ≠ .payload ∨ m.token ≠ [] ∨ m.opts ≠ [] ∨ m.payload ≠ none) →
    ∃ N d' c' evs, (∀ fuel, N ≤ fuel → processToDone fuel (fresh junk) ⟨wire m ob, 0, true⟩ = .ok (d', c', evs)) ∧
      evs.foldl buildUri u = out

/-- C57 (partial: one buffer, and room for the text): whatever was there before, the text is that of the path of the
message. -/
theorem uri_text_partial (m : Msg) (hm : m.Ok) (ob : List UInt8) (hob : IsOpts 0 m.opts ob) (hroom : (pathText m.path).length ≤ 127)
    (u : Option (List UInt8)) : Builds u m ob (some (pathText m.path)) := by
  intro junk hj hst
  obtain ⟨N, d', -, -, h'⟩ := wire_delivered_partial m hm ob hob junk hj hst
  refine ⟨N, d', _, _, h', ?_⟩
  have hn : ∀ (os : List Opt) (p : Nat), OptsOk p os → ∀ o ∈ os, o.number < 65536 := by
    intro os
    induction os with
    | nil => simp
    | cons o os ih =>
      intro p h x hx
      rcases List.mem_cons.1 hx with rfl | hx
      · exact h.2.1
      · exact ih _ h.2.2.2 x hx
  have := buildUri_opts m.opts (hn m.opts 0 hm.2.2.2.2.2.1) [] (by simpa [Msg.path] using hroom)
  rw [delivery, List.foldl_append, List.foldl_append, List.foldl_append, List.foldl_append]
  simp only [List.foldl_cons, List.foldl_nil, buildUri, this, List.nil_append, Msg.path]
  cases m.payload <;> simp [buildUri]

theorem buildUri_opts_over : ∀ (os : List Opt), (∀ o ∈ os, o.number < 65536) → ∀ u : List UInt8, u.length ≤ 127 →
    127 < u.length + (pathText ((os.filter fun o => o.number = 11).map Opt.value)).length →
    (os.map fun o => Event.option (UInt16.ofNat o.number) o.value true).foldl buildUri (some u) = none
  | [], _, u, hu, h => by simp [pathText] at h; omega
  | o :: os, hn, u, hu, h => by
    have hn' := fun o ho => hn o (List.mem_cons_of_mem _ ho)
    have hstay : ∀ os : List Opt, (os.map fun o => Event.option (UInt16.ofNat o.number) o.value true).foldl buildUri none = none := by
      intro os
      induction os with
      | nil => rfl
      | cons o os ih => simp only [List.map_cons, List.foldl_cons, buildUri, Option.bind_none, ite_self]; exact ih
    have ho := hn o List.mem_cons_self
    by_cases h11 : o.number = 11
    · rw [List.filter_cons_of_pos (by simpa using h11)] at h
      simp only [pathText, List.map_cons, List.flatMap_cons, List.length_append, List.length_cons, List.length_nil] at h
      simp only [List.map_cons, List.foldl_cons, h11, buildUri, show UInt16.ofNat 11 = 11 from rfl, beq_self_eq_true, if_true, Option.bind_some]
      by_cases hr : u.length + o.value.length + 1 ≤ 127
      · rw [if_pos hr]
        refine buildUri_opts_over os hn' _ (by simp; omega) ?_
        simp only [pathText, List.length_append, List.length_cons, List.length_nil]
        omega
      · rw [if_neg hr]; exact hstay os
    · have h11' : ¬UInt16.ofNat o.number = 11 := by
        rw [← UInt16.toNat_inj, UInt16.toNat_ofNat']
        simp only [show (11 : UInt16).toNat = 11 from rfl]
        omega
      rw [List.filter_cons_of_neg (by simpa using h11)] at h
      simp only [List.map_cons, List.foldl_cons, buildUri, beq_iff_eq, h11', if_false]
      exact buildUri_opts_over os hn' u hu h

/-- C57 is not settled, whatever the message, when the text with its slashes needs more than 127 characters: the room of
the string is exceeded. -/
theorem uri_text_no_room (m : Msg) (hm : m.Ok) (ob : List UInt8) (hob : IsOpts 0 m.opts ob) (hroom : 127 < (pathText m.path).length)
    (u : Option (List UInt8)) : Builds u m ob none := by
  intro junk hj hst
  obtain ⟨N, d', -, -, h'⟩ := wire_delivered_partial m hm ob hob junk hj hst
  refine ⟨N, d', _, _, h', ?_⟩
  have hn : ∀ (os : List Opt) (p : Nat), OptsOk p os → ∀ o ∈ os, o.number < 65536 := by
    intro os
    induction os with
    | nil => simp
    | cons o os ih =>
      intro p h x hx
      rcases List.mem_cons.1 hx with rfl | hx
      · exact h.2.1
      · exact ih _ h.2.2.2 x hx
  have := buildUri_opts_over m.opts (hn m.opts 0 hm.2.2.2.2.2.1) [] (by simp) (by simpa [Msg.path] using hroom)
  rw [delivery, List.foldl_append, List.foldl_append, List.foldl_append, List.foldl_append]
  simp only [List.foldl_cons, List.foldl_nil, buildUri, this]
  cases m.payload <;> simp [buildUri]

theorem slash_split : ∀ (a b : List UInt8), (0x2F : UInt8) ∉ a → (0x2F : UInt8) ∉ b → ∀ x y : List UInt8,
    a ++ 0x2F :: x = b ++ 0x2F :: y → a = b ∧ x = y
  | [], [], _, _, x, y, h => by simpa using h
  | [], c :: b, _, hb, x, y, h => by
    simp only [List.nil_append, List.cons_append, List.cons.injEq] at h
    exact absurd (by simp [h.1]) hb
  | c :: a, [], ha, _, x, y, h => by
    simp only [List.nil_append, List.cons_append, List.cons.injEq] at h
    exact absurd (by simp [h.1]) ha
  | c :: a, d :: b, ha, hb, x, y, h => by
    simp only [List.cons_append, List.cons.injEq] at h
    simp only [List.mem_cons, not_or] at ha hb
    obtain ⟨h1, h2⟩ := slash_split a b ha.2 hb.2 x y h.2
    exact ⟨by rw [h.1, h1], h2⟩

/-- C57: the text tells paths apart whose segments contain no slash, empty segments included. -/
theorem path_text_injective : ∀ (a b : List (List UInt8)), (∀ s ∈ a, (0x2F : UInt8) ∉ s) → (∀ s ∈ b, (0x2F : UInt8) ∉ s) →
    pathText a = pathText b → a = b
  | [], [], _, _, _ => rfl
  | [], s :: b, _, _, h => by simp [pathText] at h
  | s :: a, [], _, _, h => by simp [pathText] at h
  | s :: a, t :: b, ha, hb, h => by
    simp only [pathText, List.flatMap_cons, List.append_assoc, List.cons_append, List.nil_append] at h
    obtain ⟨h1, h2⟩ := slash_split s t (ha s List.mem_cons_self) (hb t List.mem_cons_self) _ _ h
    rw [h1, path_text_injective a b (fun x hx => ha x (List.mem_cons_of_mem _ hx)) (fun x hx => hb x (List.mem_cons_of_mem _ hx)) h2]

/-- C57 fails for segments with a slash: `a/b` as one segment and `a`, `b` as two have the same text. -/
theorem path_text_slash (a b : List UInt8) (rest : List (List UInt8)) :
    pathText ((a ++ 0x2F :: b) :: rest) = pathText (a :: b :: rest) ∧ (a ++ 0x2F :: b) :: rest ≠ a :: b :: rest := by
  constructor
  · simp [pathText]
  · intro h
    have := congrArg List.length h
    simp at this

/-- Some segments are cut short. -/
inductive Shortened : List (List UInt8) → List (List UInt8) → Prop
  | nil : Shortened [] []
  | cons {a b as bs} : a <+: b → Shortened as bs → Shortened (a :: as) (b :: bs)

theorem Shortened.length {as bs : List (List UInt8)} (h : Shortened as bs) : (pathText as).length ≤ (pathText bs).length := by
  induction h with
  | nil => simp
  | cons h _ ih =>
    have := h.length_le
    simp only [pathText, List.flatMap_cons, List.length_append, List.length_cons, List.length_nil] at ih ⊢
    omega

theorem shortened_opts : ∀ (os : List Opt) (rest : List Event) (evs : List Event), (∀ o ∈ os, o.number < 65536) →
    Parts evs ((os.map fun o => .option (UInt16.ofNat o.number) o.value true) ++ rest) →
    ∃ segs es, Shortened segs ((os.filter fun o => o.number = 11).map Opt.value) ∧ Parts es rest ∧
      ∀ u : List UInt8, u.length + (pathText segs).length ≤ 127 →
        evs.foldl buildUri (some u) = es.foldl buildUri (some (u ++ pathText segs))
  | [], rest, evs, _, h => ⟨[], evs, .nil, by simpa using h, fun u _ => by simp [pathText]⟩
  | o :: os, rest, evs, hn, h => by
    rw [List.map_cons, List.cons_append] at h
    cases h with
    | @cons e _ es _ p h =>
      obtain ⟨segs, es', h1, h2, h3⟩ := shortened_opts os rest es (fun o ho => hn o (List.mem_cons_of_mem _ ho)) h
      have hpart : ∃ v l, e = .option (UInt16.ofNat o.number) v l ∧ v <+: o.value := by
        cases e <;> simp only [Part, reduceCtorEq] at p
        case option n v l =>
          obtain ⟨v', l', h', hp⟩ := p
          simp only [Event.option.injEq] at h'
          obtain ⟨rfl, rfl, rfl⟩ := h'
          exact ⟨v, l, rfl, hp.1⟩
      obtain ⟨v, l, rfl, hv⟩ := hpart
      by_cases h11 : o.number = 11
      · rw [List.filter_cons_of_pos (by simpa using h11)]
        refine ⟨v :: segs, es', .cons hv h1, h2, fun u hu => ?_⟩
        simp only [pathText, List.flatMap_cons, List.length_append, List.length_cons, List.length_nil] at hu
        simp only [List.foldl_cons, h11, buildUri, show UInt16.ofNat 11 = 11 from rfl, beq_self_eq_true, if_true, Option.bind_some]
        rw [if_pos (by omega), h3 (u ++ v ++ [0x2F]) (by simp only [pathText, List.length_append, List.length_cons, List.length_nil]; omega)]
        simp [pathText]
      · have h11' : ¬UInt16.ofNat o.number = 11 := by
          have := hn o List.mem_cons_self
          rw [← UInt16.toNat_inj, UInt16.toNat_ofNat']
          simp only [show (11 : UInt16).toNat = 11 from rfl]
          omega
        rw [List.filter_cons_of_neg (by simpa using h11)]
        refine ⟨segs, es', h1, h2, fun u hu => ?_⟩
        simp only [List.foldl_cons, buildUri, beq_iff_eq, h11', if_false]
        exact h3 u hu

theorem build_tail (u : Option (List UInt8)) : ∀ es fs : List Event, Parts es fs → (∀ f ∈ fs, ∀ h n v l, f ≠ .header h ∧ f ≠ .option n v l) →
    es.foldl buildUri u = u := by
  intro es fs h
  induction h with
  | nil => intro _; rfl
  | @cons e f es fs p _ ih =>
    intro hf
    have h1 := hf f List.mem_cons_self
    have : buildUri u e = u := by
      cases e <;> simp only [Part] at p
      case header h => exact absurd p (h1 h 0 [] true).1
      case option n v l => obtain ⟨v', l', h', -⟩ := p; exact absurd h' (h1 ⟨0, 0, 0, 0⟩ n v' l').2
      all_goals rfl
    rw [List.foldl_cons, this]
    exact ih fun f hf' => hf f (List.mem_cons_of_mem _ hf')

/-- C57, for every cut into buffers (but a message without payload ended by an empty buffer): the text is that of the
path with some segments cut short. -/
theorem uri_text_every_cut (m : Msg) (hm : m.Ok) (ob : List UInt8) (hob : IsOpts 0 m.opts ob) (hroom : (pathText m.path).length ≤ 127)
    (junk : Dec) (hj : junk.tbuf.length = 8) (hst : junk.opt.st ≠ .payload ∨ m.token ≠ [] ∨ m.opts ≠ [] ∨ m.payload ≠ none)
    (cs : List (List UInt8)) (l : List UInt8) (hcut : cs.flatten ++ l = wire m ob) (hl : m.payload ≠ none ∨ l ≠ []) (u : Option (List UInt8)) :
    ∃ N d' evs segs, Shortened segs m.path ∧ (∀ fuel, N ≤ fuel → deliverChunks fuel (fresh junk) cs l = .ok (d', evs)) ∧
      evs.foldl buildUri u = some (pathText segs) := by
  obtain ⟨N, d', evs, -, hp, h⟩ := every_cut_reported m hm ob hob junk hj hst cs l hcut
  rw [cutReport, phantoms_nil_of hl] at hp
  simp only [List.map_nil, List.append_nil, List.append_assoc, List.cons_append, List.nil_append] at hp
  have hn : ∀ (os : List Opt) (p : Nat), OptsOk p os → ∀ o ∈ os, o.number < 65536 := by
    intro os
    induction os with
    | nil => simp
    | cons o os ih =>
      intro p h x hx
      rcases List.mem_cons.1 hx with rfl | hx
      · exact h.2.1
      · exact ih _ h.2.2.2 x hx
  cases hp with
  | @cons e1 _ _ _ p1 hp =>
    cases hp with
    | @cons e2 _ _ _ p2 hp =>
      cases hp with
      | @cons e3 _ evs _ p3 hp =>
        obtain ⟨segs, es, s1, s2, s3⟩ := shortened_opts _ _ _ (hn m.opts 0 hm.2.2.2.2.2.1) hp
        refine ⟨N, d', _, segs, s1, h, ?_⟩
        have q1 : buildUri u e1 = some [] := by
          cases e1 <;> simp only [Part, reduceCtorEq] at p1
          · rfl
          · obtain ⟨_, _, h, -⟩ := p1; cases h
        have q2 : buildUri (some []) e2 = some [] := by
          cases e2 <;> simp only [Part, reduceCtorEq] at p2
          · rfl
          · obtain ⟨_, _, h, -⟩ := p2; cases h
        have q3 : buildUri (some []) e3 = some [] := by
          cases e3 <;> simp only [Part, reduceCtorEq] at p3
          · rfl
          · obtain ⟨_, _, h, -⟩ := p3; cases h
        have hlen := s1.length
        rw [List.foldl_cons, List.foldl_cons, List.foldl_cons, q1, q2, q3, s3 [] (by
          simp only [Msg.path] at hroom
          simp only [List.length_nil]
          omega)]
        rw [List.nil_append]
        refine build_tail _ _ _ s2 ?_
        intro f hf hd n v b
        simp only [List.mem_cons, List.mem_append, List.not_mem_nil, or_false] at hf
        rcases hf with rfl | hf | rfl
        · exact ⟨nofun, nofun⟩
        · cases hpay : m.payload with
          | none => simp [hpay] at hf
          | some p =>
            simp only [hpay, payloadEvents] at hf
            split at hf
            · simp only [List.mem_cons, List.not_mem_nil, or_false] at hf
              subst hf
              exact ⟨nofun, nofun⟩
            · rcases List.mem_cons.1 hf with rfl | hf
              · exact ⟨nofun, nofun⟩
              · rw [(List.mem_replicate.1 hf).2]
                exact ⟨nofun, nofun⟩
        · exact ⟨nofun, nofun⟩

/-- C57 fails for a segment cut between two buffers: of `/abc` only what is in the first buffer shows. -/
theorem uri_text_cut : ∃ d evs, deliverChunks 60 (fresh Dec.zero) [[0x40, 1, 0, 7, 0xB3, 0x61]] [0x62, 0x63] = .ok (d, evs) ∧
    evs.foldl buildUri none = some [0x61, 0x2F] := by
  refine ⟨_, _, rfl, ?_⟩
  decide

example : pathText (Msg.path ⟨1, 0, 1, 7, [], [⟨3, [0x68]⟩, ⟨11, [0x61, 0x62]⟩, ⟨11, []⟩, ⟨11, [0x63]⟩], none⟩) =
    [0x61, 0x62, 0x2F, 0x2F, 0x63, 0x2F] := by decide

end Verif.Props
