import Verif.Model.RequestContext
import Verif.Props.DecoderSafety

/-!
# Request contexts show the request they were filled for (C95)
-/
namespace Verif.Props
open Verif.Model Verif.Proofs Verif.Model.Dispatch Header Dec

/-- What the events so far say of the message in progress: its header, and its token once it has been reported. -/
def latest : List Event → Option Header × Option (List UInt8) :=
  List.foldl (fun p e => match e with
    | .header h => (some h, none)
    | .token t => (p.1, some t)
    | _ => p) (none, none)

/-- Everything a caller can do with one decoder and two contexts, one copying the token and one referring to it, that
observe it from the start: the same steps as `Reach`, with all events so far. -/
inductive Follow : Dec → Ctx → HCtx → RefCtx → List Event → Prop
  | init (junk : Dec) (chunk : List UInt8) (last : Bool) (arr : List UInt8) :
      junk.tbuf.length = 8 → arr.length = 8 → Follow (fresh junk) ⟨chunk, 0, last⟩ (HCtx.init arr) RefCtx.init []
  | step {d c x y es d' c' evs x'} : Follow d c x y es → d.stepNotify c = .ok (d', c', evs) → x.fill evs = some x' →
      Follow d' c' x' (y.fill evs) (es ++ evs)
  | nextChunk {d c x y es} (chunk : List UInt8) (last : Bool) :
      Follow d c x y es → c.last = false → Follow d ⟨chunk, 0, last⟩ x y es
  | nextMessage {d c x y es} (chunk : List UInt8) (last : Bool) :
      Follow d c x y es → d.st = .done → Follow d ⟨chunk, 0, last⟩ x y es

theorem follow_reach {d c x y es} (h : Follow d c x y es) : Reach d c := by
  induction h with
  | init junk chunk last _ hj _ => exact .init junk chunk last hj
  | step _ e _ ih => exact .step ih e
  | nextChunk chunk last _ hl ih => exact .nextChunk chunk last ih hl
  | nextMessage chunk last _ hd ih => exact .nextMessage chunk last ih hd

/-- The states in which the header of the message is known. -/
def afterHeader : DState → Bool
  | .uninitialized | .header => false
  | _ => true

/-- The states in which the header of the message is known and its token is not. -/
def betweenThem : DState → Bool
  | .headerDone | .tokenStart | .token => true
  | _ => false

structure CInv (d : Dec) (x : HCtx) (y : RefCtx) (p : Option Header × Option (List UInt8)) : Prop where
  noHdr : p.1 = Option.none → x.header = ⟨0, 0, 0, 0⟩ ∧ y.header = ⟨0, 0, 0, 0⟩
  hdr : ∀ h, p.1 = some h → x.header = h ∧ y.header = h
  tok : ∀ h t, p = (some h, some t) → t = d.tbuf.take h.tokenLength.toNat ∧ h.tokenLength.toNat ≤ 8 ∧
    x.token.take h.tokenLength.toNat = t ∧ x.present = true ∧ y.set = true
  cur : afterHeader d.st = true → p.1 = some d.hdr
  between : betweenThem d.st = true → p.2 = none
  fresh : d.st = .tokenDone ∨ d.st = .optionsStart → d.hdr.tokenLength.toNat = 0 ∨ d.opt.st = .garbage
  pay : d.st = .payload → d.opt.st = .payload
  known : afterHeader d.st = true → betweenThem d.st = false → p.2 ≠ none
  len : x.token.length = 8

theorem headerLoop_keeps (d : Dec) (r : List UInt8) (n : Nat) {d' n' b}
    (h : headerLoop d r n = .ok (d', n', b)) : d'.tbuf = d.tbuf ∧ d'.opt = d.opt := by
  induction r generalizing d n with
  | nil => simp only [headerLoop, Except.ok.injEq, Prod.mk.injEq] at h; obtain ⟨rfl, _⟩ := h; simp
  | cons a r ih =>
    simp only [headerLoop] at h
    cases e : writeHeader d.hdr d.hpos a with
    | error f => simp [e] at h
    | ok hdr =>
      simp only [e] at h
      split at h
      · simp only [Except.ok.injEq, Prod.mk.injEq] at h; obtain ⟨rfl, _⟩ := h; simp
      · have := ih _ _ h; simpa using this

theorem tokenLoop_keeps (d : Dec) (r : List UInt8) (n : Nat) {d' n' b}
    (h : tokenLoop d r n = .ok (d', n', b)) :
    d'.hdr = d.hdr ∧ (b = true → d'.opt.st = .garbage) := by
  induction r generalizing d n with
  | nil => simp only [tokenLoop, Except.ok.injEq, Prod.mk.injEq] at h; obtain ⟨rfl, _, rfl⟩ := h; simp
  | cons a r ih =>
    simp only [tokenLoop] at h
    cases e : writeAt d.tbuf d.tpos.toNat a with
    | none => simp [e] at h
    | some tb =>
      simp only [e] at h
      split at h
      · simp only [Except.ok.injEq, Prod.mk.injEq] at h; obtain ⟨rfl, _⟩ := h; simp
      · have := ih _ _ h; simpa using this

theorem latest_append (a b : List Event) :
    latest (a ++ b) = b.foldl (fun p e => match e with
    | .header h => (some h, none)
    | .token t => (p.1, some t)
    | _ => p) (latest a) := by simp [latest, List.foldl_append]

/-- What a step does to the parts of the decoder the contexts depend on. -/
theorem step_parts (d : Dec) (c : Ctx) (hi : DInv d c) {d' c'} (h : d.step c = .ok (d', c')) :
    (afterHeader d.st = true → d'.hdr = d.hdr) ∧
    (betweenThem d.st = false → d'.tbuf = d.tbuf) ∧
    (d'.st = .header → d.st = .uninitialized ∨ d.st = .header) ∧
    (d'.st = .headerDone → d.st = .header) ∧
    (d'.st = .tokenStart → d.st = .headerDone) ∧
    (d'.st = .token → d.st = .tokenStart ∨ d.st = .token) ∧
    (d'.st = .tokenDone → d.st = .headerDone ∧ d'.hdr.tokenLength.toNat = 0 ∨ d.st = .token ∧ d'.opt.st = .garbage) ∧
    (d'.st = .optionsStart → d.st = .tokenDone ∧ d'.opt = d.opt) ∧
    (d'.st = .options → d.st = .optionsStart ∨ d.st = .options) ∧
    (d'.st = .optionsDone → d.st = .optionsStart ∨ d.st = .options) ∧
    (d'.st = .payload → (d.st = .optionsDone ∨ d.st = .payload) ∧
      (d.st = .payload → d'.opt = d.opt) ∧ (d.st = .optionsDone → d'.opt.st = .payload)) ∧
    (d'.st = .payloadDone → d.st = .payload) ∧
    (d'.st = .done → d.st = .payloadDone ∨ d.st = .optionsDone) ∧
    (d'.st = .uninitialized → d.st = .done) := by
  cases hs : d.st <;> simp only [Dec.step, hs] at h
  case header =>
    cases e : headerLoop d c.remainder 0 with
    | error f => simp [e] at h
    | ok r =>
      obtain ⟨d1, n, b⟩ := r
      have hk := headerLoop_keeps _ _ _ e
      simp only [e, Except.ok.injEq, Prod.mk.injEq] at h
      obtain ⟨rfl, rfl⟩ := h
      cases b <;> simp [afterHeader, betweenThem, hk.1]
  case token =>
    cases e : tokenLoop d c.remainder 0 with
    | error f => simp [e] at h
    | ok r =>
      obtain ⟨d1, n, b⟩ := r
      have hk := tokenLoop_keeps _ _ _ e
      simp only [e, Except.ok.injEq, Prod.mk.injEq] at h
      obtain ⟨rfl, rfl⟩ := h
      cases b
      · simp [betweenThem, hk.1]
      · simp [betweenThem, hk.1, hk.2 rfl]
  case headerDone =>
    by_cases ht : d.hdr.tokenLength > 0
    · rw [if_pos ht] at h; simp only [Except.ok.injEq, Prod.mk.injEq] at h; obtain ⟨rfl, rfl⟩ := h
      simp [betweenThem]
    · rw [if_neg ht] at h; simp only [Except.ok.injEq, Prod.mk.injEq] at h; obtain ⟨rfl, rfl⟩ := h
      have : d.hdr.tokenLength.toNat = 0 := by
        simp only [gt_iff_lt, UInt8.lt_iff_toNat_lt] at ht; simpa using ht
      simp [betweenThem, this]
  case optionsStart =>
    by_cases hr : (c.remainder.length == 0 && c.last) = true
    · rw [if_pos hr] at h; simp only [Except.ok.injEq, Prod.mk.injEq] at h; obtain ⟨rfl, rfl⟩ := h; simp
    · rw [if_neg hr] at h
      cases e : OptDec.process { d.opt with st := .firstByte } { number := 0, length := 0 } c.remainder c.last with
      | error f => simp [e] at h
      | ok r =>
        simp only [e, Except.ok.injEq, Prod.mk.injEq] at h
        obtain ⟨rfl, rfl⟩ := h
        by_cases hp : (r.1.st == .payload) = true <;> simp [hp]
  case options =>
    cases e : OptDec.process d.opt d.holder c.remainder c.last with
    | error f => simp [e] at h
    | ok r =>
      simp only [e] at h
      by_cases hp : (r.1.st == .payload) = true
      · rw [if_pos hp] at h; simp only [Except.ok.injEq, Prod.mk.injEq] at h; obtain ⟨rfl, rfl⟩ := h; simp
      · rw [if_neg hp] at h
        split at h
        · simp only [Except.ok.injEq, Prod.mk.injEq] at h; obtain ⟨rfl, rfl⟩ := h
          by_cases hv : (r.1.st == .optionValueDone) = true <;> simp [hv]
        · simp only [Except.ok.injEq, Prod.mk.injEq] at h; obtain ⟨rfl, rfl⟩ := h; simp
  case optionsDone =>
    by_cases hp : (d.opt.st == .payload) = true
    · rw [if_pos hp] at h; simp only [Except.ok.injEq, Prod.mk.injEq] at h; obtain ⟨rfl, rfl⟩ := h
      have : d.opt.st = .payload := by simpa using hp
      simp [this]
    · rw [if_neg hp] at h
      have hl : (c.pos == c.chunk.length && c.last) = true := by
        rcases hi.optionsDone hs with h1 | ⟨h1, h2⟩
        · simp [h1] at hp
        · simp [h1, h2]
      rw [if_pos hl] at h; simp only [Except.ok.injEq, Prod.mk.injEq] at h; obtain ⟨rfl, rfl⟩ := h; simp
  case payload =>
    simp only [Except.ok.injEq, Prod.mk.injEq] at h; obtain ⟨rfl, rfl⟩ := h
    cases c.last <;> simp
  all_goals
    simp only [Except.ok.injEq, Prod.mk.injEq] at h; obtain ⟨rfl, rfl⟩ := h
    simp [afterHeader, betweenThem]

theorem notify_parts (d : Dec) (c : Ctx) {evs} (h : d.notify c = .ok evs) :
    (d.st = .headerDone ∧ evs = [.header d.hdr]) ∨
    (d.st = .tokenDone ∧ d.hdr.tokenLength.toNat ≤ d.tbuf.length ∧ evs = [.token (d.tbuf.take d.hdr.tokenLength.toNat)]) ∨
    (d.st ≠ .headerDone ∧ d.st ≠ .tokenDone ∧ ∀ e ∈ evs, (∀ h, e ≠ .header h) ∧ ∀ t, e ≠ .token t) := by
  cases hs : d.st <;> simp only [Dec.notify, hs] at h
  case tokenDone =>
    by_cases hl : d.hdr.tokenLength.toNat ≤ d.tbuf.length
    · rw [if_pos hl] at h; cases h; simp [hl]
    · rw [if_neg hl] at h; cases h
  case options =>
    split at h
    · split at h <;> (cases h; simp)
    · cases h; simp
  all_goals (cases h; simp)

theorem latest_quiet (a : List Event) {b : List Event} (h : ∀ e ∈ b, (∀ h, e ≠ .header h) ∧ ∀ t, e ≠ .token t) :
    latest (a ++ b) = latest a := by
  rw [latest_append]
  generalize latest a = p
  induction b generalizing p with
  | nil => rfl
  | cons e b ih =>
    have he := h e (by simp)
    have hb : ∀ e ∈ b, (∀ h, e ≠ .header h) ∧ ∀ t, e ≠ .token t := fun e he => h e (by simp [he])
    cases e <;> simp_all

theorem fill_quiet (x : HCtx) {b : List Event} (h : ∀ e ∈ b, (∀ h, e ≠ .header h) ∧ ∀ t, e ≠ .token t) :
    x.fill b = some x := by
  induction b with
  | nil => rfl
  | cons e b ih =>
    have he := h e (by simp)
    have hb := ih fun e he => h e (by simp [he])
    cases e <;> simp_all [HCtx.fill, HCtx.onEvent]

theorem ref_fill_quiet (y : RefCtx) {b : List Event} (h : ∀ e ∈ b, (∀ h, e ≠ .header h) ∧ ∀ t, e ≠ .token t) :
    y.fill b = y := by
  induction b with
  | nil => rfl
  | cons e b ih =>
    have he := h e (by simp)
    have hb := ih fun e he => h e (by simp [he])
    cases e <;> simp_all [RefCtx.fill, RefCtx.onEvent]

theorem ctx_stepNotify_parts {d c d' c' evs} (h : Dec.stepNotify d c = .ok (d', c', evs)) :
    d.step c = .ok (d', c') ∧ d'.notify c' = .ok evs := by
  simp only [Dec.stepNotify] at h
  cases e : d.step c with
  | error f => simp [e] at h
  | ok r =>
    simp only [e] at h
    cases e2 : r.1.notify r.2 with
    | error f => simp [e2] at h
    | ok v =>
      simp only [e2, Except.ok.injEq, Prod.mk.injEq] at h
      obtain ⟨rfl, rfl, rfl⟩ := h
      exact ⟨rfl, e2⟩

theorem cinv_step {d c x y es d' c' evs} (hi : DInv d c) (hi' : DInv d' c') (k : CInv d x y (latest es))
    (h : Dec.stepNotify d c = .ok (d', c', evs)) :
    ∃ x', x.fill evs = some x' ∧ CInv d' x' (y.fill evs) (latest (es ++ evs)) := by
  obtain ⟨hs, hn⟩ := ctx_stepNotify_parts h
  obtain ⟨pH, pT, q1, q2, q3, q4, q5, q6, q7, q8, q9, q10, q11, q12⟩ := step_parts d c hi hs
  rcases notify_parts d' c' hn with ⟨hst, rfl⟩ | ⟨hst, hl, rfl⟩ | ⟨n1, n2, hq⟩
  · refine ⟨{ x with header := d'.hdr }, rfl, ?_⟩
    rw [latest_append]
    refine ⟨by simp, ?_, by simp, by simp, by simp, by simp [hst], by simp [hst], by simp [hst, betweenThem], k.len⟩
    intro h he; simp at he; simp [he, RefCtx.fill, RefCtx.onEvent]
  · have htl : (d'.tbuf.take d'.hdr.tokenLength.toNat).length = d'.hdr.tokenLength.toNat := by simp; omega
    have h8 := hi'.tokenDone hst
    have hcur : (latest es).1 = some d'.hdr := by
      have hb : afterHeader d.st = true := by rcases q5 hst with ⟨a, _⟩ | ⟨a, _⟩ <;> simp [a, afterHeader]
      rw [pH hb]; exact k.cur hb
    obtain ⟨hx, hy⟩ := k.hdr _ hcur
    refine ⟨{ x with token := d'.tbuf.take d'.hdr.tokenLength.toNat ++ x.token.drop d'.hdr.tokenLength.toNat,
                     present := true }, ?_, ?_⟩
    · simp only [HCtx.fill, HCtx.onEvent, HCtx.setToken]
      rw [if_pos (by rw [htl, k.len]; exact h8), htl]; rfl
    · rw [latest_append]
      simp only [List.foldl_cons, List.foldl_nil, RefCtx.fill, RefCtx.onEvent, hcur]
      refine ⟨by simp, ?_, ?_, by simp, by simp [hst, betweenThem], ?_, by simp [hst], by simp, ?_⟩
      · intro h he; simp at he; subst he; exact ⟨hx, hy⟩
      · intro h t he; simp at he; obtain ⟨rfl, rfl⟩ := he
        refine ⟨rfl, h8, ?_, rfl, rfl⟩
        simp only
        rw [List.take_append_of_le_length (by omega), List.take_take, Nat.min_self]
      · intro _
        rcases q5 hst with ⟨_, a⟩ | ⟨_, a⟩
        · exact Or.inl a
        · exact Or.inr a
      · simp only [List.length_append, htl, List.length_drop, k.len]; omega
  · refine ⟨x, fill_quiet x hq, ?_⟩
    rw [ref_fill_quiet y hq, latest_quiet es hq]
    have hab : afterHeader d'.st = true → afterHeader d.st = true := by
      intro ha
      cases hd : d'.st <;> simp_all [afterHeader]
      all_goals first
        | (rcases q4 with a | a <;> simp [a]; done)
        | (rcases q7 with a | a <;> simp [a]; done)
        | (rcases q8 with a | a <;> simp [a]; done)
        | (rcases q9.1 with a | a <;> simp [a]; done)
        | (rcases q11 with a | a <;> simp [a]; done)
    refine ⟨k.noHdr, k.hdr, ?_, ?_, ?_, ?_, ?_, ?_, k.len⟩
    · intro h t he
      have hb : betweenThem d.st = false := by
        cases hb : betweenThem d.st with
        | false => rfl
        | true => have := k.between hb; rw [he] at this; simp at this
      rw [pT hb]; exact k.tok h t he
    · intro ha
      have hb := hab ha
      rw [pH hb]; exact k.cur hb
    · intro ha
      apply k.between
      cases hd : d'.st <;> simp_all [betweenThem]
      rcases q4 with a | a <;> simp [a]
    · intro ha
      rcases ha with a | a
      · exact absurd a n2
      · have := q6 a
        rw [this.2, pH (by simp [this.1, afterHeader])]
        exact k.fresh (Or.inl this.1)
    · intro ha
      have := q9 ha
      rcases this.1 with b | b
      · exact this.2.2 b
      · rw [this.2.1 b]; exact k.pay b
    · intro ha hb
      refine k.known (hab ha) ?_
      cases hd : d'.st <;> simp_all [betweenThem, afterHeader]
      all_goals first
        | (rcases q7 with a | a <;> simp [a]; done)
        | (rcases q8 with a | a <;> simp [a]; done)
        | (rcases q9.1 with a | a <;> simp [a]; done)
        | (rcases q11 with a | a <;> simp [a]; done)

theorem follow_inv {d c x y es} (h : Follow d c x y es) : CInv d x y (latest es) := by
  induction h with
  | init junk chunk last arr hj ha =>
    exact ⟨by simp [HCtx.init, RefCtx.init], by simp [latest], by simp [latest], by simp [Dec.fresh, afterHeader],
      by simp [Dec.fresh, betweenThem], by simp [Dec.fresh], by simp [Dec.fresh], by simp [Dec.fresh, afterHeader], ha⟩
  | step hf e hx ih =>
    obtain ⟨x2, h1, h2⟩ := cinv_step (reach_inv (follow_reach hf)) (reach_inv (.step (follow_reach hf) e)) ih e
    rw [h1] at hx; cases hx; exact h2
  | nextChunk chunk last _ hl ih => exact ih
  | nextMessage chunk last _ hd ih => exact ih

/-- C95: filling the context that copies the token never writes outside it. -/
theorem inline_context_total {d c x y es d' c' evs} (h : Follow d c x y es)
    (e : d.stepNotify c = .ok (d', c', evs)) : ∃ x', Follow d' c' x' (y.fill evs) (es ++ evs) := by
  obtain ⟨x2, h1, _⟩ := cinv_step (reach_inv (follow_reach h)) (reach_inv (.step (follow_reach h) e)) (follow_inv h) e
  exact ⟨x2, .step h e h1⟩

/-- C95: a context that copies the token shows header and token of the message in progress from the moment the token
has been reported until the header of the next message is, for any bytes in any buffers and any number of messages. -/
theorem inline_context_shows {d c x y es} (h : Follow d c x y es) {hd : Header} {t : List UInt8}
    (hl : latest es = (some hd, some t)) : x.header = hd ∧ x.shown = some t ∧ x.present = true := by
  have k := follow_inv h
  have h1 := (k.hdr hd (by rw [hl])).1
  obtain ⟨_, h8, ht, hp, _⟩ := k.tok hd t hl
  refine ⟨h1, ?_, hp⟩
  simp only [HCtx.shown]
  rw [if_pos (by rw [h1, k.len]; exact h8), h1, ht]

/-- C95: the context says it has a header exactly when one has been reported whose version is not 0, so a message of
version 0 counts as none. -/
theorem context_has_header_iff {d c x y es} (h : Follow d c x y es) :
    x.haveHeader = true ↔ ∃ hd, (latest es).1 = some hd ∧ hd.version ≠ 0 := by
  have k := follow_inv h
  cases e : (latest es).1 with
  | none => rw [HCtx.haveHeader, (k.noHdr e).1]; simp [Header.version]
  | some hd =>
    rw [HCtx.haveHeader, (k.hdr hd e).1]
    simp only [gt_iff_lt, decide_eq_true_eq, Option.some.injEq, exists_eq_left', UInt8.lt_iff_toNat_lt, ne_eq,
      ← UInt8.toNat_inj]
    simp; omega

/-- C95: where token and option decoder have separate storage, the context that refers to the token shows the same. -/
theorem reference_context_shows_partial {d c x y es} (h : Follow d c x y es) {hd : Header} {t : List UInt8}
    (hl : latest es = (some hd, some t)) : y.header = hd ∧ y.shown false d = some t := by
  have k := follow_inv h
  have h1 := (k.hdr hd (by rw [hl])).2
  obtain ⟨ht, _, _, _, hs⟩ := k.tok hd t hl
  exact ⟨h1, by simp [RefCtx.shown, hs, tokenBytes, h1, ht]⟩

/-- C95: where they share it, the context that refers to the token still shows it when the token and when the start of the
options is reported. -/
theorem reference_context_at_token {d c x y es} (h : Follow d c x y es) {d' c' evs}
    (e : d.stepNotify c = .ok (d', c', evs)) (he : (∃ t, .token t ∈ evs) ∨ .optionStart ∈ evs) :
    ∃ hd t, latest (es ++ evs) = (some hd, some t) ∧ (y.fill evs).shown true d' = some t := by
  obtain ⟨x2, h2⟩ := inline_context_total h e
  have k := follow_inv h2
  obtain ⟨hs, hn⟩ := ctx_stepNotify_parts e
  have hst : d'.st = .tokenDone ∨ d'.st = .optionsStart := by
    cases hs : d'.st <;> simp only [Dec.notify, hs] at hn
    case tokenDone => exact Or.inl rfl
    case optionsStart => exact Or.inr rfl
    case options =>
      split at hn
      · split at hn <;> (cases hn; simp at he)
      · cases hn; simp at he
    all_goals (cases hn; simp at he)
  have hc : (latest (es ++ evs)).1 = some d'.hdr := k.cur (by rcases hst with a | a <;> simp [a, afterHeader])
  have h2' : ∃ t, (latest (es ++ evs)).2 = some t := by
    have := k.known (by rcases hst with a | a <;> simp [a, afterHeader]) (by rcases hst with a | a <;> simp [a, betweenThem])
    cases e : (latest (es ++ evs)).2 with
    | none => exact absurd e this
    | some t => exact ⟨t, rfl⟩
  obtain ⟨t, h2'⟩ := h2'
  have hp : latest (es ++ evs) = (some d'.hdr, some t) := by rw [← hc, ← h2']
  refine ⟨d'.hdr, t, hp, ?_⟩
  obtain ⟨ht, h8, _, _, hset⟩ := k.tok _ _ hp
  have hy := (k.hdr _ hc).2
  simp only [RefCtx.shown, hset, if_true, hy]
  rcases k.fresh hst with a | a
  · simp [ht, a]
  · simp [tokenBytes, a, ht]

/-- C95 fails for that context in every message with an option or a payload: when either is reported, the first three bytes
of the token are shown as zeros. -/
theorem reference_context_zeroed {d c x y es} (h : Follow d c x y es) {d' c' evs}
    (e : d.stepNotify c = .ok (d', c', evs))
    (he : (∃ n v l, .option n v l ∈ evs) ∨ (∃ v l, .payload v l ∈ evs)) :
    ∃ hd t s, latest (es ++ evs) = (some hd, some t) ∧ (y.fill evs).shown true d' = some s ∧
      s.take 3 = List.replicate (min 3 t.length) 0 := by
  obtain ⟨x2, h2⟩ := inline_context_total h e
  have k := follow_inv h2
  obtain ⟨hs, hn⟩ := ctx_stepNotify_parts e
  have hst : (d'.st = .options ∧ d'.opt.st = .valueStart) ∨ d'.st = .payload := by
    cases hs : d'.st <;> simp only [Dec.notify, hs] at hn
    case options =>
      by_cases hv : (d'.opt.st == .valueStart) = true
      · exact Or.inl ⟨rfl, by simpa using hv⟩
      · rw [if_neg hv] at hn; cases hn; simp at he
    case payload => exact Or.inr rfl
    case tokenDone => split at hn <;> cases hn; simp at he
    all_goals (cases hn; simp at he)
  have hg : d'.opt.st ≠ .garbage := by
    rcases hst with ⟨_, a⟩ | a
    · simp [a]
    · simp [k.pay a]
  have ha : afterHeader d'.st = true := by rcases hst with ⟨a, _⟩ | a <;> simp [a, afterHeader]
  have hc := k.cur ha
  have hk := k.known ha (by rcases hst with ⟨a, _⟩ | a <;> simp [a, betweenThem])
  cases e2 : (latest (es ++ evs)).2 with
  | none => exact absurd e2 hk
  | some t =>
    have hp : latest (es ++ evs) = (some d'.hdr, some t) := by rw [← hc, ← e2]
    obtain ⟨ht, h8, _, _, hset⟩ := k.tok _ _ hp
    have hy := (k.hdr _ hc).2
    refine ⟨d'.hdr, t, (tokenBytes true d').take d'.hdr.tokenLength.toNat, hp, by simp [RefCtx.shown, hset, hy], ?_⟩
    have hlen : t.length = d'.hdr.tokenLength.toNat := by
      rw [ht, List.length_take, (reach_inv (follow_reach h2)).tbuf]; omega
    simp only [tokenBytes, hg, ne_eq, not_false_eq_true, and_self, if_true, hlen]
    generalize d'.hdr.tokenLength.toNat = n
    match n with
    | 0 => rfl
    | 1 => rfl
    | 2 => rfl
    | n + 3 => simp

/-- C95: hence the reference shows the right token there only if its first three bytes are zeros. -/
theorem reference_context_right_only {d c x y es} (h : Follow d c x y es) {d' c' evs}
    (e : d.stepNotify c = .ok (d', c', evs))
    (he : (∃ n v l, .option n v l ∈ evs) ∨ (∃ v l, .payload v l ∈ evs)) {hd : Header} {t : List UInt8}
    (hl : latest (es ++ evs) = (some hd, some t)) (hr : (y.fill evs).shown true d' = some t) :
    ∀ b ∈ t.take 3, b = 0 := by
  obtain ⟨hd2, t2, s, h1, h2, h3⟩ := reference_context_zeroed h e he
  rw [hl] at h1
  obtain ⟨rfl, rfl⟩ : hd = hd2 ∧ t = t2 := by simpa using h1
  rw [hr] at h2
  obtain rfl : t = s := by simpa using h2
  intro b hb
  rw [h3] at hb
  exact (List.mem_replicate.1 hb).2

theorem follow_present {d c x y es} (h : Follow d c x y es) {t0 : List UInt8} (ht : .token t0 ∈ es) :
    x.present = true := by
  have hfill : ∀ (evs : List Event) (x x' : HCtx), x.fill evs = some x' → (x.present = true ∨ .token t0 ∈ evs) →
      x'.present = true := by
    intro evs
    induction evs with
    | nil => intro x x' hf hp; simp [HCtx.fill] at hf hp; rw [← hf]; exact hp
    | cons e evs ih =>
      intro x x' hf hp
      simp only [HCtx.fill] at hf
      cases e2 : x.onEvent e with
      | none => simp [e2] at hf
      | some x1 =>
        simp only [e2, Option.bind_some] at hf
        refine ih x1 x' hf ?_
        have hmono : x.present = true → x1.present = true := by
          intro hx
          cases e <;> simp only [HCtx.onEvent, HCtx.setToken] at e2 <;>
            first
              | (cases e2; exact hx)
              | (split at e2 <;> cases e2; rfl)
        rcases hp with a | a
        · exact Or.inl (hmono a)
        · rcases List.mem_cons.1 a with a | a
          · subst a
            simp only [HCtx.onEvent, HCtx.setToken] at e2
            split at e2 <;> cases e2
            exact Or.inl rfl
          · exact Or.inr a
  induction h with
  | init => simp at ht
  | step hf e hx ih =>
    rcases List.mem_append.1 ht with a | a
    · exact hfill _ _ _ hx (Or.inl (ih a))
    · exact hfill _ _ _ hx (Or.inr a)
  | nextChunk _ _ _ _ ih => exact ih ht
  | nextMessage _ _ _ _ ih => exact ih ht

/-- C95 fails between the header and the token of a second message: a context that is used again already shows the new
header, still says that it has a token, and shows as the token what the earlier messages left in it. -/
theorem inline_context_stale {d c x y es} (h : Follow d c x y es) {hd : Header} {t0 : List UInt8}
    (hl : latest es = (some hd, none)) (ht : .token t0 ∈ es) (h8 : hd.tokenLength.toNat ≤ 8) :
    x.header = hd ∧ x.present = true ∧ x.shown = some (x.token.take hd.tokenLength.toNat) := by
  have k := follow_inv h
  have h1 := (k.hdr hd (by rw [hl])).1
  exact ⟨h1, follow_present h ht, by simp only [HCtx.shown, h1, k.len]; rw [if_pos h8]⟩

/-- C95 fails for a reference kept beyond its message: once the same decoder has read another message whose token is not
shorter, the kept context shows the beginning of that message's token. -/
theorem reference_context_kept {d c x y es} (h : Follow d c x y es) {hd : Header} {t : List UInt8}
    (hl : latest es = (some hd, some t)) {kept : RefCtx} (hk : kept.set = true)
    (hle : kept.header.tokenLength ≤ hd.tokenLength) :
    kept.shown false d = some (t.take kept.header.tokenLength.toNat) := by
  obtain ⟨ht, _⟩ := (follow_inv h).tok hd t hl
  have hm : min kept.header.tokenLength.toNat hd.tokenLength.toNat = kept.header.tokenLength.toNat :=
    Nat.min_eq_left hle
  simp [RefCtx.shown, hk, tokenBytes, ht, List.take_take, hm]

theorem follow_unset {d c x y es} (h : Follow d c x y es) (ht : ∀ t, .token t ∉ es) :
    x.present = false ∧ y.set = false := by
  have hx : ∀ (evs : List Event) (x x' : HCtx), x.fill evs = some x' → (∀ t, .token t ∉ evs) → x'.present = x.present := by
    intro evs
    induction evs with
    | nil => intro x x' hf _; simp [HCtx.fill] at hf; rw [hf]
    | cons e evs ih =>
      intro x x' hf hn
      simp only [HCtx.fill] at hf
      cases e2 : x.onEvent e with
      | none => simp [e2] at hf
      | some x1 =>
        simp only [e2, Option.bind_some] at hf
        rw [ih x1 x' hf fun t hm => hn t (by simp [hm])]
        cases e <;> simp only [HCtx.onEvent] at e2 <;> first
          | (cases e2; rfl)
          | exact absurd (List.mem_cons_self) (hn _)
  have hy : ∀ (evs : List Event) (y : RefCtx), (∀ t, .token t ∉ evs) → (y.fill evs).set = y.set := by
    intro evs
    induction evs with
    | nil => intro y _; rfl
    | cons e evs ih =>
      intro y hn
      have := ih (y.onEvent e) fun t hm => hn t (by simp [hm])
      simp only [RefCtx.fill, List.foldl_cons] at this ⊢
      rw [this]
      cases e <;> first
        | rfl
        | exact absurd (List.mem_cons_self) (hn _)
  induction h with
  | init => exact ⟨rfl, rfl⟩
  | step hf e hx' ih =>
    have h1 := ih fun t hm => ht t (by simp [hm])
    exact ⟨(hx _ _ _ hx' fun t hm => ht t (List.mem_append_right _ hm)).trans h1.1,
      (hy _ _ fun t hm => ht t (List.mem_append_right _ hm)).trans h1.2⟩
  | nextChunk _ _ _ _ ih => exact ih ht
  | nextMessage _ _ _ _ ih => exact ih ht

/-- C95: until a token has been reported neither context claims one; the referring context then gives an empty token as
long as no header announces one, and from then on must not be asked (its pointer is null). -/
theorem context_before_token {d c x y es} (h : Follow d c x y es) (ht : ∀ t, .token t ∉ es) (u : Bool) :
    x.present = false ∧
    (y.shown u d = none ↔ ∃ hd, (latest es).1 = some hd ∧ hd.tokenLength ≠ 0) ∧
    (y.shown u d = some [] ↔ ∀ hd, (latest es).1 = some hd → hd.tokenLength = 0) := by
  have k := follow_inv h
  obtain ⟨h1, h2⟩ := follow_unset h ht
  refine ⟨h1, ?_⟩
  cases e : (latest es).1 with
  | none =>
    have := (k.noHdr e).2
    simp [RefCtx.shown, h2, this, Header.tokenLength]
  | some hd =>
    have := (k.hdr hd e).2
    by_cases hz : hd.tokenLength = 0 <;> simp [RefCtx.shown, h2, this, hz]

/-- C95: a copying context says that it has a token exactly when one was ever reported to it, so an empty token counts. -/
theorem context_has_token_iff {d c x y es} (h : Follow d c x y es) :
    x.present = true ↔ ∃ t, .token t ∈ es := by
  constructor
  · intro hp
    refine Classical.byContradiction fun hn => ?_
    rw [(follow_unset h fun t hm => hn ⟨t, hm⟩).1] at hp
    cases hp
  · rintro ⟨t, ht⟩
    exact follow_present h ht

/-- `n` steps of the decoder with both contexts, for the concrete cases below. -/
def followSteps : Nat → Dec → Ctx → HCtx → RefCtx → List Event → Option (Dec × Ctx × HCtx × RefCtx × List Event)
  | 0, d, c, x, y, es => some (d, c, x, y, es)
  | n + 1, d, c, x, y, es =>
    match d.stepNotify c with
    | .error _ => none
    | .ok (d', c', evs) => (x.fill evs).bind fun x' => followSteps n d' c' x' (y.fill evs) (es ++ evs)

theorem followSteps_follow (n : Nat) {d c x y es} (h : Follow d c x y es) {r}
    (hr : followSteps n d c x y es = some r) : Follow r.1 r.2.1 r.2.2.1 r.2.2.2.1 r.2.2.2.2 := by
  induction n generalizing d c x y es with
  | zero => simp only [followSteps, Option.some.injEq] at hr; subst hr; exact h
  | succ n ih =>
    simp only [followSteps] at hr
    cases e : d.stepNotify c with
    | error f => simp [e] at hr
    | ok v =>
      obtain ⟨d', c', evs⟩ := v
      simp only [e] at hr
      cases e2 : x.fill evs with
      | none => simp [e2] at hr
      | some x' => simp only [e2, Option.bind_some] at hr; exact ih (.step h e e2) hr

/-- A GET with the token AA BB, a path of one segment and a payload. -/
def ctxMsg : List UInt8 := [0x42, 1, 0, 7, 0xAA, 0xBB, 0xB1, 0x61, 0xFF, 0x31]

/-- A GET with the token 11 22 and nothing else. -/
def ctxMsg2 : List UInt8 := [0x42, 1, 0, 8, 0x11, 0x22]

/-- A decoder and both contexts after `n` steps on the first message, and after `n` more on the second. -/
def ctxFirst (n : Nat) : Option (Dec × Ctx × HCtx × RefCtx × List Event) :=
  followSteps n (fresh zero) ⟨ctxMsg, 0, true⟩ (HCtx.init (List.replicate 8 0xEE)) RefCtx.init []

def ctxDone : Dec × Ctx × HCtx × RefCtx × List Event := (ctxFirst 12).get (by decide +kernel)

def ctxSecond (n : Nat) : Option (Dec × Ctx × HCtx × RefCtx × List Event) :=
  followSteps n ctxDone.1 ⟨ctxMsg2, 0, true⟩ ctxDone.2.2.1 ctxDone.2.2.2.1 ctxDone.2.2.2.2

theorem ctxStart : Follow (fresh zero) ⟨ctxMsg, 0, true⟩ (HCtx.init (List.replicate 8 0xEE)) RefCtx.init [] :=
  .init zero ctxMsg true _ (by decide) (by decide)

theorem ctxBetween : Follow ctxDone.1 ⟨ctxMsg2, 0, true⟩ ctxDone.2.2.1 ctxDone.2.2.2.1 ctxDone.2.2.2.2 :=
  .nextMessage ctxMsg2 true (followSteps_follow 12 ctxStart (Option.some_get _).symm) (by decide +kernel)

/-- Non-trivial case of the theorems above: when the payload is reported, the copying context shows AA BB, and so does the
referring one with separate storage, but with shared storage it shows 00 00. -/
example : ∃ d c x y es, Follow d c x y es ∧ latest es = (some ⟨0x42, 1, 0, 7⟩, some [0xAA, 0xBB]) ∧
    es.getLast? = some (.payload [0x31] true) ∧ x.shown = some [0xAA, 0xBB] ∧ y.shown false d = some [0xAA, 0xBB] ∧
    y.shown true d = some [0, 0] :=
  ⟨_, _, _, _, _, followSteps_follow 10 ctxStart
    (Option.some_get (by decide +kernel : (ctxFirst 10).isSome = true)).symm, by decide +kernel⟩

/-- And of `inline_context_stale` and `reference_context_kept`: after the header of the second message the copying context
shows its header with the token of the first, and after its token a reference kept from the first shows 11 22. -/
example : (∃ d c x y es, Follow d c x y es ∧ latest es = (some ⟨0x42, 1, 0, 8⟩, none) ∧ .token [0xAA, 0xBB] ∈ es ∧
      x.present = true ∧ x.shown = some [0xAA, 0xBB]) ∧
    ∃ d c x y es, Follow d c x y es ∧ latest es = (some ⟨0x42, 1, 0, 8⟩, some [0x11, 0x22]) ∧
      (RefCtx.shown false d ⟨⟨0x42, 1, 0, 7⟩, true⟩) = some [0x11, 0x22] :=
  ⟨⟨_, _, _, _, _, followSteps_follow 3 ctxBetween
      (Option.some_get (by decide +kernel : (ctxSecond 3).isSome = true)).symm, by decide +kernel⟩,
    ⟨_, _, _, _, _, followSteps_follow 6 ctxBetween
      (Option.some_get (by decide +kernel : (ctxSecond 6).isSome = true)).symm, by decide +kernel⟩⟩

end Verif.Props
