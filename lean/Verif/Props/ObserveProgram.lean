import Verif.Spec.ObserveProgram
import Verif.Props.ObserveEmit
import Verif.Props.Examples

/-! # C89: the observe example and its clients -/
namespace Verif.Props
open Verif.Model Verif.Spec Verif.Proofs Observable

variable {A : Type}

/-! ## Lists -/

theorem each_length {α β : Type} {R : α → β → Prop} : ∀ {xs : List α} {ys : List β}, Each R xs ys → xs.length = ys.length
  | [], [], _ => rfl
  | _ :: _, _ :: _, h => by simp [each_length h.2]

theorem each_get {α β : Type} {R : α → β → Prop} : ∀ {xs : List α} {ys : List β} {i : Nat} {x : α}, Each R xs ys → xs[i]? = some x →
    ∃ y, ys[i]? = some y ∧ R x y
  | x :: xs, y :: ys, 0, _, h, e => by simp at e; exact ⟨y, rfl, e ▸ h.1⟩
  | x :: xs, y :: ys, i + 1, _, h, e => by simp at e; simpa using each_get h.2 e

theorem each_of_get {α β : Type} {R : α → β → Prop} : ∀ {xs : List α} {ys : List β}, ys.length = xs.length →
    (∀ (i : Nat) x, xs[i]? = some x → ∃ y, ys[i]? = some y ∧ R x y) → Each R xs ys
  | [], [], _, _ => trivial
  | x :: xs, y :: ys, hl, h => by
    refine ⟨?_, each_of_get (by simpa using hl) fun i x' hx => ?_⟩
    · obtain ⟨y', h1, h2⟩ := h 0 x rfl
      simp at h1; rw [h1]; exact h2
    · simpa using h (i + 1) x' (by simpa using hx)

theorem each_filter {α β : Type} {R S : α → β → Prop} {p : α → Bool} {q : β → Bool} (hR : ∀ x y, R x y → p x = q y)
    (hS : ∀ x y, R x y → p x = true → S x y) : ∀ {xs : List α} {ys : List β}, Each R xs ys → Each S (xs.filter p) (ys.filter q)
  | [], [], _ => trivial
  | x :: xs, y :: ys, h => by
    have := hR x y h.1
    cases hp : p x
    · rw [List.filter_cons_of_neg (by simp [hp]), List.filter_cons_of_neg (by simp [← this, hp])]
      exact each_filter hR hS h.2
    · rw [List.filter_cons_of_pos (by simp [hp]), List.filter_cons_of_pos (by simp [← this, hp])]
      exact ⟨hS x y h.1 hp, each_filter hR hS h.2⟩

theorem each_append {α β : Type} {R : α → β → Prop} : ∀ {xs1 xs2 : List α} {ys : List β}, Each R (xs1 ++ xs2) ys →
    ∃ ys1 ys2, ys = ys1 ++ ys2 ∧ Each R xs1 ys1 ∧ Each R xs2 ys2
  | [], _, ys, h => ⟨[], ys, rfl, trivial, h⟩
  | x :: xs1, _, y :: ys, h => by
    obtain ⟨ys1, ys2, e, h1, h2⟩ := each_append h.2
    exact ⟨y :: ys1, ys2, by rw [e]; rfl, ⟨h.1, h1⟩, h2⟩

/-! ## The specification along a history -/

theorem lastTurn_append : ∀ (l : Int) (a b : List (ObsSeen A)), lastTurn l (a ++ b) = lastTurn (lastTurn l a) b
  | _, [], _ => rfl
  | l, .request _ _ :: a, b => lastTurn_append l a b
  | l, .loop _ :: a, b => lastTurn_append _ a b

theorem turns_append : ∀ (l : Int) (a b : List (ObsSeen A)), turns l (a ++ b) = turns l a + turns (lastTurn l a) b
  | _, [], _ => by simp [turns, lastTurn]
  | l, .request _ _ :: a, b => turns_append l a b
  | l, .loop now :: a, b => by
    simp only [List.cons_append, turns, lastTurn]
    by_cases h : now - l > 1000
    · simp only [h, if_true]; rw [turns_append]; omega
    · simp only [h, if_false]; exact turns_append _ _ _

theorem tally_append : ∀ (l : Int) (a b : List (ObsSeen A)),
    tally l (a ++ b) = (tally l a).map (fun x => (x.1, x.2.1, x.2.2 + turns (lastTurn l a) b)) ++ tally (lastTurn l a) b
  | _, [], _ => rfl
  | l, .request p m :: a, b => by
    simp only [List.cons_append, tally, lastTurn, tally_append l a b, turns_append]
    by_cases h : asks m = true <;> simp [h]
  | l, .loop now :: a, b => by
    simp only [List.cons_append, tally, lastTurn]
    exact tally_append _ a b

theorem asking_append (a b : List (ObsSeen A)) : asking (a ++ b) = asking a + asking b := by
  induction a with
  | nil => simp [asking]
  | cons x a ih => cases x <;> simp [asking, ih, Nat.add_assoc]

theorem looks_append (a b : List (ObsSeen A)) : looks (a ++ b) = looks a + looks b := by
  induction a with
  | nil => simp [looks]
  | cons x a ih => cases x <;> simp [looks, ih] <;> omega

theorem tally_length : ∀ (l : Int) (hs : List (ObsSeen A)), (tally l hs).length = asking hs
  | _, [] => rfl
  | l, .request _ m :: hs => by
    have := tally_length l hs
    by_cases h : asks m = true <;> simp [tally, asking, h, this]
    omega
  | l, .loop _ :: hs => tally_length _ hs

theorem turns_le : ∀ (l : Int) (hs : List (ObsSeen A)), turns l hs ≤ looks hs
  | _, [] => Nat.le_refl _
  | l, .request _ _ :: hs => turns_le l hs
  | l, .loop now :: hs => by
    have h1 := turns_le now hs
    have h2 := turns_le l hs
    simp only [turns, looks]
    by_cases h : now - l > 1000 <;> simp only [h, if_true, if_false] <;> omega

theorem tally_le : ∀ (l : Int) (hs : List (ObsSeen A)), ∀ x ∈ tally l hs, x.2.2 ≤ looks hs
  | _, [] => by simp [tally]
  | l, .request _ m :: hs => by
    intro x hx
    simp only [tally, List.mem_append] at hx
    simp only [looks]
    rcases hx with hx | hx
    · by_cases h : asks m = true <;> simp [h] at hx
      rw [hx]; exact turns_le l hs
    · exact tally_le l hs x hx
  | l, .loop _ :: hs => by
    intro x hx
    have := tally_le _ hs x hx
    simp only [looks]; omega

/-! ## The walk over the options -/

theorem slashText_length (os : List Opt) :
    (slashText os).length = ((os.filter fun o => o.number = 11).map fun o => o.value.length + 1).sum := by
  simp only [slashText, segments]
  generalize os.filter (fun o => decide (o.number = 11)) = l
  induction l with
  | nil => rfl
  | cons o l ih =>
    simp only [List.map_cons, List.flatten_cons, List.length_append, List.length_singleton, List.sum_cons, ih]

theorem shown_text_le (b : Bool) (os : List Opt) : (slashText (iteratorShows b os)).length ≤ (slashText os).length := by
  have hc : ∀ (o : Opt) (l : List Opt), (slashText (o :: l)).length = (if o.number = 11 then o.value.length + 1 else 0) + (slashText l).length := by
    intro o l
    rw [slashText_cons]
    by_cases h : o.number = 11 <;> simp [h]; omega
  fun_induction iteratorShows b os with
  | case1 => simp
  | case2 o h => rw [hc, hc]; by_cases h : o.number = 11 <;> simp [h]
  | case3 o h => simp [slashText, segments]
  | case4 o o2 => rw [hc, hc]; by_cases h : o.number = 11 <;> simp [h, show slashText [] = [] from rfl]; omega
  | case5 o o2 o3 rest ih =>
    rw [hc, hc, hc, hc, hc]
    simp only [List.length_nil]
    by_cases h : o.number = 11 <;> simp only [h, if_true, if_false] <;> omega

theorem no_observe_asks {m : Msg} (h : NoObserve m) : asks m = false := by
  simp only [asks, List.any_eq_false, decide_eq_true_eq]
  exact h

theorem observe_first_asks {m : Msg} (h : ObserveFirst m) : asks m = true := by
  obtain ⟨v, o, rest, e, -⟩ := h
  simp [asks, e]

theorem opts_le_bytes {prev : Nat} {os : List Opt} {ob : List UInt8} (h : IsOpts prev os ob) : os.length ≤ ob.length := by
  induction h with
  | nil => simp
  | cons _ _ _ hh _ ih =>
    have := List.length_pos_iff.mpr (hdrOf_ne hh)
    simp only [List.length_cons, List.length_append]
    omega

/-! ## One event -/

theorem request_step (C : ObsCfg) (hroom : 13 + C.uriCap ≤ C.room) (s : ObsSt A) (e : ObsEv A) (a : A) (m : Msg)
    (he : SeenAs e (.request a m)) (hm : NoObserve m ∨ ObserveFirst m)
    (hcap : ((m.opts.filter fun o => o.number = 11).map fun o => o.value.length + 1).sum ≤ C.uriCap)
    (hreg : s.reg.sessions.length + (if asks m then 1 else 0) ≤ C.regCap) :
    ∃ text, obsStep C s e =
      .ok ({ s with reg := { s.reg with sessions := s.reg.sessions ++ (if asks m then [⟨a, m.token, 0⟩] else []) } },
        [⟨a, encMsg (response m (if asks m then 0x43 else 0x84) (some text))⟩]) := by
  cases e with
  | loop => exact he.elim
  | got a' bytes junk jt jh =>
    obtain ⟨rfl, ⟨hmo, ob, hob, hb⟩, hj, hst, hjt⟩ := he
    have hb' : bytes = wire m ob := hb
    have hlen : m.opts.length < 11 * bytes.length + 65561 := by
      have := opts_le_bytes hob
      rw [hb]; simp only [List.length_append]; omega
    rw [← slashText_length] at hcap
    have hcap' := Nat.le_trans (shown_text_le m.payload.isSome m.opts) hcap
    rcases hm with hm | hm
    · have ha := no_observe_asks hm
      have := observe_answered_partial m hmo ob hob junk hj (Or.inl hst) jt hjt jh C.uriCap C.regCap C.room _ s.reg a' hcap' hroom
        (by rw [no_observe hm]; simpa [ha] using hreg) hlen
      rw [no_observe hm] at this
      rw [hb'] at this ⊢
      simp only [obsStep, ha]
      rw [this]
      exact ⟨_, by simp [lastCode]; rfl⟩
    · have ha := observe_first_asks hm
      obtain ⟨v, o, rest, ho, -, hno⟩ := hm
      obtain ⟨text, h⟩ := observe_end_registers m hmo v o rest ho hno ob hob junk hj jt hjt jh C.uriCap C.regCap C.room _ s.reg a' hcap' hroom
        (by simp only [ha, if_true] at hreg; omega) hlen
      refine ⟨text, ?_⟩
      simp only [obsStep, ha, if_true]
      rw [hb'] at h ⊢
      rw [h]

theorem idOf_notification (mid : Nat) (h : mid < 65536) (t v : List UInt8) (p : Option (List UInt8)) :
    idOf (encMsg (notification mid t v p)) = mid := by
  have h1 : mid / 256 < 256 := by omega
  simp [idOf, encMsg, encHeader, notification, beValue, UInt8.toNat_ofNat, Nat.mod_eq_of_lt h1]
  omega

/-- What a round sends. -/
theorem round_sends (C : ObsCfg) (hroom : 39 ≤ C.room) (junk : List UInt8) (hj : 4 ≤ junk.length) (l : List (A × List UInt8 × Nat)) (mid : Nat)
    (hl : ∀ x ∈ l, x.2.1.length ≤ 8 ∧ x.2.2 + 1 < 2 ^ 31) (hmid : mid + l.length < 2 ^ 31) :
    ∃ ms, notifyAll C.room (C.room + 6) junk (emitted C.sizeFirst) mid (l.map fun x => ⟨x.1, x.2.1, UInt32.ofNat x.2.2⟩) =
        .ok (l.map (fun x => ⟨x.1, x.2.1, UInt32.ofNat (x.2.2 + 1)⟩), mid + l.length, ms) ∧
      Each (fun x s => s.addr = x.1 ∧ NotificationOf x.2.1 (x.2.2 + 1) s.bytes) l ms ∧
      ∀ (k : Nat) s, ms[k]? = some s → idOf s.bytes = (mid + k) % 65536 := by
  obtain ⟨ms, h1, h2, h3⟩ := notifyAll_ok C.room (C.room + 6) junk (emitted C.sizeFirst) hj (by omega) (Nat.le_refl _) l mid hl hmid
  have key : ∀ (i : Nat) x, l[i]? = some x → ∃ y, ms[i]? = some y ∧ (y.addr = x.1 ∧ NotificationOf x.2.1 (x.2.2 + 1) y.bytes) ∧
      idOf y.bytes = (mid + i) % 65536 := ?_
  · refine ⟨ms, h1, each_of_get h2 fun i x hx => ?_, fun k s hs => ?_⟩
    · obtain ⟨y, y1, y2, -⟩ := key i x hx
      exact ⟨y, y1, y2⟩
    · have hk : k < l.length := by rw [← h2]; exact (List.getElem?_eq_some_iff.1 hs).1
      obtain ⟨y, y1, -, y3⟩ := key k l[k] (List.getElem?_eq_getElem hk)
      rw [hs, Option.some.injEq] at y1
      rw [y1]; exact y3
  intro i x hx
  obtain ⟨a, t, n⟩ := x
  obtain ⟨v, e, v1, v2, v3, he, hm⟩ := h3 i a t n hx
  obtain ⟨htl, hn⟩ := hl _ (List.mem_of_getElem? hx)
  simp only at htl hn
  have htx := observedText_eq (n + 1) hn
  have hlen : (observedText (UInt32.ofNat (n + 1))).length ≤ 20 := by
    rw [htx]; have := decimal_length (n + 1) hn; simp [observedWord]; omega
  have her : 22 ≤ e.room := by
    have h13 : v.length < 13 := by omega
    have := he.2.2.2.2
    have hl : (encMsg (notification ((mid + i) % 65536) t v none)).length = 4 + t.length + (1 + v.length) := by
      simp [encMsg, notification, encPayload, encHeader, encOpts, optHeader, nibble, extBytes, h13, Nat.add_comm, Nat.add_left_comm]
    omega
  have hx := emit_exact C.sizeFirst (UInt32.ofNat (n + 1)) e he.2.2.2.1 (by omega)
  have hd := notification_delivered ((mid + i) % 65536) (by omega) t v (observedText (UInt32.ofNat (n + 1))) htl v2 e C.room he
    (by simp [observedText]) (by omega)
  have hout := hd.1
  rw [htx] at hout
  exact ⟨_, hm, ⟨rfl, (mid + i) % 65536, v, decimal (n + 1), by omega, v1, v3, v2, (decimal_spec _).1, by
    simp only [emitted, hx, htx, hout]⟩, by
    simp only [emitted, hx, htx, hout]; exact idOf_notification _ (by omega) _ _ _⟩

/-! ## Histories -/

/-- The state of the program after a history. -/
def ObsRep (s : ObsSt A) (pre : List (ObsSeen A)) : Prop :=
  s.last = lastTurn 0 pre ∧ s.reg.sessions = (tally 0 pre).map (fun x => ⟨x.1, x.2.1, UInt32.ofNat x.2.2⟩) ∧
    s.reg.mid ≤ asking pre * looks pre

/-- What an event makes the program send. -/
def Sends (pre : List (ObsSeen A)) : ObsSeen A → List (Sent A) → Prop
  | .request a m, ms => ∃ text, ms = [⟨a, encMsg (response m (if asks m then 0x43 else 0x84) (some text))⟩]
  | .loop now, ms =>
    if now - lastTurn 0 pre > 1000 then
      Each (fun x s => s.addr = x.1 ∧ NotificationOf x.2.1 (x.2.2 + 1) s.bytes) (tally 0 pre) ms
    else ms = []

theorem tokens_ok {hs : List (ObsSeen A)} (h : ∀ a m, ObsSeen.request a m ∈ hs → m.token.length ≤ 8) (l : Int) :
    ∀ x ∈ tally l hs, x.2.1.length ≤ 8 := by
  induction hs generalizing l with
  | nil => simp [tally]
  | cons e hs ih =>
    have ih := ih fun a m hm => h a m (List.mem_cons_of_mem _ hm)
    intro x hx
    cases e with
    | loop now => exact ih _ x hx
    | request a m =>
      simp only [tally, List.mem_append] at hx
      rcases hx with hx | hx
      · by_cases hc : asks m = true <;> simp [hc] at hx
        rw [hx]; exact h a m List.mem_cons_self
      · exact ih _ x hx

/-- The bounds of the program. -/
def Bounds (C : ObsCfg) (hs : List (ObsSeen A)) : Prop :=
  39 ≤ C.room ∧ 13 + C.uriCap ≤ C.room ∧ asking hs ≤ C.regCap ∧ asking hs * looks hs < 2 ^ 31 ∧ RequestsOk C.uriCap hs

theorem bounds_prefix {C : ObsCfg} {a b : List (ObsSeen A)} (h : Bounds C (a ++ b)) : Bounds C a := by
  obtain ⟨h1, h2, h3, h4, h5⟩ := h
  rw [asking_append] at h3 h4
  rw [looks_append] at h4
  refine ⟨h1, h2, by omega, Nat.lt_of_le_of_lt (Nat.mul_le_mul (Nat.le_add_right _ _) (Nat.le_add_right _ _)) h4, ?_⟩
  exact fun p m hm => h5 p m (List.mem_append_left _ hm)

theorem obs_step (C : ObsCfg) (s : ObsSt A) (pre : List (ObsSeen A)) (hr : ObsRep s pre) (e : ObsEv A) (h : ObsSeen A)
    (htok : ∀ a m, ObsSeen.request a m ∈ pre ++ [h] → m.token.length ≤ 8) (he : SeenAs e h) (hb : Bounds C (pre ++ [h])) :
    ∃ s' ms, obsStep C s e = .ok (s', ms) ∧ ObsRep s' (pre ++ [h]) ∧ Sends pre h ms ∧
      s'.reg.mid = s.reg.mid + (notesOf h ms).length ∧
      ∀ (k : Nat) x, (notesOf h ms)[k]? = some x → idOf x.bytes = (s.reg.mid + k) % 65536 := by
  obtain ⟨r1, r2, r3⟩ := hr
  obtain ⟨b1, b2, b3, b4, b5⟩ := hb
  have hlen : s.reg.sessions.length = asking pre := by rw [r2, List.length_map, tally_length]
  cases h with
  | request a m =>
    obtain ⟨q1, q2⟩ := b5 a m (by simp)
    obtain ⟨text, ht⟩ := request_step C b2 s e a m he q1 q2 (by
      rw [asking_append] at b3; simp only [asking, Nat.add_zero] at b3; rw [hlen]; exact b3)
    refine ⟨_, _, ht, ⟨?_, ?_, ?_⟩, ⟨text, rfl⟩, rfl, by simp [notesOf]⟩
    · simp [r1, lastTurn_append, lastTurn]
    · rw [tally_append]
      by_cases hc : asks m = true <;> simp [r2, tally, turns, hc]
    · simp only
      refine Nat.le_trans r3 (Nat.mul_le_mul ?_ ?_)
      · rw [asking_append]; omega
      · rw [looks_append]; omega
  | loop now =>
    cases e with
    | got => exact he.elim
    | loop now' junk =>
      obtain ⟨rfl, hj⟩ := he
      simp only [obsStep, paceStep, r1]
      by_cases hc : now' - lastTurn 0 pre > 1000
      · simp only [hc, if_true]
        rw [asking_append, looks_append] at b4
        simp only [asking, looks, Nat.add_zero, Nat.zero_add] at b4
        have hmul : asking pre * looks pre + asking pre < 2 ^ 31 := by rw [Nat.mul_add, Nat.mul_one] at b4; exact b4
        have hall : ∀ x ∈ tally 0 pre, x.2.1.length ≤ 8 ∧ x.2.2 + 1 < 2 ^ 31 := by
          intro x hx
          refine ⟨tokens_ok (fun a m hm => htok a m (List.mem_append_left _ hm)) 0 x hx, ?_⟩
          have h1 := tally_le 0 pre x hx
          have h2 : 1 ≤ asking pre := by rw [← tally_length 0]; exact List.length_pos_of_mem hx
          have h3 : looks pre ≤ asking pre * looks pre := Nat.le_mul_of_pos_left _ h2
          omega
        obtain ⟨ms, m1, m2, m3⟩ := round_sends C b1 junk hj (tally 0 pre) s.reg.mid hall (by rw [tally_length]; omega)
        rw [← r2] at m1
        refine ⟨_, ms, by rw [m1], ⟨?_, ?_, ?_⟩, by simp only [Sends, hc, if_true]; exact m2, by
          simp only [notesOf, each_length m2], m3⟩
        · simp [lastTurn_append, lastTurn, hc]
        · rw [tally_append]
          simp [tally, turns, hc, Function.comp_def]
        · simp only [asking_append, looks_append, asking, looks, Nat.add_zero, Nat.zero_add, tally_length, Nat.mul_add, Nat.mul_one]
          omega
      · simp only [hc, if_false]
        refine ⟨_, _, rfl, ⟨?_, ?_, ?_⟩, by simp [Sends, hc], rfl, by simp [notesOf]⟩
        · simp [lastTurn_append, lastTurn, hc]
        · rw [tally_append]
          simp [tally, turns, hc, r2]
        · refine Nat.le_trans r3 (Nat.mul_le_mul ?_ ?_)
          · rw [asking_append]; omega
          · rw [looks_append]; omega

/-- What the events of a history make the program send. -/
def AllSend (pre : List (ObsSeen A)) : List (ObsSeen A) → List (List (Sent A)) → Prop
  | [], [] => True
  | h :: hs, ms :: outs => Sends pre h ms ∧ AllSend (pre ++ [h]) hs outs
  | _, _ => False

theorem obs_run (C : ObsCfg) : ∀ (es : List (ObsEv A)) (hs pre : List (ObsSeen A)) (s : ObsSt A), ObsRep s pre →
    (∀ a m, ObsSeen.request a m ∈ pre ++ hs → m.token.length ≤ 8) → Each SeenAs es hs → Bounds C (pre ++ hs) →
    ∃ s' outs, obsRun C s es = .ok (s', outs) ∧ ObsRep s' (pre ++ hs) ∧ AllSend pre hs outs ∧
      ∀ (k : Nat) x, (notes hs outs)[k]? = some x → idOf x.bytes = (s.reg.mid + k) % 65536
  | [], [], pre, s, hr, _, _, _ => ⟨s, [], rfl, by simpa using hr, trivial, by simp [notes]⟩
  | e :: es, h :: hs, pre, s, hr, ht, he, hb => by
    have hassoc : pre ++ h :: hs = (pre ++ [h]) ++ hs := by simp
    rw [hassoc] at ht hb
    obtain ⟨s1, ms, p1, p2, p3, p4, p5⟩ := obs_step C s pre hr e h (fun a m hm => ht a m (List.mem_append_left _ hm)) he.1 (bounds_prefix hb)
    obtain ⟨s2, outs, q1, q2, q3, q4⟩ := obs_run C es hs (pre ++ [h]) s1 p2 ht he.2 hb
    refine ⟨s2, ms :: outs, by simp only [obsRun, p1, q1], by rw [hassoc]; exact q2, ⟨p3, q3⟩, fun k x hx => ?_⟩
    rw [notes] at hx
    by_cases hk : k < (notesOf h ms).length
    · rw [List.getElem?_append_left hk] at hx
      exact p5 k x hx
    · rw [List.getElem?_append_right (by omega)] at hx
      rw [q4 _ x hx, p4]
      congr 1; omega

theorem allSend_get : ∀ {hs pre : List (ObsSeen A)} {outs : List (List (Sent A))} {i : Nat} {h : ObsSeen A}, AllSend pre hs outs →
    hs[i]? = some h → ∃ ms, outs[i]? = some ms ∧ Sends (pre ++ hs.take i) h ms
  | h :: hs, pre, ms :: outs, 0, _, ha, e => by simp at e; exact ⟨ms, rfl, by simpa [← e] using ha.1⟩
  | h :: hs, pre, ms :: outs, i + 1, _, ha, e => by
    simp only [List.getElem?_cons_succ] at e
    obtain ⟨ms', h1, h2⟩ := allSend_get ha.2 e
    exact ⟨ms', by simpa using h1, by simpa using h2⟩

theorem allSend_length : ∀ {hs pre : List (ObsSeen A)} {outs : List (List (Sent A))}, AllSend pre hs outs → outs.length = hs.length
  | [], _, [], _ => rfl
  | _ :: _, _, _ :: _, h => by simp [allSend_length h.2]

theorem seen_tokens : ∀ {es : List (ObsEv A)} {hs : List (ObsSeen A)}, Each SeenAs es hs → ∀ a m, ObsSeen.request a m ∈ hs → m.token.length ≤ 8
  | [], [], _, _, _, hm => by simp at hm
  | e :: es, h :: hs, he, a, m, hm => by
    rcases List.mem_cons.1 hm with rfl | hm
    · cases e with
      | loop => exact he.1.elim
      | got => exact he.1.2.1.1.2.2.2.2.1
    · exact seen_tokens he.2 a m hm

/-- C89 (partial: requests with one Observe option in front or none, ten registrations at most, fewer than 2^31 messages, buffers of at
least 39 bytes and with room for the path): the program runs through every history.  Every request gets one answer; a look at the clock
sends nothing unless a round is due, and then each address gets one notification for each of its requests with an Observe option, in
order, with the token of the request and the number of rounds since, as Observe option and as text; nobody else gets anything. -/
theorem observe_program_partial [DecidableEq A] (C : ObsCfg) (es : List (ObsEv A)) (hs : List (ObsSeen A)) (he : Each SeenAs es hs)
    (hb : Bounds C hs) :
    ∃ s outs, obsRun C ObsSt.init es = .ok (s, outs) ∧ outs.length = hs.length ∧
      (∀ (i : Nat) (a : A) (m : Msg), hs[i]? = some (.request a m) →
        ∃ text, outs[i]? = some [⟨a, encMsg (response m (if asks m then 0x43 else 0x84) (some text))⟩]) ∧
      (∀ (i : Nat) now, hs[i]? = some (.loop now) → ∃ ms, outs[i]? = some ms ∧
        (now - lastTurn 0 (hs.take i) ≤ 1000 → ms = []) ∧
        (now - lastTurn 0 (hs.take i) > 1000 → ∀ a, Each (fun x s => NotificationOf x.2.1 (x.2.2 + 1) s.bytes)
          ((tally 0 (hs.take i)).filter fun x => x.1 = a) (ms.filter fun s => s.addr = a))) := by
  obtain ⟨s, outs, h1, -, h3, -⟩ := obs_run C es hs [] ObsSt.init ⟨rfl, rfl, Nat.zero_le _⟩ (by simpa using seen_tokens he) he (by simpa using hb)
  refine ⟨s, outs, h1, allSend_length h3, fun i a m hi => ?_, fun i now hi => ?_⟩
  · obtain ⟨ms, q1, text, q2⟩ := allSend_get h3 hi
    exact ⟨text, by rw [q1, q2]⟩
  · obtain ⟨ms, q1, q2⟩ := allSend_get h3 hi
    rw [List.nil_append] at q2
    refine ⟨ms, q1, fun hc => ?_, fun hc a => ?_⟩
    · rw [Sends, if_neg (by omega)] at q2; exact q2
    · rw [Sends, if_pos hc] at q2
      exact each_filter (fun x s h => by simp [h.1]) (fun x s h _ => h.2) q2

/-- C89 (partial, as before): no two of any 65536 notifications in a row, whoever they go to, have the same message id; they are counted
through from 0 on, however many rounds, requests and clients there are. -/
theorem observe_ids_partial (C : ObsCfg) (es : List (ObsEv A)) (hs : List (ObsSeen A)) (he : Each SeenAs es hs) (hb : Bounds C hs) :
    ∃ s outs, obsRun C ObsSt.init es = .ok (s, outs) ∧ (∀ (k : Nat) x, (notes hs outs)[k]? = some x → idOf x.bytes = k % 65536) ∧
      ∀ (j k : Nat) x y, (notes hs outs)[j]? = some x → (notes hs outs)[k]? = some y → j < k → k < j + 65536 →
        idOf x.bytes ≠ idOf y.bytes := by
  obtain ⟨s, outs, h1, -, -, h4⟩ := obs_run C es hs [] ObsSt.init ⟨rfl, rfl, Nat.zero_le _⟩ (by simpa using seen_tokens he) he (by simpa using hb)
  have h5 : ∀ (k : Nat) x, (notes hs outs)[k]? = some x → idOf x.bytes = k % 65536 := by
    intro k x hx
    have := h4 k x hx
    simpa [ObsSt.init, Registrar.init] using this
  refine ⟨s, outs, h1, h5, fun j k x y hx hy _ _ => ?_⟩
  rw [h5 j x hx, h5 k y hy]
  omega

theorem tally_filter_none [DecidableEq A] (a : A) {hs : List (ObsSeen A)} (h : ∀ m, ObsSeen.request a m ∈ hs → NoObserve m) (l : Int) :
    (tally l hs).filter (fun x => decide (x.1 = a)) = [] := by
  induction hs generalizing l with
  | nil => rfl
  | cons e hs ih =>
    have ih := ih fun m hm => h m (List.mem_cons_of_mem _ hm)
    cases e with
    | loop now => exact ih _
    | request b m =>
      rw [tally, List.filter_append, ih, List.append_nil]
      by_cases hc : asks m = true
      · have hba : b ≠ a := by
          rintro rfl
          have := no_observe_asks (h m List.mem_cons_self)
          rw [this] at hc; cases hc
        simp [hc, hba]
      · simp [hc]

/-- The registrations of `a` after one request with an Observe option. -/
theorem tally_one [DecidableEq A] (a : A) (m : Msg) (pre post : List (ObsSeen A)) (hm : ObserveFirst m)
    (h1 : ∀ m, ObsSeen.request a m ∈ pre → NoObserve m) (h2 : ∀ m, ObsSeen.request a m ∈ post → NoObserve m) :
    (tally 0 (pre ++ .request a m :: post)).filter (fun x => decide (x.1 = a)) = [(a, m.token, turns (lastTurn 0 pre) post)] := by
  have hmap : ∀ (l : List (A × List UInt8 × Nat)) (n : Nat), l.filter (fun x => decide (x.1 = a)) = [] →
      (l.map fun x => (x.1, x.2.1, x.2.2 + n)).filter (fun x => decide (x.1 = a)) = [] := by
    intro l n h
    rw [List.filter_eq_nil_iff] at h ⊢
    intro x hx
    obtain ⟨y, hy, rfl⟩ := List.mem_map.1 hx
    exact h y hy
  rw [tally_append, List.filter_append, hmap _ _ (tally_filter_none a h1 0), List.nil_append, tally, List.filter_append,
    tally_filter_none a h2, List.append_nil, observe_first_asks hm]
  simp

/-- C89: a client that has asked once, whatever others do, gets exactly one notification in every round that is due afterwards, with
its token and the number of rounds since it asked; and its decoder, whatever its memory held, tells it exactly that message. -/
theorem observe_client_partial [DecidableEq A] (C : ObsCfg) (es : List (ObsEv A)) (pre post : List (ObsSeen A)) (a : A) (m : Msg)
    (hm : ObserveFirst m) (h1 : ∀ m, ObsSeen.request a m ∈ pre → NoObserve m) (h2 : ∀ m, ObsSeen.request a m ∈ post → NoObserve m)
    (he : Each SeenAs es (pre ++ .request a m :: post)) (hb : Bounds C (pre ++ .request a m :: post)) :
    ∃ s outs, obsRun C ObsSt.init es = .ok (s, outs) ∧ ∀ (i : Nat) now, post[i]? = some (.loop now) →
      now - lastTurn (lastTurn 0 pre) (post.take i) > 1000 →
      ∃ ms mid v ds, outs[pre.length + 1 + i]? = some ms ∧ mid < 65536 ∧
        beValue v = turns (lastTurn 0 pre) (post.take (i + 1)) ∧ v.head? ≠ some 0 ∧
        IsDecimal ds (turns (lastTurn 0 pre) (post.take (i + 1))) ∧
        ms.filter (fun s => s.addr = a) = [⟨a, encMsg (notification mid m.token v (some (observedWord ++ ds)))⟩] ∧
        ∀ junk : Dec, junk.tbuf.length = 8 → ∃ N d', d'.st = .done ∧ ∀ fuel, N ≤ fuel →
          Dec.processToDone fuel (Dec.fresh junk) ⟨encMsg (notification mid m.token v (some (observedWord ++ ds))), 0, true⟩ =
            .ok (d', ⟨encMsg (notification mid m.token v (some (observedWord ++ ds))),
                (encMsg (notification mid m.token v (some (observedWord ++ ds)))).length, true⟩,
              delivery (notification mid m.token v (some (observedWord ++ ds)))) := by
  obtain ⟨s, outs, q1, -, -, q4⟩ := observe_program_partial C es _ he hb
  refine ⟨s, outs, q1, fun i now hi hd => ?_⟩
  have hget : (pre ++ ObsSeen.request a m :: post)[pre.length + 1 + i]? = some (.loop now) := by
    rw [List.getElem?_append_right (by omega), show pre.length + 1 + i - pre.length = i + 1 by omega, List.getElem?_cons_succ, hi]
  have htake : (pre ++ ObsSeen.request a m :: post).take (pre.length + 1 + i) = pre ++ .request a m :: post.take i := by
    rw [List.take_append, List.take_of_length_le (by omega), show pre.length + 1 + i - pre.length = i + 1 by omega, List.take_succ_cons]
  obtain ⟨ms, p1, -, p3⟩ := q4 _ now hget
  rw [htake] at p3
  have hlt : lastTurn 0 (pre ++ ObsSeen.request a m :: post.take i) = lastTurn (lastTurn 0 pre) (post.take i) := by
    rw [lastTurn_append, lastTurn]
  have p4 := p3 (by rw [hlt]; exact hd) a
  rw [tally_one a m pre _ hm h1 fun m' hm' => h2 m' (List.mem_of_mem_take hm')] at p4
  have hturn : turns (lastTurn 0 pre) (post.take (i + 1)) = turns (lastTurn 0 pre) (post.take i) + 1 := by
    rw [List.take_add_one, hi, turns_append]
    simp [turns, hd]
  cases hf : ms.filter (fun s => decide (s.addr = a)) with
  | nil => rw [hf] at p4; exact p4.elim
  | cons y ys =>
    rw [hf] at p4
    cases ys with
    | cons => exact p4.2.elim
    | nil =>
      obtain ⟨mid, v, ds, r1, r2, r3, r4, r5, r6⟩ := p4.1
      have hya : y.addr = a := by
        have : y ∈ ms.filter (fun s => decide (s.addr = a)) := by rw [hf]; simp
        simpa using (List.mem_filter.1 this).2
      have htok : m.token.length ≤ 8 := seen_tokens he a m (by simp)
      refine ⟨ms, mid, v, ds, p1, r1, by rw [hturn]; exact r2, r3, by rw [hturn]; exact r5, ?_, fun junk hj => ?_⟩
      · rw [hf, ← hya, ← r6]
      · have hok : (notification mid m.token v (some (observedWord ++ ds))).Ok := by
          refine ⟨by simp [notification], by simp [notification], by simp [notification], r1, htok,
            ⟨by simp, by simp, by simp only; omega, trivial⟩, by simp [notification, observedWord]⟩
        obtain ⟨N, d', -, g1, g2⟩ := message_delivered_partial _ hok junk hj (by simp [notification])
        exact ⟨N, d', g1, g2⟩

/-- C89 fails: a second request with an Observe option - one to end the observation (value 1), or the first one sent again - adds to
the first.  In every round that is due afterwards the client gets two notifications: one numbered from the first request on, and after
it one numbered from the second on, which is older by its number if a round was due in between. -/
theorem observe_again_adds [DecidableEq A] (C : ObsCfg) (es : List (ObsEv A)) (pre mid post : List (ObsSeen A)) (a : A) (m1 m2 : Msg)
    (hm1 : ObserveFirst m1) (hm2 : ObserveFirst m2) (h1 : ∀ m, ObsSeen.request a m ∈ pre → NoObserve m)
    (h2 : ∀ m, ObsSeen.request a m ∈ mid → NoObserve m) (h3 : ∀ m, ObsSeen.request a m ∈ post → NoObserve m) (now : Int)
    (he : Each SeenAs es (pre ++ .request a m1 :: (mid ++ .request a m2 :: (post ++ [.loop now]))))
    (hb : Bounds C (pre ++ .request a m1 :: (mid ++ .request a m2 :: (post ++ [.loop now]))))
    (hd : now - lastTurn 0 (pre ++ .request a m1 :: (mid ++ .request a m2 :: post)) > 1000) :
    ∃ s outs ms s1 s2 n, obsRun C ObsSt.init es = .ok (s, outs) ∧ outs.getLast? = some ms ∧ ms.filter (fun s => s.addr = a) = [s1, s2] ∧
      NotificationOf m1.token (n + turns (lastTurn 0 pre) mid) s1.bytes ∧ NotificationOf m2.token n s2.bytes ∧
      n = turns (lastTurn (lastTurn 0 pre) mid) post + 1 := by
  obtain ⟨s, outs, q1, q2, -, q4⟩ := observe_program_partial C es _ he hb
  have hsplit : pre ++ ObsSeen.request a m1 :: (mid ++ .request a m2 :: (post ++ [.loop now])) =
      (pre ++ .request a m1 :: (mid ++ .request a m2 :: post)) ++ [.loop now] := by simp
  rw [hsplit] at q2 q4
  generalize hp : pre ++ ObsSeen.request a m1 :: (mid ++ .request a m2 :: post) = p at q2 q4 hd
  obtain ⟨ms, p1, -, p3⟩ := q4 p.length now (by simp)
  rw [List.take_left] at p3
  have p4 := p3 hd a
  have hmap : ∀ (l : List (A × List UInt8 × Nat)) (n : Nat), (l.map fun x => (x.1, x.2.1, x.2.2 + n)).filter (fun x => decide (x.1 = a)) =
      (l.filter (fun x => decide (x.1 = a))).map fun x => (x.1, x.2.1, x.2.2 + n) := by
    intro l n
    rw [List.filter_map]; rfl
  have ht : (tally 0 p).filter (fun x => decide (x.1 = a)) =
      [(a, m1.token, turns (lastTurn 0 pre) mid + turns (lastTurn (lastTurn 0 pre) mid) post),
       (a, m2.token, turns (lastTurn (lastTurn 0 pre) mid) post)] := by
    rw [← hp, show pre ++ ObsSeen.request a m1 :: (mid ++ .request a m2 :: post) =
      (pre ++ .request a m1 :: mid) ++ .request a m2 :: post by simp, tally_append, List.filter_append, hmap,
      tally_one a m1 pre mid hm1 h1 h2, tally, List.filter_append, tally_filter_none a h3, observe_first_asks hm2, lastTurn_append]
    simp [lastTurn, turns]
  rw [ht] at p4
  have h2l : ∃ s1 s2, ms.filter (fun s => decide (s.addr = a)) = [s1, s2] := by
    have hl := each_length p4
    rw [List.length_cons, List.length_singleton] at hl
    cases hf : ms.filter (fun s => decide (s.addr = a)) with
    | nil => rw [hf] at hl; simp at hl
    | cons s1 l =>
      cases l with
      | nil => rw [hf] at hl; simp at hl
      | cons s2 l =>
        cases l with
        | nil => exact ⟨s1, s2, rfl⟩
        | cons => rw [hf] at hl; simp at hl
  obtain ⟨s1, s2, hf⟩ := h2l
  rw [hf] at p4
  obtain ⟨r1, r2, -⟩ := p4
  refine ⟨s, outs, ms, s1, s2, turns (lastTurn (lastTurn 0 pre) mid) post + 1, q1, ?_, hf, ?_, r2, rfl⟩
  · rw [List.getLast?_eq_getElem?, q2, List.length_append, List.length_singleton, Nat.add_sub_cancel, p1]
  · rw [show turns (lastTurn (lastTurn 0 pre) mid) post + 1 + turns (lastTurn 0 pre) mid =
        turns (lastTurn 0 pre) mid + turns (lastTurn (lastTurn 0 pre) mid) post + 1 by omega]
    exact r1

theorem observeReply_full (m : Msg) (hm : m.Ok) (ho : ObserveFirst m) (ob : List UInt8) (hob : IsOpts 0 m.opts ob) (junk : Dec)
    (hj : junk.tbuf.length = 8) (junkToken : List UInt8) (hjt : junkToken.length = 8) (junkHeader : Header)
    (cap regCap room fuel : Nat) (reg : Registrar A) (addr : A) (hreg : reg.sessions.length = regCap) (hf : m.opts.length < fuel) :
    observeReply cap regCap room fuel junk junkToken junkHeader reg addr (wire m ob) = .error (.obs .full) := by
  obtain ⟨v, o, rest, ho, -, -⟩ := ho
  have e := iterator_shows_partial m hm ob hob junk hj (by simp [ho]) fuel hf
  obtain ⟨x, e1, -, eg, -⟩ := head_written hm [] junkToken hjt (r := reading m (iteratorShows m.payload.isSome m.opts)
        (if iteratorArrives m.payload.isSome m.opts then behindOptions m else .optionsDone)) rfl rfl
  simp only [observeReply, e, e1, eg]
  have hl : ∃ l, iteratorShows m.payload.isSome m.opts = ⟨6, []⟩ :: l := by
    rw [ho]
    cases rest with
    | nil => exact ⟨_, rfl⟩
    | cons => exact ⟨_, rfl⟩
  obtain ⟨l, hl⟩ := hl
  change (match observeLoop cap regCap addr m.token reg [] 0x84
      ((iteratorShows m.payload.isSome m.opts).map fun o => (UInt16.ofNat o.number, o.value)) with
    | .error e => _
    | .ok (reg, uri, code) => _) = _
  rw [hl]
  simp [observeLoop, uint8Of, Registrar.evaluate, Registrar.doRegister, hreg]

/-- C89 fails: when as many requests with an Observe option have come as there are places - ten in the example, and those to end an
observation or sent again count -, the next one writes behind the registrations. -/
theorem observe_program_overflows [DecidableEq A] (C : ObsCfg) (es : List (ObsEv A)) (hs : List (ObsSeen A)) (he : Each SeenAs es hs)
    (hb : Bounds C hs) (hfull : asking hs = C.regCap) (e : ObsEv A) (a : A) (m : Msg) (hm : ObserveFirst m) (he2 : SeenAs e (.request a m)) :
    obsRun C ObsSt.init (es ++ [e]) = .error (.obs .full) := by
  obtain ⟨s, outs, h1, h2, -⟩ := obs_run C es hs [] ObsSt.init ⟨rfl, rfl, Nat.zero_le _⟩ (by simpa using seen_tokens he) he (by simpa using hb)
  have happ : ∀ (es : List (ObsEv A)) (s s' : ObsSt A) outs, obsRun C s es = .ok (s', outs) → obsStep C s' e = .error (.obs .full) →
      obsRun C s (es ++ [e]) = .error (.obs .full) := by
    intro es
    induction es with
    | nil =>
      intro s s' outs h hx
      simp only [obsRun, Except.ok.injEq, Prod.mk.injEq] at h
      rw [← h.1] at hx
      simp only [List.nil_append, obsRun, hx]
    | cons f es ih =>
      intro s s' outs h hx
      simp only [List.cons_append, obsRun] at h ⊢
      cases hf : obsStep C s f with
      | error g => rw [hf] at h; cases h
      | ok r =>
        obtain ⟨s1, ms⟩ := r
        rw [hf] at h
        simp only at h ⊢
        cases hg : obsRun C s1 es with
        | error g => rw [hg] at h; cases h
        | ok r =>
          obtain ⟨s2, o2⟩ := r
          rw [hg] at h
          simp only [Except.ok.injEq, Prod.mk.injEq] at h
          rw [ih s1 s2 o2 hg (by rw [h.1]; exact hx)]
  refine happ es _ s outs h1 ?_
  cases e with
  | loop => exact he2.elim
  | got a' bytes junk jt jh =>
    obtain ⟨rfl, ⟨hmo, ob, hob, hbytes⟩, hj, hst, hjt⟩ := he2
    have hlen : m.opts.length < 11 * bytes.length + 65561 := by
      have := opts_le_bytes hob
      rw [hbytes]; simp only [List.length_append]; omega
    have hb' : bytes = wire m ob := hbytes
    have hs : s.reg.sessions.length = C.regCap := by
      rw [h2.2.1, List.length_map, tally_length, List.nil_append, hfull]
    have := observeReply_full m hmo hm ob hob junk hj jt hjt jh C.uriCap C.regCap C.room (11 * bytes.length + 65561) s.reg a' hs hlen
    rw [hb'] at this ⊢
    simp only [obsStep, this]

/-! ## Cases that meet the hypotheses -/

/-- GET with Observe 0 and path "x", token AA. -/
def observeExample : Msg := ⟨1, 0, 1, 7, [0xAA], [⟨6, []⟩, ⟨11, [120]⟩], none⟩

/-- The same with Observe 1. -/
def observeEndExample : Msg := ⟨1, 0, 1, 8, [0xAA], [⟨6, [1]⟩, ⟨11, [120]⟩], none⟩

example : ObserveFirst observeExample ∧ ObserveFirst observeEndExample :=
  ⟨⟨[], ⟨11, [120]⟩, [], rfl, by decide, by simp⟩, ⟨[1], ⟨11, [120]⟩, [], rfl, by decide, by simp⟩⟩

def observeSeen : List (ObsSeen Nat) := [.request 5 observeExample, .loop 1001, .request 5 observeEndExample, .loop 1500, .loop 2002]

def observeEvents : List (ObsEv Nat) :=
  [.got 5 (encMsg observeExample) Dec.zero (List.replicate 8 0) ⟨0, 0, 0, 0⟩, .loop 1001 [9, 9, 9, 9],
   .got 5 (encMsg observeEndExample) Dec.zero (List.replicate 8 7) ⟨1, 2, 3, 4⟩, .loop 1500 [9, 9, 9, 9], .loop 2002 [9, 9, 9, 9]]

def observeCfg : ObsCfg := ⟨false, 128, 10, 256⟩

theorem observe_example_seen : Each SeenAs observeEvents observeSeen := by
  refine ⟨⟨rfl, ⟨⟨?_, _, isOpts_encOpts 0 _ ?_, rfl⟩, rfl, by decide, rfl⟩⟩, ⟨rfl, by decide⟩,
    ⟨rfl, ⟨⟨?_, _, isOpts_encOpts 0 _ ?_, rfl⟩, rfl, by decide, rfl⟩⟩, ⟨rfl, by decide⟩, ⟨rfl, by decide⟩, trivial⟩
  all_goals simp [Msg.Ok, OptsOk, observeExample, observeEndExample]

theorem observe_example_bounds : Bounds observeCfg observeSeen := by
  refine ⟨by decide, by decide, by decide, by decide, ?_⟩
  intro a m hm
  simp only [observeSeen, List.mem_cons, ObsSeen.request.injEq, reduceCtorEq, List.not_mem_nil, or_false, false_or] at hm
  rcases hm with ⟨-, rfl⟩ | ⟨-, rfl⟩
  · exact ⟨Or.inr ⟨[], ⟨11, [120]⟩, [], rfl, by decide, by simp⟩, by decide⟩
  · exact ⟨Or.inr ⟨[1], ⟨11, [120]⟩, [], rfl, by decide, by simp⟩, by decide⟩

/-- With two places the third request with an Observe option is one too many. -/
example : Bounds { observeCfg with regCap := 2 } observeSeen ∧ asking observeSeen = 2 :=
  ⟨⟨by decide, by decide, by decide, by decide, observe_example_bounds.2.2.2.2⟩, by decide⟩

/-- The client asks, gets "Observed: 1", asks to end, and gets "Observed: 2" and "Observed: 1" in the next round. -/
example : (obsRun observeCfg ObsSt.init observeEvents).toOption.map (·.2.map (·.map (·.bytes))) =
    some [[[0x61, 0x43, 0, 7, 0xAA, 0xFF]],
     [[0x51, 0x45, 0, 0, 0xAA, 0x61, 1, 0xFF, 79, 98, 115, 101, 114, 118, 101, 100, 58, 32, 49]],
     [[0x61, 0x43, 0, 8, 0xAA, 0xFF]], [],
     [[0x51, 0x45, 0, 1, 0xAA, 0x61, 2, 0xFF, 79, 98, 115, 101, 114, 118, 101, 100, 58, 32, 50],
      [0x51, 0x45, 0, 2, 0xAA, 0x61, 1, 0xFF, 79, 98, 115, 101, 114, 118, 101, 100, 58, 32, 49]]] := by
  decide +kernel

end Verif.Props
