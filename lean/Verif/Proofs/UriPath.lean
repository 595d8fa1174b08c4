import Verif.Spec.UriPath

/-! # Lemmas about the matchers and the CoRE listing -/
namespace Verif.Proofs
open Verif.Model.Uri Verif.Spec

theorem seek_some {p : Int} {s : List Char} : ∀ {l : List Entry} {e : Entry} {rest : List Entry},
    seek p s l = e :: rest →
    ∃ pre, l = pre ++ e :: rest ∧ e.seg = s ∧ e.parent = p ∧ ∀ x ∈ pre, ¬(x.seg = s ∧ x.parent = p)
  | [], e, rest, h => by simp [seek] at h
  | x :: l, e, rest, h => by
    by_cases hx : x.seg = s ∧ x.parent = p
    · simp only [seek, hx.1, hx.2, beq_self_eq_true, if_true, List.cons.injEq] at h
      obtain ⟨rfl, rfl⟩ := h
      exact ⟨[], rfl, hx.1, hx.2, by simp⟩
    · have h' : seek p s l = e :: rest := by
        rw [seek] at h
        by_cases hp : x.parent = p
        · have hs : ¬x.seg = s := fun hs => hx ⟨hs, hp⟩
          simpa [hp, hs] using h
        · simpa [hp] using h
      obtain ⟨pre, e1, e2, e3, e4⟩ := seek_some h'
      refine ⟨x :: pre, by rw [e1, List.cons_append], e2, e3, ?_⟩
      intro y hy
      rcases List.mem_cons.mp hy with rfl | hy
      · exact hx
      · exact e4 y hy

theorem seek_none {p : Int} {s : List Char} : ∀ {l : List Entry}, seek p s l = [] →
    ∀ x ∈ l, ¬(x.seg = s ∧ x.parent = p)
  | [], _ => by simp
  | x :: l, h => by
    by_cases hx : x.seg = s ∧ x.parent = p
    · simp [seek, hx.1, hx.2] at h
    · have h' : seek p s l = [] := by
        rw [seek] at h
        by_cases hp : x.parent = p
        · have hs : ¬x.seg = s := fun hs => hx ⟨hs, hp⟩
          simpa [hp, hs] using h
        · simpa [hp] using h
      intro y hy
      rcases List.mem_cons.mp hy with rfl | hy
      · exact hx
      · exact seek_none h' y hy

theorem match_some : ∀ {t : List Entry} {s : List Char} {p : Int} {e : Entry}, match_ t s p = some e → FirstEntry t s p e
  | [], s, p, e, h => by simp [match_] at h
  | x :: t, s, p, e, h => by
    by_cases hx : s = x.seg ∧ x.parent = p
    · simp only [match_, hx.1, hx.2, beq_self_eq_true, Bool.and_self, if_true, Option.some.injEq] at h
      subst h
      exact ⟨[], t, rfl, hx.1.symm, hx.2, by simp⟩
    · have h' : match_ t s p = some e := by
        rw [match_] at h
        rw [if_neg (by simpa using hx)] at h
        exact h
      obtain ⟨pre, post, e1, e2, e3, e4⟩ := match_some h'
      refine ⟨x :: pre, post, by rw [e1, List.cons_append], e2, e3, ?_⟩
      intro y hy
      rcases List.mem_cons.mp hy with rfl | hy
      · exact fun hc => hx ⟨hc.1.symm, hc.2⟩
      · exact e4 y hy

theorem match_none : ∀ {t : List Entry} {s : List Char} {p : Int}, match_ t s p = none → ∀ e, ¬FirstEntry t s p e
  | [], s, p, _ => by
    rintro e ⟨pre, post, h, _⟩
    simp at h
  | x :: t, s, p, h => by
    by_cases hx : s = x.seg ∧ x.parent = p
    · simp [match_, hx.1, hx.2] at h
    · have h' : match_ t s p = none := by
        rw [match_] at h
        rw [if_neg (by simpa using hx)] at h
        exact h
      rintro e ⟨pre, post, e1, e2, e3, e4⟩
      cases pre with
      | nil =>
        simp only [List.nil_append, List.cons.injEq] at e1
        exact hx ⟨by rw [e1.1, e2], by rw [e1.1, e3]⟩
      | cons y pre =>
        simp only [List.cons_append, List.cons.injEq] at e1
        exact match_none h' e ⟨pre, post, e1.2, e2, e3, fun z hz => e4 z (List.mem_cons_of_mem _ hz)⟩

/-- At most one entry is the first. -/
theorem firstEntry_unique : ∀ {t : List Entry} {s : List Char} {p : Int} {a b : Entry},
    FirstEntry t s p a → FirstEntry t s p b → a = b := by
  intro t s p a b
  rintro ⟨pre, post, h1, h2, h3, h4⟩ ⟨pre', post', g1, g2, g3, g4⟩
  induction pre generalizing t pre' with
  | nil =>
    cases pre' with
    | nil => rw [h1] at g1; simpa using (List.cons.inj g1).1
    | cons y pre' =>
      rw [h1] at g1
      have := (List.cons.inj g1).1
      subst this
      exact absurd ⟨h2, h3⟩ (g4 _ List.mem_cons_self)
  | cons x pre ih =>
    cases pre' with
    | nil =>
      rw [h1] at g1
      have := (List.cons.inj g1).1
      subst this
      exact absurd ⟨g2, g3⟩ (h4 _ List.mem_cons_self)
    | cons y pre' =>
      rw [h1] at g1
      have := (List.cons.inj g1).2
      exact ih (t := pre ++ a :: post) rfl (fun z hz => h4 z (List.mem_cons_of_mem _ hz)) pre' this
        (fun z hz => g4 z (List.mem_cons_of_mem _ hz))

theorem baseFind_match (s : List Char) (p : Int) : ∀ t : List Entry,
    (baseFind s p t).1 = match match_ t s p with | some e => e.id | none => -1
  | [] => rfl
  | x :: t => by
    by_cases hx : (s == x.seg && x.parent == p) = true
    · simp only [baseFind, match_, hx, if_true]
    · simp only [baseFind, match_, hx]
      exact baseFind_match s p t

theorem baseFind_seek (s : List Char) (p : Int) : ∀ t : List Entry,
    baseFind s p t = match seek p s t with | e :: r => (e.id, e :: r) | [] => (-1, [])
  | [] => rfl
  | x :: t => by
    by_cases hp : x.parent = p
    · by_cases hs : x.seg = s
      · simp [baseFind, seek, hp, hs]
      · have hs' : ¬s = x.seg := fun h => hs h.symm
        simp only [baseFind, seek, hp, beq_self_eq_true, if_true, Bool.and_true, beq_iff_eq, hs, hs', if_false]
        exact baseFind_seek s p t
    · simp only [baseFind, seek, beq_iff_eq, hp, if_false, Bool.and_eq_true, and_false]
      exact baseFind_seek s p t

/-- Both stateful matchers take the same steps. -/
theorem find2_eq (m : Matcher) (s : List Char) : (m.find2 s).1 = (m.find s).1 := by
  have h : (if m.parent != none_ then m.parent else none_) = m.parent := by
    by_cases hp : m.parent = none_
    · simp [hp]
    · simp [hp]
  simp only [Matcher.find2, Matcher.find, h, baseFind_seek]
  cases seek m.parent s m.current with
  | nil => rfl
  | cons e r => rfl

theorem feed2_eq : ∀ (segs : List (List Char)) (m : Matcher), m.feed2 segs = m.feed segs
  | [], _ => rfl
  | s :: ss, m => by rw [Matcher.feed2, Matcher.feed, find2_eq, feed2_eq ss]

/-- No child of the node reached lies before the cursor. -/
def MInv (t : List Entry) (m : Matcher) : Prop := ∃ pre, t = pre ++ m.current ∧ ∀ x ∈ pre, x.parent ≠ m.parent

theorem minv_init (t : List Entry) : MInv t (Matcher.init t) := ⟨[], rfl, by simp⟩

/-- One search finds the first entry of the whole table. -/
theorem find_first {t : List Entry} {m : Matcher} (hi : MInv t m) {s : List Char} {e : Entry}
    (he : FirstEntry t s m.parent e) : (m.find s).2 = some e ∧ (m.find s).1.parent = e.id := by
  obtain ⟨pre, ht, hpre⟩ := hi
  cases hs : seek m.parent s m.current with
  | nil =>
    exfalso
    obtain ⟨p1, q1, h1, h2, h3, _⟩ := he
    have hm : e ∈ t := by rw [h1]; simp
    rw [ht] at hm
    rcases List.mem_append.mp hm with hm | hm
    · exact hpre e hm h3
    · exact seek_none hs e hm ⟨h2, h3⟩
  | cons a r =>
    obtain ⟨pre', g1, g2, g3, g4⟩ := seek_some hs
    have hf : FirstEntry t s m.parent a := by
      refine ⟨pre ++ pre', r, by rw [ht, g1, List.append_assoc], g2, g3, ?_⟩
      intro x hx
      rcases List.mem_append.mp hx with hx | hx
      · exact fun hc => hpre x hx hc.2
      · exact g4 x hx
    have := firstEntry_unique hf he
    subst this
    simp only [Matcher.find, hs, and_self]

/-- When something is found, it is the first entry, and the invariant goes on to hold. -/
theorem find_some {t : List Entry} (hpf : ParentsFirst t) {m : Matcher} (hi : MInv t m) {s : List Char} {e : Entry}
    (he : (m.find s).2 = some e) : FirstEntry t s m.parent e ∧ (m.find s).1.parent = e.id ∧ MInv t (m.find s).1 := by
  obtain ⟨pre, ht, hpre⟩ := hi
  cases hs : seek m.parent s m.current with
  | nil => simp [Matcher.find, hs] at he
  | cons a r =>
    obtain ⟨pre', g1, g2, g3, g4⟩ := seek_some hs
    simp only [Matcher.find, hs, Option.some.injEq] at he
    subst he
    have hsp : t = (pre ++ pre') ++ a :: r := by rw [ht, g1, List.append_assoc]
    refine ⟨⟨pre ++ pre', r, hsp, g2, g3, ?_⟩, by simp [Matcher.find, hs], ?_⟩
    · intro x hx
      rcases List.mem_append.mp hx with hx | hx
      · exact fun hc => hpre x hx hc.2
      · exact g4 x hx
    · refine ⟨pre ++ pre', by simpa [Matcher.find, hs] using hsp, ?_⟩
      intro x hx
      have := hpf (pre ++ pre') a r hsp x (List.mem_append_left _ hx)
      simpa [Matcher.find, hs] using this

theorem find_none {m : Matcher} {s : List Char} (h : (m.find s).2 = none) : (m.find s).1 = ⟨[], -1⟩ := by
  cases hs : seek m.parent s m.current with
  | nil => simp [Matcher.find, hs, none_]
  | cons a r => simp [Matcher.find, hs] at h

/-- A search that failed is never resumed. -/
theorem feed_dead : ∀ segs : List (List Char), (Matcher.mk [] (-1)).feed segs = ⟨[], -1⟩
  | [] => rfl
  | s :: ss => by
    rw [Matcher.feed]
    have : ((Matcher.mk [] (-1)).find s).1 = ⟨[], -1⟩ := rfl
    rw [this]
    exact feed_dead ss

theorem feed_denotes {t : List Entry} (hpf : ParentsFirst t) : ∀ {segs : List (List Char)} {m : Matcher} {q : Int},
    MInv t m → Denotes t m.parent segs q → (m.feed segs).parent = q ∧ MInv t (m.feed segs)
  | [], m, q, hi, hd => by
    cases hd
    exact ⟨rfl, hi⟩
  | s :: ss, m, q, hi, hd => by
    cases hd with
    | step he hr =>
      obtain ⟨f1, f2⟩ := find_first hi he
      obtain ⟨_, _, f3⟩ := find_some hpf hi f1
      rw [Matcher.feed]
      exact feed_denotes hpf f3 (by rw [f2]; exact hr)

theorem feed_not_denotes {t : List Entry} (hpf : ParentsFirst t) : ∀ {segs : List (List Char)} {m : Matcher},
    MInv t m → (∀ q, ¬Denotes t m.parent segs q) → m.feed segs = ⟨[], -1⟩
  | [], m, hi, hd => absurd (Denotes.here _) (hd m.parent)
  | s :: ss, m, hi, hd => by
    rw [Matcher.feed]
    cases hf : (m.find s).2 with
    | none => rw [find_none hf]; exact feed_dead ss
    | some e =>
      obtain ⟨f1, f2, f3⟩ := find_some hpf hi hf
      exact feed_not_denotes hpf f3 fun q hq => hd q (Denotes.step f1 (by rw [f2] at hq; exact hq))

/-! ## CoRE listing -/

theorem unwind_append {p : Int} : ∀ {d s : List Entry}, (∀ x ∈ d, x.id ≠ p) → unwind p (d ++ s) = unwind p s
  | [], _, _ => rfl
  | x :: d, s, h => by
    have hx : x.id ≠ p := h x List.mem_cons_self
    rw [List.cons_append, unwind, if_pos (by simpa using hx)]
    exact unwind_append fun y hy => h y (List.mem_cons_of_mem _ hy)

/-- The node ids of a table. -/
def ids (t : List Entry) : List Int := t.map Entry.id

theorem print_link (path : List (List Char)) (d : CoREData) :
    ['<'] ++ (path.map fun s => '/' :: s).flatten ++ ['>'] ++ d.print = link path d.rt d.ifd := by
  unfold CoREData.print link
  by_cases h1 : d.rt = [] <;> by_cases h2 : d.ifd = [] <;> simp [h1, h2]

theorem listing_cons {cd : List CoREData} {s d : List Entry} {e : Entry} {rest : List Entry}
    (hs : unwind e.parent s = s) (hd : ∀ x ∈ d, x.id ≠ e.parent) (hroom : s.length < 10) :
    listing cd (d ++ s) (e :: rest) =
      (listing cd (e :: s) rest).map (coreLine cd (e.id, s.reverse.map Entry.seg ++ [e.seg]) :: ·) := by
  have hp : parentHandler (d ++ s) e = some (e :: s) := by
    simp only [parentHandler, unwind_append hd, hs, hroom, if_true]
  rw [listing, evaluate, hp]
  simp only [coreLine]
  cases hf : cd.find? fun v => v.node == e.id with
  | none => rfl
  | some v =>
    simp only
    rw [← print_link, List.map_append, List.map_map]
    simp only [List.reverse_cons, List.map_append]
    rfl

mutual
theorem tree_listing (cd : List CoREData) : ∀ (t : Tree) (p : Int) (s d : List Entry),
    unwind p s = s → (∀ x ∈ d, x.id ≠ p) → (p :: ids (t.table p)).Nodup → s.length + t.depth ≤ 10 →
    ∃ d', (∀ x ∈ d', x.id ∈ ids (t.table p)) ∧ ∀ rest, listing cd (d ++ s) (t.table p ++ rest) =
      (listing cd (d' ++ s) rest).map ((t.paths (s.reverse.map Entry.seg)).map (coreLine cd) ++ ·)
  | .node seg id children, p, s, d, hs, hd, hn, hlen => by
    simp only [Tree.table, Tree.depth, Tree.paths, ids, List.map_cons] at hn hlen ⊢
    have hn' : (id :: ids (forestTable id children)).Nodup := (List.nodup_cons.mp hn).2
    obtain ⟨d', h1, h2⟩ := forest_listing cd children id (⟨seg, id, p⟩ :: s) []
      (by simp [unwind]) (by simp) hn' (by simp only [List.length_cons]; omega)
    refine ⟨d' ++ [⟨seg, id, p⟩], ?_, ?_⟩
    · intro x hx
      rcases List.mem_append.mp hx with hx | hx
      · exact List.mem_cons_of_mem _ (h1 x hx)
      · rw [List.mem_singleton] at hx; subst hx; exact List.mem_cons_self
    · intro rest
      rw [List.cons_append, listing_cons (e := ⟨seg, id, p⟩) hs hd (by omega)]
      have := h2 rest
      rw [List.nil_append] at this
      rw [this, Option.map_map]
      simp only [List.append_assoc, List.cons_append, List.nil_append, List.reverse_cons, List.map_append, List.map_cons,
        List.map_nil]
      rfl
theorem forest_listing (cd : List CoREData) : ∀ (ts : List Tree) (p : Int) (s d : List Entry),
    unwind p s = s → (∀ x ∈ d, x.id ≠ p) → (p :: ids (forestTable p ts)).Nodup → s.length + forestDepth ts ≤ 10 →
    ∃ d', (∀ x ∈ d', x.id ∈ ids d ++ ids (forestTable p ts)) ∧ ∀ rest, listing cd (d ++ s) (forestTable p ts ++ rest) =
      (listing cd (d' ++ s) rest).map ((forestPaths (s.reverse.map Entry.seg) ts).map (coreLine cd) ++ ·)
  | [], p, s, d, hs, hd, hn, hlen => by
    refine ⟨d, ?_, ?_⟩
    · intro x hx
      exact List.mem_append_left _ (List.mem_map.mpr ⟨x, hx, rfl⟩)
    · intro rest
      simp only [forestTable, forestPaths, List.nil_append, List.map_nil]
      cases listing cd (d ++ s) rest <;> rfl
  | t :: ts, p, s, d, hs, hd, hn, hlen => by
    simp only [forestTable, forestDepth, forestPaths, ids, List.map_append] at hn hlen ⊢
    have hn1 : (p :: ids (t.table p)).Nodup := by
      have := List.nodup_cons.mp hn
      refine List.nodup_cons.mpr ⟨fun h => this.1 (List.mem_append_left _ h), ?_⟩
      exact (List.nodup_append.mp this.2).1
    have hn2 : (p :: ids (forestTable p ts)).Nodup := by
      have := List.nodup_cons.mp hn
      refine List.nodup_cons.mpr ⟨fun h => this.1 (List.mem_append_right _ h), ?_⟩
      exact (List.nodup_append.mp this.2).2.1
    obtain ⟨d1, a1, a2⟩ := tree_listing cd t p s d hs hd hn1 (by omega)
    obtain ⟨d2, b1, b2⟩ := forest_listing cd ts p s d1 hs
      (fun x hx h => (List.nodup_cons.mp hn1).1 (h ▸ a1 x hx)) hn2 (by omega)
    refine ⟨d2, ?_, ?_⟩
    · intro x hx
      rcases List.mem_append.mp (b1 x hx) with h | h
      · obtain ⟨y, hy, hyx⟩ := List.mem_map.mp h
        have := a1 y hy
        rw [hyx] at this
        exact List.mem_append_right _ (List.mem_append_left _ this)
      · exact List.mem_append_right _ (List.mem_append_right _ h)
    · intro rest
      rw [List.append_assoc, a2, b2, Option.map_map]
      simp only [List.append_assoc]
      rfl
end

end Verif.Proofs
