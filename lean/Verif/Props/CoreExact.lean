import Verif.Props.Core

/-!
# C62: exactly which listings can be read back

A client reads the resources from the listing if and only if no target contains `>` and no value contains a quote or a
backslash; whatever is wrong with one of them, no other part of the text can make up for it.
-/
namespace Verif.Props
open Verif.Model.Uri Verif.Spec Verif.Proofs

/-- What the reader answers when the text ends here. -/
def linkEnd : List Link × LinkState → Option (List Link)
  | (done, .params l) => some (done ++ [l])
  | (done, .name l n) => some (done ++ [l.with_ n []])
  | (done, .token l n v) => some (done ++ [l.with_ n v])
  | _ => none

theorem readLinks_linkEnd (text : List Char) (h : text ≠ []) :
    readLinks text = (linkRun ([], .start) text).bind linkEnd := by
  rw [readLinks, if_neg h]
  cases linkRun ([], .start) text with
  | none => rfl
  | some s =>
    obtain ⟨d, st⟩ := s
    cases st <;> rfl

/-- What is read already stays: the links before, the target, the attributes, the beginning of a value. -/
def LinkSeen : List Link × LinkState → List Link → Prop
  | (done, .start), R => done <+: R
  | (done, .target u), R => ∃ l, done ++ [l] <+: R ∧ u <+: l.target
  | (done, .params l), R => ∃ l', done ++ [l'] <+: R ∧ l'.target = l.target ∧ l.attrs <+: l'.attrs
  | (done, .name l n), R => ∃ l' n' v', done ++ [l'] <+: R ∧ l'.target = l.target ∧ l.attrs ++ [(n', v')] <+: l'.attrs ∧ n <+: n'
  | (done, .value l n), R => ∃ l' v', done ++ [l'] <+: R ∧ l'.target = l.target ∧ l.attrs ++ [(n, v')] <+: l'.attrs
  | (done, .quoted l n v), R => ∃ l' v', done ++ [l'] <+: R ∧ l'.target = l.target ∧ l.attrs ++ [(n, v')] <+: l'.attrs ∧ v <+: v'
  | (done, .escaped l n v), R => ∃ l' v', done ++ [l'] <+: R ∧ l'.target = l.target ∧ l.attrs ++ [(n, v')] <+: l'.attrs ∧ v <+: v'
  | (done, .token l n v), R => ∃ l' v', done ++ [l'] <+: R ∧ l'.target = l.target ∧ l.attrs ++ [(n, v')] <+: l'.attrs ∧ v <+: v'

theorem linkNext_seen {done : List Link} {l : Link} {c : Char} {s' : List Link × LinkState} {R : List Link}
    (h : linkNext done l c = some s') (hs : LinkSeen s' R) :
    ∃ l', done ++ [l'] <+: R ∧ l'.target = l.target ∧ l.attrs <+: l'.attrs := by
  unfold linkNext at h
  split at h
  · cases h
    obtain ⟨l', n', v', h1, h2, h3, -⟩ := hs
    exact ⟨l', h1, h2, (List.prefix_append _ _).trans h3⟩
  · split at h
    · cases h
      exact ⟨l, hs, rfl, List.prefix_refl _⟩
    · cases h

theorem linkStep_seen {s s' : List Link × LinkState} {c : Char} {R : List Link} (h : linkStep s c = some s') (hs : LinkSeen s' R) :
    LinkSeen s R := by
  obtain ⟨done, st⟩ := s
  cases st with
  | start =>
    simp only [linkStep] at h
    split at h
    · cases h
      obtain ⟨l, h1, -⟩ := hs
      exact (List.prefix_append _ _).trans h1
    · cases h
  | target u =>
    simp only [linkStep] at h
    split at h <;> cases h
    · obtain ⟨l', h1, h2, -⟩ := hs
      exact ⟨l', h1, by rw [h2]; exact List.prefix_refl _⟩
    · obtain ⟨l', h1, h2⟩ := hs
      exact ⟨l', h1, (List.prefix_append _ _).trans h2⟩
  | params l => exact linkNext_seen h hs
  | name l n =>
    simp only [linkStep] at h
    split at h
    · cases h
      obtain ⟨l', v', h1, h2, h3⟩ := hs
      exact ⟨l', n, v', h1, h2, h3, List.prefix_refl _⟩
    · split at h
      · obtain ⟨l', h1, h2, h3⟩ := linkNext_seen h hs
        exact ⟨l', n, [], h1, h2, h3, List.prefix_refl _⟩
      · cases h
        obtain ⟨l', n', v', h1, h2, h3, h4⟩ := hs
        exact ⟨l', n', v', h1, h2, h3, (List.prefix_append _ _).trans h4⟩
  | value l n =>
    simp only [linkStep] at h
    split at h
    · cases h
      obtain ⟨l', v', h1, h2, h3, -⟩ := hs
      exact ⟨l', v', h1, h2, h3⟩
    · split at h
      · cases h
      · cases h
        obtain ⟨l', v', h1, h2, h3, -⟩ := hs
        exact ⟨l', v', h1, h2, h3⟩
  | quoted l n v =>
    simp only [linkStep] at h
    split at h
    · cases h
      obtain ⟨l', h1, h2, h3⟩ := hs
      exact ⟨l', v, h1, h2, h3, List.prefix_refl _⟩
    · split at h <;> cases h
      · exact hs
      · obtain ⟨l', v', h1, h2, h3, h4⟩ := hs
        exact ⟨l', v', h1, h2, h3, (List.prefix_append _ _).trans h4⟩
  | escaped l n v =>
    simp only [linkStep] at h
    cases h
    obtain ⟨l', v', h1, h2, h3, h4⟩ := hs
    exact ⟨l', v', h1, h2, h3, (List.prefix_append _ _).trans h4⟩
  | token l n v =>
    simp only [linkStep] at h
    split at h
    · obtain ⟨l', h1, h2, h3⟩ := linkNext_seen h hs
      exact ⟨l', v, h1, h2, h3, List.prefix_refl _⟩
    · cases h
      obtain ⟨l', v', h1, h2, h3, h4⟩ := hs
      exact ⟨l', v', h1, h2, h3, (List.prefix_append _ _).trans h4⟩

/-- From here the text leads to these links. -/
def LinkLeads (s : List Link × LinkState) (text : List Char) (R : List Link) : Prop := (linkRun s text).bind linkEnd = some R

theorem linkEnd_seen {s : List Link × LinkState} {R : List Link} (h : linkEnd s = some R) : LinkSeen s R := by
  obtain ⟨done, st⟩ := s
  cases st <;> simp only [linkEnd, reduceCtorEq] at h <;> cases h
  · exact ⟨_, List.prefix_refl _, rfl, List.prefix_refl _⟩
  · exact ⟨_, _, [], List.prefix_refl _, rfl, List.prefix_refl _, List.prefix_refl _⟩
  · exact ⟨_, _, List.prefix_refl _, rfl, List.prefix_refl _, List.prefix_refl _⟩

theorem linkLeads_seen {R : List Link} : ∀ {text : List Char} {s : List Link × LinkState}, LinkLeads s text R → LinkSeen s R
  | [], s, h => linkEnd_seen h
  | c :: text, s, h => by
    simp only [LinkLeads, linkRun] at h
    cases hs : linkStep s c with
    | none => rw [hs] at h; cases h
    | some s' =>
      rw [hs] at h
      exact linkStep_seen hs (linkLeads_seen (text := text) h)

theorem linkLeads_append {a b : List Char} {s s' : List Link × LinkState} {R : List Link} (h : linkRun s a = some s') :
    LinkLeads s (a ++ b) R ↔ LinkLeads s' b R := by
  rw [LinkLeads, LinkLeads, linkRun_append, h, Option.bind_some]

theorem linkLeads_step {c : Char} {b : List Char} {s s' : List Link × LinkState} {R : List Link} (h : LinkLeads s (c :: b) R)
    (hs : linkStep s c = some s') : LinkLeads s' b R := by
  rw [LinkLeads, linkRun, hs] at h
  exact h

theorem prefix_getElem? {α : Type} {a : List α} {x : α} {R : List α} (h : a ++ [x] <+: R) : R[a.length]? = some x := by
  obtain ⟨t, rfl⟩ := h
  simp

/-- Behind an odd number of backslashes: the value read cannot be the one printed. -/
theorem backslash_value (done : List Link) (l l' : Link) (n x : List Char) (R : List Link) (rest : List Char) (hR : R[done.length]? = some l') :
    ∀ (m k : Nat) (q : List Char), q.length ≤ m →
      l'.attrs[l.attrs.length]? = some (n, x ++ (List.replicate (2 * k + 1) '\\' ++ q)) →
      ¬ LinkLeads (done, .escaped l n (x ++ List.replicate k '\\')) (q ++ '"' :: rest) R := by
  have seen : ∀ {w z text : List Char}, l'.attrs[l.attrs.length]? = some (n, z) → LinkLeads (done, .quoted l n w) text R → w <+: z := by
    intro w z text hz h
    obtain ⟨l2, v', h1, -, h3, h4⟩ := linkLeads_seen h
    have := prefix_getElem? h1
    rw [hR] at this
    cases this
    have := prefix_getElem? h3
    rw [hz] at this
    cases this
    exact h4
  have seenEnd : ∀ {w z text : List Char}, l'.attrs[l.attrs.length]? = some (n, z) →
      LinkLeads (done, .params (l.with_ n w)) text R → z = w := by
    intro w z text hz h
    obtain ⟨l2, h1, -, h3⟩ := linkLeads_seen h
    have := prefix_getElem? h1
    rw [hR] at this
    cases this
    have := prefix_getElem? h3
    rw [hz] at this
    cases this
    rfl
  intro m
  induction m with
  | zero =>
    intro k q hq hz h
    have : q = [] := List.length_eq_zero_iff.mp (by omega)
    subst this
    have h := linkLeads_step (b := rest) (s' := (done, .quoted l n (x ++ List.replicate k '\\' ++ ['"']))) h rfl
    have hp := seen hz h
    rw [List.append_assoc, List.prefix_append_right_inj] at hp
    have := hp.subset (show '"' ∈ _ by simp)
    simp at this
  | succ m ih =>
    intro k q hq hz h
    cases q with
    | nil =>
      have h := linkLeads_step (b := rest) (s' := (done, .quoted l n (x ++ List.replicate k '\\' ++ ['"']))) h rfl
      have hp := seen hz h
      rw [List.append_assoc, List.prefix_append_right_inj] at hp
      have := hp.subset (show '"' ∈ _ by simp)
      simp at this
    | cons c q =>
      have h := linkLeads_step (b := q ++ '"' :: rest) (s' := (done, .quoted l n (x ++ List.replicate k '\\' ++ [c]))) h rfl
      have hp := seen hz h
      rw [List.append_assoc, List.prefix_append_right_inj] at hp
      have hc : c = '\\' := by
        have h1 := prefix_getElem? hp
        rw [List.getElem?_append_left (by simp; omega)] at h1
        simp only [List.length_replicate] at h1
        rw [List.getElem?_replicate, if_pos (by omega)] at h1
        exact (Option.some.inj h1).symm
      subst hc
      have e1 : x ++ List.replicate k '\\' ++ ['\\'] = x ++ List.replicate (k + 1) '\\' := by
        rw [List.append_assoc, List.replicate_succ']
      have e2 : x ++ (List.replicate (2 * k + 1) '\\' ++ '\\' :: q) = x ++ (List.replicate (2 * k + 2) '\\' ++ q) := by
        rw [List.replicate_succ' (n := 2 * k + 1)]; simp
      rw [e1] at h
      rw [e2] at hz
      have quote : ∀ t, ¬ LinkLeads (done, .quoted l n (x ++ List.replicate (k + 1) '\\')) ('"' :: t) R := by
        intro t h
        have h := linkLeads_step (b := t) (s' := (done, .params (l.with_ n (x ++ List.replicate (k + 1) '\\')))) h rfl
        have := congrArg List.length (seenEnd hz h)
        simp at this
        omega
      cases q with
      | nil => exact quote _ (by simpa using h)
      | cons c q =>
        by_cases hq1 : c = '"'
        · subst hq1; exact quote _ (by simpa using h)
        · by_cases hq2 : c = '\\'
          · subst hq2
            have h := linkLeads_step (b := q ++ '"' :: rest) (s' := (done, .escaped l n (x ++ List.replicate (k + 1) '\\'))) h rfl
            refine ih (k + 1) q (by simp at hq; omega) ?_ h
            rw [hz]
            congr 3
            rw [show 2 * (k + 1) + 1 = (2 * k + 2) + 1 from by omega, List.replicate_succ' (n := 2 * k + 2)]
            simp
          · have h := linkLeads_step (b := q ++ '"' :: rest) (s' := (done, .quoted l n (x ++ List.replicate (k + 1) '\\' ++ [c]))) h (by simp only [linkStep, hq1, hq2, if_false])
            have hp := seen hz h
            rw [List.append_assoc, List.prefix_append_right_inj] at hp
            have h1 := prefix_getElem? hp
            rw [List.getElem?_append_left (by simp; omega)] at h1
            simp only [List.length_replicate] at h1
            rw [List.getElem?_replicate, if_pos (by omega)] at h1
            exact hq2 (Option.some.inj h1).symm

/-- The longest beginning without special characters. -/
theorem plain_split (v : List Char) : Plain v ∨ ∃ p c q, v = p ++ c :: q ∧ Plain p ∧ (c = '"' ∨ c = '\\') := by
  induction v with
  | nil => exact .inl ⟨by simp, by simp⟩
  | cons a v ih =>
    by_cases h1 : a = '"'
    · exact .inr ⟨[], a, v, rfl, ⟨by simp, by simp⟩, .inl h1⟩
    · by_cases h2 : a = '\\'
      · exact .inr ⟨[], a, v, rfl, ⟨by simp, by simp⟩, .inr h2⟩
      · rcases ih with ⟨h3, h4⟩ | ⟨p, c, q, rfl, ⟨h3, h4⟩, h5⟩
        · exact .inl ⟨by simp [Ne.symm h1, h3], by simp [Ne.symm h2, h4]⟩
        · exact .inr ⟨a :: p, c, q, rfl, ⟨by simp [Ne.symm h1, h3], by simp [Ne.symm h2, h4]⟩, h5⟩

/-- A value that is read as printed has no special character. -/
theorem read_value_plain (done : List Link) (l l' : Link) (n v rest : List Char) (R : List Link) (hR : R[done.length]? = some l')
    (hv : l'.attrs[l.attrs.length]? = some (n, v)) (h : LinkLeads (done, .quoted l n []) (v ++ '"' :: rest) R) : Plain v := by
  rcases plain_split v with h1 | ⟨p, c, q, rfl, hp, hc⟩
  · exact h1
  · exfalso
    have h := (linkLeads_append (b := c :: q ++ '"' :: rest) (linkRun_quoted done l n p [] hp)).mp (by simpa using h)
    rw [List.nil_append] at h
    rcases hc with rfl | rfl
    · have h := linkLeads_step (b := q ++ '"' :: rest) (s' := (done, .params (l.with_ n p))) h rfl
      obtain ⟨l2, h1, -, h3⟩ := linkLeads_seen h
      have h1 := prefix_getElem? h1
      rw [hR] at h1
      cases h1
      have h3 := prefix_getElem? h3
      rw [hv] at h3
      simp at h3
    · have h := linkLeads_step (b := q ++ '"' :: rest) (s' := (done, .escaped l n p)) h rfl
      refine backslash_value done l l' n p R rest hR q.length 0 q (Nat.le_refl _) ?_ (by simpa using h)
      simpa using hv

/-- An attribute as it is printed. -/
def attrText (a : List Char × List Char) : List Char := [';'] ++ a.1 ++ ['=', '"'] ++ a.2 ++ ['"']

/-- A link as it is printed. -/
def linkText (l : Link) : List Char := ['<'] ++ l.target ++ ['>'] ++ (l.attrs.map attrText).flatten

/-- Nothing in the link has a special meaning. -/
def CleanLink (l : Link) : Prop := '>' ∉ l.target ∧ ∀ a ∈ l.attrs, Plain a.2

theorem attrs_clean (done : List Link) (l' : Link) (R : List Link) (hR : R[done.length]? = some l') (tail : List Char) :
    ∀ (as before : List (List Char × List Char)), l'.attrs = before ++ as → (∀ a ∈ as, ∀ c ∈ a.1, c ≠ '=' ∧ c ≠ ';' ∧ c ≠ ',') →
      LinkLeads (done, .params ⟨l'.target, before⟩) ((as.map attrText).flatten ++ tail) R → ∀ a ∈ as, Plain a.2
  | [], _, _, _, _ => by simp
  | a :: as, before, hl, hn, h => by
    have hna := hn a List.mem_cons_self
    have e0 : linkRun (done, .params ⟨l'.target, before⟩) ([';'] ++ a.1 ++ ['=', '"']) =
        some (done, .quoted ⟨l'.target, before⟩ a.1 []) := by
      have e1 : linkRun (done, .params ⟨l'.target, before⟩) [';'] = some (done, .name ⟨l'.target, before⟩ []) := by
        simp [linkRun, linkStep, linkNext]
      rw [linkRun_append, linkRun_append, e1, Option.bind_some, linkRun_name _ _ _ _ hna]
      simp [linkRun, linkStep]
    have h2 := (linkLeads_append (b := a.2 ++ '"' :: ((as.map attrText).flatten ++ tail)) e0).mp (by simpa [attrText] using h)
    have hp : Plain a.2 := read_value_plain done ⟨l'.target, before⟩ l' a.1 a.2 _ R hR (by simp [hl]) h2
    intro b hb
    rcases List.mem_cons.mp hb with rfl | hb
    · exact hp
    · have e2 := linkRun_any_attr done ⟨l'.target, before⟩ a.1 a.2 hna hp
      have h3 := (linkLeads_append (b := (as.map attrText).flatten ++ tail) e2).mp (by simpa [attrText] using h)
      exact attrs_clean done l' R hR tail as (before ++ [a]) (by simp [hl]) (fun x hx => hn x (List.mem_cons_of_mem _ hx)) h3 b hb

/-- A link that is read as printed is clean. -/
theorem read_link_clean (done : List Link) (l : Link) (R : List Link) (tail : List Char) (hR : R[done.length]? = some l)
    (hn : ∀ a ∈ l.attrs, ∀ c ∈ a.1, c ≠ '=' ∧ c ≠ ';' ∧ c ≠ ',')
    (h : LinkLeads (done, .start) (linkText l ++ tail) R) : CleanLink l := by
  have e0 : linkRun (done, .start) ['<'] = some (done, .target []) := by simp [linkRun, linkStep]
  have h := (linkLeads_append (b := l.target ++ '>' :: ((l.attrs.map attrText).flatten ++ tail)) e0).mp (by simpa [linkText] using h)
  have ht : '>' ∉ l.target := by
    intro hm
    obtain ⟨p, q, hpq, hp⟩ := List.eq_append_cons_of_mem hm
    have h1 := (linkLeads_append (b := '>' :: q ++ '>' :: ((l.attrs.map attrText).flatten ++ tail)) (linkRun_target done p [] hp)).mp
      (by rw [hpq] at h; simpa using h)
    have h2 := linkLeads_step (b := q ++ '>' :: ((l.attrs.map attrText).flatten ++ tail)) (s' := (done, .params ⟨p, []⟩)) h1 rfl
    obtain ⟨l2, h3, h4, -⟩ := linkLeads_seen h2
    have h3 := prefix_getElem? h3
    rw [hR] at h3
    cases h3
    have := congrArg List.length (hpq.symm.trans h4)
    simp at this
  refine ⟨ht, ?_⟩
  have h1 := (linkLeads_append (b := '>' :: ((l.attrs.map attrText).flatten ++ tail)) (linkRun_target done l.target [] ht)).mp h
  have h2 := linkLeads_step (b := (l.attrs.map attrText).flatten ++ tail) (s' := (done, .params ⟨l.target, []⟩)) h1 rfl
  exact attrs_clean done l R hR tail l.attrs [] rfl hn h2

theorem clean_attrs_read (done : List Link) (tgt : List Char) :
    ∀ (as before : List (List Char × List Char)), (∀ a ∈ as, ∀ c ∈ a.1, c ≠ '=' ∧ c ≠ ';' ∧ c ≠ ',') → (∀ a ∈ as, Plain a.2) →
      linkRun (done, .params ⟨tgt, before⟩) (as.map attrText).flatten = some (done, .params ⟨tgt, before ++ as⟩)
  | [], before, _, _ => by simp [linkRun]
  | a :: as, before, hn, hp => by
    have e2 := linkRun_any_attr done ⟨tgt, before⟩ a.1 a.2 (hn a List.mem_cons_self) (hp a List.mem_cons_self)
    rw [List.map_cons, List.flatten_cons, linkRun_append, attrText, e2, Option.bind_some]
    have := clean_attrs_read done tgt as (before ++ [a]) (fun x hx => hn x (List.mem_cons_of_mem _ hx))
      (fun x hx => hp x (List.mem_cons_of_mem _ hx))
    simpa [Link.with_] using this

theorem clean_link_read (done : List Link) (l : Link) (hn : ∀ a ∈ l.attrs, ∀ c ∈ a.1, c ≠ '=' ∧ c ≠ ';' ∧ c ≠ ',') (hc : CleanLink l) :
    linkRun (done, .start) (linkText l) = some (done, .params l) := by
  have e0 : linkRun (done, .start) ['<'] = some (done, .target []) := by simp [linkRun, linkStep]
  have e1 : linkRun (done, .target l.target) ['>'] = some (done, .params ⟨l.target, []⟩) := by simp [linkRun, linkStep]
  rw [linkText, linkRun_append, linkRun_append, linkRun_append, e0, Option.bind_some, linkRun_target _ _ _ hc.1, Option.bind_some,
    List.nil_append, e1, Option.bind_some, clean_attrs_read done l.target l.attrs [] hn hc.2]
  rfl

/-- Links with commas behind them. -/
def linesText (ls : List Link) : List Char := (ls.map fun l => linkText l ++ [',']).flatten

theorem clean_lines_read : ∀ (ls done : List Link), (∀ l ∈ ls, ∀ a ∈ l.attrs, ∀ c ∈ a.1, c ≠ '=' ∧ c ≠ ';' ∧ c ≠ ',') →
    (∀ l ∈ ls, CleanLink l) → linkRun (done, .start) (linesText ls) = some (done ++ ls, .start)
  | [], done, _, _ => by simp [linesText, linkRun]
  | l :: ls, done, hn, hc => by
    have e := clean_link_read done l (hn l List.mem_cons_self) (hc l List.mem_cons_self)
    have e1 : linkRun (done, .params l) [','] = some (done ++ [l], .start) := by simp [linkRun, linkStep, linkNext]
    have := clean_lines_read ls (done ++ [l]) (fun x hx => hn x (List.mem_cons_of_mem _ hx)) (fun x hx => hc x (List.mem_cons_of_mem _ hx))
    rw [linesText, List.map_cons, List.flatten_cons, linkRun_append, linkRun_append, e, Option.bind_some, e1, Option.bind_some]
    rw [linesText] at this
    rw [this]
    simp

theorem unclean_lines : ∀ (ls done : List Link) (tail : List Char) (R : List Link),
    (∀ l ∈ ls, ∀ a ∈ l.attrs, ∀ c ∈ a.1, c ≠ '=' ∧ c ≠ ';' ∧ c ≠ ',') → done ++ ls <+: R →
    LinkLeads (done, .start) (linesText ls ++ tail) R → ∀ l ∈ ls, CleanLink l
  | [], _, _, _, _, _, _ => by simp
  | l :: ls, done, tail, R, hn, hR, h => by
    have hR1 : R[done.length]? = some l := by
      obtain ⟨t, rfl⟩ := hR
      simp
    have hc : CleanLink l := read_link_clean done l R (',' :: (linesText ls ++ tail)) hR1 (hn l List.mem_cons_self)
      (by simpa [linesText] using h)
    have e := clean_lines_read [l] done (by simpa using hn l List.mem_cons_self) (by simpa using hc)
    have h2 := (linkLeads_append (b := linesText ls ++ tail) e).mp (by simpa [linesText] using h)
    intro x hx
    rcases List.mem_cons.mp hx with rfl | hx
    · exact hc
    · exact unclean_lines ls (done ++ [l]) tail R (fun y hy => hn y (List.mem_cons_of_mem _ hy)) (by simpa using hR) h2 x hx

/-- Links printed with commas between them are read back exactly if they are clean. -/
theorem links_read_iff (ls : List Link) (l : Link) (hn : ∀ k ∈ ls ++ [l], ∀ a ∈ k.attrs, ∀ c ∈ a.1, c ≠ '=' ∧ c ≠ ';' ∧ c ≠ ',') :
    readLinks (linesText ls ++ linkText l) = some (ls ++ [l]) ↔ ∀ k ∈ ls ++ [l], CleanLink k := by
  have hne : linesText ls ++ linkText l ≠ [] := by simp [linkText]
  rw [readLinks_linkEnd _ hne]
  have hn1 : ∀ k ∈ ls, ∀ a ∈ k.attrs, ∀ c ∈ a.1, c ≠ '=' ∧ c ≠ ';' ∧ c ≠ ',' := fun k hk => hn k (by simp [hk])
  have hn2 : ∀ a ∈ l.attrs, ∀ c ∈ a.1, c ≠ '=' ∧ c ≠ ';' ∧ c ≠ ',' := hn l (by simp)
  constructor
  · intro h
    have h1 := unclean_lines ls [] (linkText l) (ls ++ [l]) hn1 (by simp) h
    have h2 := (linkLeads_append (b := linkText l) (clean_lines_read ls [] hn1 h1)).mp h
    have h3 := read_link_clean ([] ++ ls) l (ls ++ [l]) [] (by simp) hn2 (by simpa using h2)
    intro k hk
    rcases List.mem_append.mp hk with hk | hk
    · exact h1 k hk
    · rw [List.mem_singleton.mp hk]; exact h3
  · intro h
    rw [linkRun_append, clean_lines_read ls [] hn1 (fun k hk => h k (by simp [hk])), Option.bind_some,
      clean_link_read _ l hn2 (h l (by simp))]
    simp [linkEnd]

theorem coreLink_text {cd : List CoREData} {title : Int → Option (List Char)} {np : Int × List (List Char)} {l : Link}
    (h : coreLink cd title np = some l) : discoverLine cd title np = linkText l ++ [','] ∧
      ∀ a ∈ l.attrs, ∀ c ∈ a.1, c ≠ '=' ∧ c ≠ ';' ∧ c ≠ ',' := by
  have hne : coreLine cd np ≠ [] := fun h' => by rw [coreLine_none (title := title), h] at h'; cases h'
  rw [discoverLine, if_neg hne]
  cases hd : cd.find? fun v => v.node == np.1 with
  | none => rw [coreLink, hd] at h; cases h
  | some d =>
    rw [coreLink, hd] at h
    cases h
    constructor
    · have r1 : ∀ v : List Char, ";rt=\"".toList ++ v ++ ['"'] = attrText ("rt".toList, v) := fun v => rfl
      have r2 : ∀ v : List Char, ";if=\"".toList ++ v ++ ['"'] = attrText ("if".toList, v) := fun v => rfl
      have r3 : ∀ v : List Char, titleText v = attrText ("title".toList, v) := fun v => rfl
      simp only [coreLine, hd, link, linkText, r1, r2, r3, List.map_append, List.flatten_append]
      generalize (np.2.map fun s => '/' :: s).flatten = tgt
      by_cases h1 : d.rt = [] <;> by_cases h2 : d.ifd = [] <;> cases title np.1 <;>
        simp only [h1, h2, if_true, if_false, List.map_nil, List.map_cons, List.flatten_nil, List.flatten_cons, List.append_nil,
          List.append_assoc, List.nil_append]
    · intro a ha
      simp only [List.mem_append] at ha
      rcases ha with (ha | ha) | ha
      · split at ha
        · cases ha
        · rw [List.mem_singleton.mp ha]; show ∀ c ∈ "rt".toList, _; decide
      · split at ha
        · cases ha
        · rw [List.mem_singleton.mp ha]; show ∀ c ∈ "if".toList, _; decide
      · split at ha
        · cases ha
        · rw [List.mem_singleton.mp ha]; show ∀ c ∈ "title".toList, _; decide

theorem discoverLines_text (cd : List CoREData) (title : Int → Option (List Char)) : ∀ ps : List (Int × List (List Char)),
    (ps.map (discoverLine cd title)).flatten = linesText (ps.filterMap (coreLink cd title))
  | [] => rfl
  | np :: ps => by
    rw [List.map_cons, List.flatten_cons, discoverLines_text cd title ps]
    cases h : coreLink cd title np with
    | none =>
      rw [List.filterMap_cons, h, discoverLine, if_pos (coreLine_none.mpr h)]
      rfl
    | some l =>
      rw [List.filterMap_cons, h, (coreLink_text h).1]
      simp [linesText]

/-- C62, exactly: when something is to be listed, a client that reads the listing gets the resources that have CoRE
data, each with its full path, resource type, interface description and title in table order, **if and only if** no
path contains `>` and no type, description or title contains a quote or a backslash.  No characters elsewhere in the
listing can put right what one of these does. -/
theorem discovery_read_iff (cd : List CoREData) (title : Int → Option (List Char)) (forest : List Tree)
    (hids : ((forestTable (-1) forest).map Entry.id).Nodup) (hnone : -1 ∉ (forestTable (-1) forest).map Entry.id)
    (hdepth : forestDepth forest ≤ 10) (hsome : (forestPaths [] forest).filterMap (coreLink cd title) ≠ []) :
    ∃ text, discover cd title (forestTable (-1) forest) = some text ∧
      (readLinks text = some ((forestPaths [] forest).filterMap (coreLink cd title)) ↔
        ∀ l ∈ (forestPaths [] forest).filterMap (coreLink cd title), '>' ∉ l.target ∧ ∀ a ∈ l.attrs, '"' ∉ a.2 ∧ '\\' ∉ a.2) := by
  have hd := discoverLoop_forest cd title forest hids hnone hdepth
  rw [discoverLines_text] at hd
  have hn : ∀ k ∈ (forestPaths [] forest).filterMap (coreLink cd title), ∀ a ∈ k.attrs, ∀ c ∈ a.1, c ≠ '=' ∧ c ≠ ';' ∧ c ≠ ',' := by
    intro k hk
    obtain ⟨np, -, hnp⟩ := List.mem_filterMap.mp hk
    exact (coreLink_text hnp).2
  generalize (forestPaths [] forest).filterMap (coreLink cd title) = all at *
  rcases List.eq_nil_or_concat all with rfl | ⟨ls, l, rfl⟩
  · exact absurd rfl hsome
  · rw [List.concat_eq_append] at hd hn ⊢
    have e : linesText (ls ++ [l]) = linesText ls ++ linkText l ++ [','] := by simp [linesText]
    refine ⟨linesText ls ++ linkText l, ?_, links_read_iff ls l hn⟩
    rw [discover, hd, e]
    generalize linesText ls ++ linkText l = t
    simp

/-- C62 fails for the library's own observer whatever names and values are: as soon as it lists a resource, a client
that reads the text does not get the resources listed (`core_observer_unreadable` says that without special characters
it gets nothing at all). -/
theorem core_observer_never_read (cd : List CoREData) (forest : List Tree)
    (hids : ((forestTable (-1) forest).map Entry.id).Nodup) (hnone : -1 ∉ (forestTable (-1) forest).map Entry.id)
    (hdepth : forestDepth forest ≤ 10)
    (hsome : (forestPaths [] forest).filterMap (coreLink cd fun _ => some "test".toList) ≠ []) :
    ∃ text, coreObserver cd [] (forestTable (-1) forest) = some text ∧
      ∀ R, readLinks text = some R → R.head? ≠ ((forestPaths [] forest).filterMap (coreLink cd fun _ => some "test".toList)).head? := by
  rw [coreObserver_listing, core_listing cd forest hids hnone hdepth]
  refine ⟨_, rfl, ?_⟩
  generalize forestPaths [] forest = ps at hsome
  induction ps with
  | nil => simp at hsome
  | cons np ps ih =>
    cases hl : coreLink cd (fun _ => some "test".toList) np with
    | none =>
      have h0 := coreLine_none.mpr hl
      rw [List.filterMap_cons, hl] at hsome ⊢
      simp only [List.map_cons, h0, if_true, List.flatten_cons, List.nil_append]
      exact ih hsome
    | some l =>
      have hne : coreLine cd np ≠ [] := fun h => by rw [coreLine_none (title := fun _ => some "test".toList), hl] at h; cases h
      obtain ⟨ht, hn⟩ := coreLink_text hl
      rw [discoverLine, if_neg hne] at ht
      have ht : coreLine cd np ++ titleText "test".toList = linkText l := List.append_cancel_right ht
      rw [List.filterMap_cons, hl]
      simp only [List.map_cons, hne, if_false, List.flatten_cons, List.head?_cons, ht]
      generalize ((ps.map (coreLine cd)).map fun out => if out = [] then [] else out ++ titleText "test".toList ++ ['\n']).flatten = tail
      intro R hR hh
      rw [readLinks_linkEnd _ (by simp [linkText])] at hR
      rw [List.append_assoc] at hR
      have hR0 : R[0]? = some l := by rw [← hh]; cases R <;> rfl
      have hc := read_link_clean [] l R _ hR0 hn hR
      have h2 := (linkLeads_append (clean_link_read [] l hn hc)).mp hR
      simp [LinkLeads, linkRun, linkStep, linkNext] at h2

/-- A resource type that ends in a backslash: something is listed, and it is not read as it was meant. -/
example : ∃ text, discover [⟨1, ['t', '\\'], []⟩] (fun _ => none) (forestTable (-1) [.node ['a'] 1 []]) = some text ∧
    readLinks text ≠ some [⟨['/', 'a'], [(['r', 't'], ['t', '\\'])]⟩] := by
  obtain ⟨text, h1, h2⟩ := discovery_read_iff [⟨1, ['t', '\\'], []⟩] (fun _ => none) [.node ['a'] 1 []] (by decide) (by decide) (by decide)
    (by decide)
  refine ⟨text, h1, fun h => ?_⟩
  have := h2.mp h ⟨['/', 'a'], [(['r', 't'], ['t', '\\'])]⟩ (by decide)
  exact (this.2 _ List.mem_cons_self).2 (by decide)

/-- Two resources with all attributes are read back. -/
example : ∃ text, discover coreSample titleSample (forestTable (-1) [.node "a".toList 1 [.node "b".toList 4 []]]) = some text ∧
    readLinks text = some ((forestPaths [] [.node "a".toList 1 [.node "b".toList 4 []]]).filterMap (coreLink coreSample titleSample)) := by
  obtain ⟨text, h1, h2⟩ := discovery_read_iff coreSample titleSample [.node "a".toList 1 [.node "b".toList 4 []]] (by decide) (by decide)
    (by decide) (by decide)
  exact ⟨text, h1, h2.mpr (by decide)⟩

end Verif.Props
