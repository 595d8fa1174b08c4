import Verif.Proofs.UriPath

/-! # C32, C33, C45: URI path tables -/
namespace Verif.Props
open Verif.Model.Uri Verif.Spec Verif.Proofs

/-- A table of a server: `/sensor`, `/sensor/temp`, `/sensor/hum`, `/v1`, `/v1/temp`. -/
def uriSample : List Entry :=
  [⟨"sensor".toList, 0, -1⟩, ⟨"temp".toList, 1, 0⟩, ⟨"hum".toList, 2, 0⟩, ⟨"v1".toList, 3, -1⟩, ⟨"temp".toList, 4, 3⟩]

/-- C32: the lookup returns an entry exactly when it is the first for that segment and parent. -/
theorem uri_match_iff (t : List Entry) (s : List Char) (p : Int) (e : Entry) :
    match_ t s p = some e ↔ FirstEntry t s p e := by
  constructor
  · exact match_some
  · intro h
    cases hm : match_ t s p with
    | none => exact absurd h (match_none hm e)
    | some a => rw [firstEntry_unique (match_some hm) h]

/-- C32: nothing is returned exactly when no entry has that segment and parent. -/
theorem uri_match_none_iff (t : List Entry) (s : List Char) (p : Int) :
    match_ t s p = none ↔ ∀ e ∈ t, ¬(e.seg = s ∧ e.parent = p) := by
  constructor
  · intro h
    induction t with
    | nil => simp
    | cons x t ih =>
      intro e he hc
      by_cases hx : s = x.seg ∧ x.parent = p
      · simp [match_, hx.1, hx.2] at h
      · rw [match_, if_neg (by simpa using hx)] at h
        rcases List.mem_cons.mp he with rfl | he
        · exact hx ⟨hc.1.symm, hc.2⟩
        · exact ih h e he hc
  · intro h
    cases hm : match_ t s p with
    | none => rfl
    | some e =>
      obtain ⟨pre, post, h1, h2, h3, _⟩ := match_some hm
      exact absurd ⟨h2, h3⟩ (h e (by rw [h1]; simp))

/-- C32: the search that returns ids gives the id of the first entry. -/
theorem uri_find_first {t : List Entry} {s : List Char} {p : Int} {e : Entry} (h : FirstEntry t s p e) :
    find2 t s p = e.id := by
  rw [find2, baseFind_match, (uri_match_iff t s p e).mpr h]

/-- C32: and -1 when there is none. -/
theorem uri_find_none {t : List Entry} {s : List Char} {p : Int} (h : ∀ e ∈ t, ¬(e.seg = s ∧ e.parent = p)) :
    find2 t s p = -1 := by
  rw [find2, baseFind_match, (uri_match_none_iff t s p).mpr h]

example : FirstEntry uriSample "temp".toList 3 ⟨"temp".toList, 4, 3⟩ :=
  ⟨uriSample.take 4, [], rfl, rfl, rfl, by decide⟩
example : ∀ e ∈ uriSample, ¬(e.seg = "hum".toList ∧ e.parent = 3) := by decide

/-- C33: a path that denotes a node leads to that node. -/
theorem uri_path_found {t : List Entry} (hpf : ParentsFirst t) {segs : List (List Char)} {q : Int}
    (h : Denotes t (-1) segs q) : ((Matcher.init t).feed segs).lastFound = q :=
  (feed_denotes hpf (minv_init t) h).1

/-- C33: a path that denotes no node leads nowhere, and stays there. -/
theorem uri_path_not_found {t : List Entry} (hpf : ParentsFirst t) {segs : List (List Char)}
    (h : ∀ q, ¬Denotes t (-1) segs q) (more : List (List Char)) :
    ((Matcher.init t).feed (segs ++ more)).lastFound = -1 := by
  have hf : ∀ (a b : List (List Char)) (m : Matcher), m.feed (a ++ b) = (m.feed a).feed b := by
    intro a
    induction a with
    | nil => intro b m; rfl
    | cons x a ih => intro b m; exact ih b _
  rw [hf, feed_not_denotes hpf (minv_init t) h, feed_dead]
  rfl

/-- C33: a node is reported exactly when the path denotes it. -/
theorem uri_path_iff {t : List Entry} (hpf : ParentsFirst t) (segs : List (List Char)) {q : Int} (hq : q ≠ -1) :
    ((Matcher.init t).feed segs).lastFound = q ↔ Denotes t (-1) segs q := by
  constructor
  · intro h
    by_cases hd : ∃ r, Denotes t (-1) segs r
    · obtain ⟨r, hr⟩ := hd
      have := uri_path_found hpf hr
      rw [h] at this
      subst this
      exact hr
    · have := uri_path_not_found hpf (fun q hq => hd ⟨q, hq⟩) []
      rw [List.append_nil, h] at this
      exact absurd this hq
  · exact uri_path_found hpf

/-- C33: the entry handed back for the last segment is the first one under the node the segments before it lead to. -/
theorem uri_segment_found {t : List Entry} (hpf : ParentsFirst t) {segs : List (List Char)} {p : Int}
    (h : Denotes t (-1) segs p) (s : List Char) (e : Entry) :
    (((Matcher.init t).feed segs).find s).2 = some e ↔ FirstEntry t s p e := by
  obtain ⟨h1, h2⟩ := feed_denotes hpf (minv_init t) h
  constructor
  · intro he
    have := (find_some hpf h2 he).1
    rwa [h1] at this
  · intro he
    exact (find_first h2 (by rw [h1]; exact he)).1

/-- C33: the other stateful matcher gives the same answers. -/
theorem uri_matchers_agree (t : List Entry) (segs : List (List Char)) :
    (Matcher.init t).feed2 segs = (Matcher.init t).feed segs := feed2_eq segs _

/-- `ParentsFirst` can be checked entry by entry. -/
theorem parentsFirst_cons {e : Entry} {t : List Entry} (h1 : e.parent ≠ e.id) (h2 : ∀ x ∈ t, e.parent ≠ x.id)
    (h : ParentsFirst t) : ParentsFirst (e :: t) := by
  intro pre a post ht x hx
  cases pre with
  | nil =>
    have := (List.cons.inj ht).1
    subst this
    rw [List.nil_append, List.mem_singleton] at hx
    subst hx
    exact h1
  | cons y pre =>
    have h3 := (List.cons.inj ht).1
    have h4 := (List.cons.inj ht).2
    subst h3
    rcases List.mem_cons.mp hx with rfl | hx
    · exact h2 a (by rw [h4]; simp)
    · exact h pre a post h4 x hx

theorem parentsFirst_nil : ParentsFirst [] := by
  intro pre e post h
  simp at h

theorem uriSample_ordered : ParentsFirst uriSample := by
  refine parentsFirst_cons (by decide) (by decide) <| parentsFirst_cons (by decide) (by decide) <|
    parentsFirst_cons (by decide) (by decide) <| parentsFirst_cons (by decide) (by decide) <|
    parentsFirst_cons (by decide) (by decide) parentsFirst_nil

example : Denotes uriSample (-1) ["v1".toList, "temp".toList] 4 :=
  .step (e := ⟨"v1".toList, 3, -1⟩) ⟨uriSample.take 3, uriSample.drop 4, rfl, rfl, rfl, by decide⟩ <|
  .step (e := ⟨"temp".toList, 4, 3⟩) ⟨uriSample.take 4, [], rfl, rfl, rfl, by decide⟩ (.here 4)

/-- C33, why the order is needed: with the child registered before its parent, the path is not found although it
denotes a node. -/
theorem uri_order_needed : ∃ t segs q, Denotes t (-1) segs q ∧ ((Matcher.init t).feed segs).lastFound = -1 ∧ q ≠ -1 := by
  refine ⟨[⟨['b'], 2, 1⟩, ⟨['a'], 1, -1⟩], [['a'], ['b']], 2, ?_, by decide, by decide⟩
  exact .step (e := ⟨['a'], 1, -1⟩) ⟨[⟨['b'], 2, 1⟩], [], rfl, rfl, rfl, by decide⟩ <|
    .step (e := ⟨['b'], 2, 1⟩) ⟨[], [⟨['a'], 1, -1⟩], rfl, rfl, rfl, by decide⟩ (.here 2)

/-! ## C45: the CoRE listing -/

/-- C45: for a table written depth first, with distinct ids and at most ten levels, the listing names every node
that has CoRE data by its full path, in table order, and prints nothing for the others. -/
theorem core_listing (cd : List CoREData) (forest : List Tree)
    (hids : ((forestTable (-1) forest).map Entry.id).Nodup) (hnone : -1 ∉ (forestTable (-1) forest).map Entry.id)
    (hdepth : forestDepth forest ≤ 10) :
    listing cd [] (forestTable (-1) forest) = some ((forestPaths [] forest).map (coreLine cd)) := by
  obtain ⟨d', _, h⟩ := forest_listing cd forest (-1) [] [] rfl (by simp) (List.nodup_cons.mpr ⟨hnone, hids⟩)
    (by simpa using hdepth)
  have := h []
  simpa [listing] using this

/-- A forest whose table is `uriSample`. -/
def uriForest : List Tree :=
  [.node "sensor".toList 0 [.node "temp".toList 1 [], .node "hum".toList 2 []], .node "v1".toList 3 [.node "temp".toList 4 []]]

example : forestTable (-1) uriForest = uriSample := rfl
example : (uriSample.map Entry.id).Nodup ∧ -1 ∉ uriSample.map Entry.id ∧ forestDepth uriForest ≤ 10 := by decide
example : (forestPaths [] uriForest).map (coreLine [⟨4, "t".toList, []⟩]) =
    [[], [], [], [], "</v1/temp>;rt=\"t\"".toList] := by decide

/-- C45, why depth first is needed: with the parents of both levels before the children, a node is listed under an
incomplete path, although every parent comes before its children. -/
theorem core_listing_order_needed : ∃ cd t, ParentsFirst t ∧ Denotes t (-1) [['a'], ['x']] 2 ∧
    listing cd [] t = some [[], [], "</x>".toList] ∧ cd = [⟨2, [], []⟩] := by
  refine ⟨[⟨2, [], []⟩], [⟨['a'], 0, -1⟩, ⟨['b'], 1, -1⟩, ⟨['x'], 2, 0⟩], ?_, ?_, by decide, rfl⟩
  · exact parentsFirst_cons (by decide) (by decide) <| parentsFirst_cons (by decide) (by decide) <|
      parentsFirst_cons (by decide) (by decide) parentsFirst_nil
  · exact .step (e := ⟨['a'], 0, -1⟩) ⟨[], [⟨['b'], 1, -1⟩, ⟨['x'], 2, 0⟩], rfl, rfl, rfl, by decide⟩ <|
      .step (e := ⟨['x'], 2, 0⟩) ⟨[⟨['a'], 0, -1⟩, ⟨['b'], 1, -1⟩], [], rfl, rfl, rfl, by decide⟩ (.here 2)

/-- A chain of `n` nodes below `parent`. -/
def chain : Nat → Int → List Entry
  | 0, _ => []
  | n + 1, parent => ⟨['x'], parent + 1, parent⟩ :: chain n (parent + 1)

/-- C45: eleven levels are more than the stack of the listing holds. -/
theorem core_listing_depth_needed (cd : List CoREData) : listing cd [] (chain 11 (-1)) = none := by
  have step : ∀ (s : List Entry) (e : Entry) (rest : List Entry), unwind e.parent s = s → 
      listing cd s (e :: rest) = if s.length < 10 then
        (listing cd (e :: s) rest).map (coreLine cd (e.id, s.reverse.map Entry.seg ++ [e.seg]) :: ·) else none := by
    intro s e rest hs
    by_cases hl : s.length < 10
    · rw [if_pos hl]
      exact listing_cons (d := []) hs (by simp) hl
    · rw [if_neg hl, listing, evaluate, parentHandler]
      simp only [hs, hl, if_false]
  have hc : ∀ (n k : Nat) (s : List Entry), s.length = k → unwind ((k : Int) - 1) s = s → k ≤ 10 → k + n ≥ 11 →
      listing cd s (chain n ((k : Int) - 1)) = none := by
    intro n
    induction n with
    | zero => intro k s _ _ h1 h2; omega
    | succ n ih =>
      intro k s hk hu h1 h2
      rw [chain, step _ _ _ hu, hk]
      by_cases hl : k < 10
      · rw [if_pos hl]
        have e1 : ((k : Int) - 1 + 1) = ((k + 1 : Nat) : Int) - 1 := by omega
        rw [e1, ih (k + 1) _ (by simp [hk]) (by simp [unwind]) (by omega) (by omega)]
        rfl
      · rw [if_neg hl]
  exact hc 11 0 [] rfl rfl (by omega) (by omega)

end Verif.Props
