import Verif.Spec.UriTables
import Verif.Props.UriPath

/-! # C83: path tables in pieces -/
namespace Verif.Props
open Verif.Model.Uri Verif.Spec Verif.Proofs

theorem matchChild_eq (s : List Char) (p : Int) : ∀ (items : List Child) (count : Int), 0 ≤ count → count ≤ items.length →
    matchChild s count items =
      some (((match_ ((items.take count.toNat).map fun c => (⟨c.seg, c.id, p⟩ : Entry)) s p).map Entry.id).getD (-1)) := by
  intro items
  induction items with
  | nil =>
    intro count h0 h1
    have : count = 0 := by simp at h1; omega
    subst this
    simp [matchChild, match_, none_]
  | cons c items ih =>
    intro count h0 h1
    rw [matchChild]
    by_cases hc : count = 0
    · subst hc; simp [match_, none_]
    · rw [if_neg hc]
      obtain ⟨n, hn⟩ : ∃ n, count.toNat = n + 1 := ⟨count.toNat - 1, by omega⟩
      have hn' : (count - 1).toNat = n := by omega
      simp only [List.length_cons] at h1
      rw [ih (count - 1) (by omega) (by omega), hn', hn, List.take_succ_cons, List.map_cons, match_]
      by_cases hs : s = c.seg <;> simp [hs]

theorem match_append (s : List Char) (p : Int) : ∀ (a b : List Entry), match_ (a ++ b) s p = (match_ a s p).or (match_ b s p) := by
  intro a
  induction a with
  | nil => intro b; simp [match_]
  | cons x a ih =>
    intro b
    rw [List.cons_append, match_, match_, ih]
    by_cases h : (s == x.seg && x.parent == p) = true <;> simp [h]

theorem match_other (s : List Char) (p : Int) (t : List Entry) (h : ∀ e ∈ t, e.parent ≠ p) : match_ t s p = none :=
  (uri_match_none_iff t s p).mpr fun e he hc => h e he hc.2

/-- One segment: what the tables in pieces give is what the one table gives. -/
theorem tableStep_eq (s : List Char) (p : Int) : ∀ (rels : List Relation) (count : Int), CountsFit rels count →
    OneTableEach rels count →
    tableStep rels count p s = some (((match_ (flatTable rels count) s p).map Entry.id).getD (-1)) := by
  intro rels
  induction rels with
  | nil =>
    intro count ⟨h0, h1, _⟩ _
    have : count = 0 := by simp at h1; omega
    subst this
    simp [tableStep, matchRelation, flatTable, match_, none_]
  | cons r rels ih =>
    intro count ⟨h0, h1, h2⟩ ho
    by_cases hc : count = 0
    · subst hc
      simp [tableStep, matchRelation, flatTable, match_, none_]
    · obtain ⟨n, hn⟩ : ∃ n, count.toNat = n + 1 := ⟨count.toNat - 1, by omega⟩
      have hn' : (count - 1).toNat = n := by omega
      simp only [List.length_cons] at h1
      unfold OneTableEach at ho
      rw [hn, List.take_succ_cons] at h2 ho
      obtain ⟨hr, ho⟩ := List.pairwise_cons.mp ho
      have hfit : CountsFit rels (count - 1) := ⟨by omega, by omega, fun x hx => h2 x (by rw [hn'] at hx; simp [hx])⟩
      have hone : OneTableEach rels (count - 1) := by rw [OneTableEach, hn']; exact ho
      have hflat : flatTable (r :: rels) count =
          ((r.children.take r.count.toNat).map fun c => (⟨c.seg, c.id, r.parent⟩ : Entry)) ++ flatTable rels (count - 1) := by
        rw [flatTable, hn, List.take_succ_cons, List.flatMap_cons, flatTable, hn']
      rw [tableStep, matchRelation, if_neg hc, hflat, match_append]
      by_cases hp : r.parent = p
      · have hrest : match_ (flatTable rels (count - 1)) s p = none := by
          refine match_other s p _ fun e he => ?_
          rw [flatTable, hn'] at he
          obtain ⟨x, hx, he⟩ := List.mem_flatMap.mp he
          obtain ⟨c, _, rfl⟩ := List.mem_map.mp he
          exact fun h => hr x hx (hp.trans h.symm)
        have hb := h2 r (by simp)
        rw [hrest, if_pos (by simpa using hp), hp, Option.or_none]
        exact matchChild_eq s p r.children r.count hb.1 hb.2
      · have hfirst : match_ ((r.children.take r.count.toNat).map fun c => (⟨c.seg, c.id, r.parent⟩ : Entry)) s p = none := by
          refine match_other s p _ fun e he => ?_
          obtain ⟨c, _, rfl⟩ := List.mem_map.mp he
          exact hp
        rw [hfirst, if_neg (by simpa using hp), Option.none_or]
        exact ih (count - 1) hfit hone

/-- C83: a path leads to a node exactly when the table with all children denotes it, and nothing is read that is not there. -/
theorem tables_walk_iff {rels : List Relation} {count : Int} (hfit : CountsFit rels count) (hone : OneTableEach rels count)
    (hid : NodeIds rels count) (p : Int) (segs : List (List Char)) :
    ∃ q, tableWalk rels count p segs = some q ∧ ∀ r, r ≠ -1 → (q = r ↔ Denotes (flatTable rels count) p segs r) := by
  induction segs generalizing p with
  | nil => exact ⟨p, rfl, fun r _ => ⟨fun h => h ▸ .here p, fun h => by cases h; rfl⟩⟩
  | cons s segs ih =>
    rw [tableWalk, tableStep_eq s p rels count hfit hone]
    cases hm : match_ (flatTable rels count) s p with
    | none =>
      refine ⟨-1, by simp [none_], fun r hr => ⟨fun h => absurd h.symm hr, fun h => ?_⟩⟩
      cases h with
      | step hf _ => exact absurd hf (match_none hm _)
    | some e =>
      have hf := match_some hm
      have hmem : e ∈ flatTable rels count := by
        obtain ⟨pre, post, h, _⟩ := hf
        rw [h]; simp
      obtain ⟨q, h1, h2⟩ := ih e.id
      refine ⟨q, by simp [hid e hmem, h1], fun r hr => (h2 r hr).trans ⟨fun h => .step hf h, fun h => ?_⟩⟩
      cases h with
      | step hf' h => exact firstEntry_unique hf hf' ▸ h

/-- C83: they give what the matcher for the one table gives. -/
theorem tables_agree {rels : List Relation} {count : Int} (hfit : CountsFit rels count) (hone : OneTableEach rels count)
    (hid : NodeIds rels count) (hpf : ParentsFirst (flatTable rels count)) (segs : List (List Char)) :
    tableWalk rels count (-1) segs = some ((Matcher.init (flatTable rels count)).feed segs).lastFound := by
  obtain ⟨q, h1, h2⟩ := tables_walk_iff hfit hone hid (-1) segs
  rw [h1]
  refine congrArg some ?_
  by_cases hq : q = -1
  · subst hq
    by_cases hf : ((Matcher.init (flatTable rels count)).feed segs).lastFound = -1
    · exact hf.symm
    · exact (h2 _ hf).mpr ((uri_path_iff hpf segs hf).mp rfl)
  · exact ((uri_path_iff hpf segs hq).mpr ((h2 q hq).mp rfl)).symm

/-- C83: a number of children that is too large, or negative, makes a segment that is not there read behind the array. -/
theorem tables_child_count (s : List Char) : ∀ (items : List Child) (count : Int), (count < 0 ∨ items.length < count) →
    (∀ c ∈ items, c.seg ≠ s) → matchChild s count items = none := by
  intro items
  induction items with
  | nil =>
    intro count h _
    have : count ≠ 0 := by simp at h; omega
    rw [matchChild, if_neg this]
  | cons c items ih =>
    intro count h hs
    simp only [List.length_cons] at h
    rw [matchChild, if_neg (by omega)]
    simp only [beq_iff_eq]
    rw [if_neg fun he => hs c (by simp) he.symm]
    exact ih (count - 1) (by omega) fun x hx => hs x (by simp [hx])

/-- C83: the same for the number of tables — the repository's own test hands over the size in bytes — and a node without a table. -/
theorem tables_relation_count (p : Int) : ∀ (rels : List Relation) (count : Int), (count < 0 ∨ rels.length < count) →
    (∀ r ∈ rels, r.parent ≠ p) → ∀ s segs, tableWalk rels count p (s :: segs) = none := by
  intro rels count h hr s segs
  have : ∀ (rels : List Relation) (count : Int), (count < 0 ∨ rels.length < count) → (∀ r ∈ rels, r.parent ≠ p) →
      matchRelation p count rels = none := by
    intro rels
    induction rels with
    | nil =>
      intro count h _
      have : count ≠ 0 := by simp at h; omega
      rw [matchRelation, if_neg this]
    | cons r rels ih =>
      intro count h hr
      simp only [List.length_cons] at h
      rw [matchRelation, if_neg (by omega), if_neg (by simpa using hr r (by simp))]
      exact ih (count - 1) (by omega) fun x hx => hr x (by simp [hx])
  rw [tableWalk, tableStep, this rels count h hr]

/-- C83: once a parent has a table, no table behind it is looked at — a second one for the same parent is never used. -/
theorem tables_second_ignored (p : Int) (first second : Relation) (pre mid post : List Relation) (h1 : first.parent = p)
    (hpre : ∀ r ∈ pre, r.parent ≠ p) (count : Int) (hc : (pre.length : Int) < count) (other : List Child) (n : Int)
    (s : List Char) :
    tableStep (pre ++ first :: mid ++ second :: post) count p s =
      tableStep (pre ++ first :: mid ++ { second with children := other, count := n } :: post) count p s := by
  have : ∀ (pre : List Relation) (rest : List Relation) (count : Int), (pre.length : Int) < count → (∀ r ∈ pre, r.parent ≠ p) →
      matchRelation p count (pre ++ first :: rest) = some (some first) := by
    intro pre
    induction pre with
    | nil =>
      intro rest count hc _
      simp only [List.length_nil] at hc
      rw [List.nil_append, matchRelation, if_neg (by omega), if_pos (by simpa using h1)]
    | cons r pre ih =>
      intro rest count hc hr
      simp only [List.length_cons] at hc
      rw [List.cons_append, matchRelation, if_neg (by omega), if_neg (by simpa using hr r (by simp))]
      exact ih rest (count - 1) (by omega) fun x hx => hr x (by simp [hx])
  simp only [tableStep, List.append_assoc, List.cons_append]
  rw [this pre _ count hc hpre, this pre _ count hc hpre]

/-- The tables of the repository's test, with one more node. -/
def tableSample : List Relation :=
  [⟨-1, [⟨"v1".toList, 0⟩], 1⟩, ⟨0, [⟨"api".toList, 1⟩, ⟨"log".toList, 7⟩], 2⟩, ⟨1, [⟨"power".toList, 2⟩], 1⟩]

example : CountsFit tableSample 3 := by unfold CountsFit; decide
example : OneTableEach tableSample 3 := by unfold OneTableEach; decide
example : NodeIds tableSample 3 := by unfold NodeIds; decide
example : ParentsFirst (flatTable tableSample 3) := by
  refine parentsFirst_cons (by decide) (by decide) (parentsFirst_cons (by decide) (by decide) (parentsFirst_cons (by decide) (by decide)
    (parentsFirst_cons (by decide) (by decide) parentsFirst_nil)))
example : tableStep [⟨-1, [⟨"v1".toList, 0⟩], 1⟩, ⟨-1, [⟨"v2".toList, 5⟩], 1⟩] 2 (-1) "v2".toList = some (-1) := by decide
example : tableWalk tableSample 3 (-1) ["v1".toList, "api".toList, "power".toList] = some 2 := by decide
example : tableWalk tableSample 3 (-1) ["v1".toList, "api".toList, "volume".toList] = some (-1) := by decide
/-- 72 is `sizeof(relations)` of the test on a 64-bit machine: node 7 has no table. -/
example : tableWalk tableSample 72 (-1) ["v1".toList, "log".toList, "x".toList] = none := by decide

end Verif.Props
