import Verif.Model.Core
import Verif.Spec.LinkFormat
import Verif.Props.UriPath

/-! # C62: the listing of resources can be read by a client -/
namespace Verif.Props
open Verif.Model.Uri Verif.Spec Verif.Proofs

theorem linkRun_append (a b : List Char) : ∀ s, linkRun s (a ++ b) = (linkRun s a).bind (linkRun · b) := by
  induction a with
  | nil => intro s; rfl
  | cons c a ih =>
    intro s
    simp only [List.cons_append, linkRun]
    cases linkStep s c with
    | none => rfl
    | some s => exact ih s

theorem linkRun_target (done : List Link) : ∀ (v u : List Char), '>' ∉ v →
    linkRun (done, .target u) v = some (done, .target (u ++ v))
  | [], u, _ => by simp [linkRun]
  | c :: v, u, h => by
    have hc : c ≠ '>' := fun hc => h (by simp [hc])
    simp only [linkRun, linkStep, hc, if_false, Option.bind_some]
    rw [linkRun_target done v _ (fun h' => h (List.mem_cons_of_mem _ h'))]
    simp

theorem linkRun_quoted (done : List Link) (l : Link) (n : List Char) : ∀ (v u : List Char), Plain v →
    linkRun (done, .quoted l n u) v = some (done, .quoted l n (u ++ v))
  | [], u, _ => by simp [linkRun]
  | c :: v, u, h => by
    have hc : c ≠ '"' := fun hc => h.1 (by simp [hc])
    have hc2 : c ≠ '\\' := fun hc => h.2 (by simp [hc])
    simp only [linkRun, linkStep, hc, hc2, if_false, Option.bind_some]
    rw [linkRun_quoted done l n v _ ⟨fun h' => h.1 (List.mem_cons_of_mem _ h'), fun h' => h.2 (List.mem_cons_of_mem _ h')⟩]
    simp

theorem linkRun_name (done : List Link) (l : Link) : ∀ (n u : List Char), (∀ c ∈ n, c ≠ '=' ∧ c ≠ ';' ∧ c ≠ ',') →
    linkRun (done, .name l u) n = some (done, .name l (u ++ n))
  | [], u, _ => by simp [linkRun]
  | c :: n, u, h => by
    obtain ⟨h1, h2, h3⟩ := h c List.mem_cons_self
    simp only [linkRun, linkStep, h1, h2, h3, if_false, or_self, Option.bind_some]
    rw [linkRun_name done l n _ (fun c hc => h c (List.mem_cons_of_mem _ hc))]
    simp

theorem linkRun_any_attr (done : List Link) (l : Link) (n v : List Char) (hn : ∀ c ∈ n, c ≠ '=' ∧ c ≠ ';' ∧ c ≠ ',') (h : Plain v) :
    linkRun (done, .params l) ([';'] ++ n ++ ['=', '"'] ++ v ++ ['"']) = some (done, .params (l.with_ n v)) := by
  have e0 : linkRun (done, .params l) [';'] = some (done, .name l []) := by simp [linkRun, linkStep, linkNext]
  have e1 : linkRun (done, .name l n) ['=', '"'] = some (done, .quoted l n []) := by simp [linkRun, linkStep]
  have e2 : linkRun (done, .quoted l n v) ['"'] = some (done, .params (l.with_ n v)) := by simp [linkRun, linkStep]
  rw [linkRun_append, linkRun_append, linkRun_append, linkRun_append, e0, Option.bind_some, linkRun_name _ _ _ _ hn, Option.bind_some,
    List.nil_append, e1, Option.bind_some, linkRun_quoted _ _ _ _ _ h, Option.bind_some, List.nil_append, e2]

theorem linkRun_attr (done : List Link) (l : Link) (v : List Char) (h : Plain v) :
    linkRun (done, .params l) (";rt=\"".toList ++ v ++ ['"']) = some (done, .params (l.with_ "rt".toList v)) ∧
    linkRun (done, .params l) (";if=\"".toList ++ v ++ ['"']) = some (done, .params (l.with_ "if".toList v)) ∧
    linkRun (done, .params l) (titleText v) = some (done, .params (l.with_ "title".toList v)) :=
  ⟨linkRun_any_attr done l "rt".toList v (by decide) h, linkRun_any_attr done l "if".toList v (by decide) h,
    linkRun_any_attr done l "title".toList v (by decide) h⟩

/-- A printed link is read as the link it stands for. -/
theorem linkRun_link (done : List Link) (cd : List CoREData) (title : Int → Option (List Char)) (np : Int × List (List Char))
    (d : CoREData) (hd : cd.find? (fun v => v.node == np.1) = some d) (hp : ∀ s ∈ np.2, '>' ∉ s) (h1 : Plain d.rt) (h2 : Plain d.ifd)
    (h3 : ∀ t, title np.1 = some t → Plain t) :
    ∃ l, coreLink cd title np = some l ∧
      linkRun (done, .start) (coreLine cd np ++ (match title np.1 with | none => [] | some t => titleText t)) = some (done, .params l) := by
  refine ⟨_, by rw [coreLink, hd]; rfl, ?_⟩
  simp only [coreLine, hd, link]
  have ht : '>' ∉ (np.2.map fun s => '/' :: s).flatten := by
    intro h
    simp only [List.mem_flatten, List.mem_map] at h
    obtain ⟨x, ⟨s, hs, rfl⟩, hx⟩ := h
    rcases List.mem_cons.mp hx with hx | hx
    · exact absurd hx (by decide)
    · exact hp s hs hx
  generalize (np.2.map fun s => '/' :: s).flatten = tgt at ht ⊢
  have e0 : linkRun (done, .start) (['<'] ++ tgt ++ ['>']) = some (done, .params ⟨tgt, []⟩) := by
    rw [linkRun_append, linkRun_append]
    simp [linkRun, linkStep]
    rw [linkRun_target _ _ _ ht]
    simp [linkRun, linkStep]
  rw [linkRun_append, linkRun_append, linkRun_append, e0, Option.bind_some]
  have e1 : linkRun (done, .params ⟨tgt, []⟩) (if d.rt = [] then [] else ";rt=\"".toList ++ d.rt ++ ['"']) =
      some (done, .params ⟨tgt, if d.rt = [] then [] else [("rt".toList, d.rt)]⟩) := by
    by_cases h : d.rt = []
    · simp [h, linkRun]
    · simp only [h, if_false]
      exact (linkRun_attr done ⟨tgt, []⟩ d.rt h1).1
  rw [e1, Option.bind_some]
  generalize (if d.rt = [] then [] else [("rt".toList, d.rt)]) = a1
  have e2 : linkRun (done, .params ⟨tgt, a1⟩) (if d.ifd = [] then [] else ";if=\"".toList ++ d.ifd ++ ['"']) =
      some (done, .params ⟨tgt, a1 ++ if d.ifd = [] then [] else [("if".toList, d.ifd)]⟩) := by
    by_cases h : d.ifd = []
    · simp [h, linkRun]
    · simp only [h, if_false]
      exact (linkRun_attr done ⟨tgt, a1⟩ d.ifd h2).2.1
  rw [e2, Option.bind_some]
  generalize (a1 ++ if d.ifd = [] then [] else [("if".toList, d.ifd)]) = a2
  cases ht : title np.1 with
  | none => simp [linkRun]
  | some t => exact (linkRun_attr done ⟨tgt, a2⟩ t (h3 t ht)).2.2

/-- What the loop prints for a node. -/
def discoverLine (cd : List CoREData) (title : Int → Option (List Char)) (np : Int × List (List Char)) : List Char :=
  if coreLine cd np = [] then [] else coreLine cd np ++ (match title np.1 with | none => [] | some t => titleText t) ++ [',']

theorem discoverLoop_listing (cd : List CoREData) (title : Int → Option (List Char)) : ∀ (es parents : List Entry),
    discoverLoop cd title parents es = (listing cd parents es).map fun lines =>
      (List.zipWith (fun e out => if out = [] then [] else
        out ++ (match title e.id with | none => [] | some t => titleText t) ++ [',']) es lines).flatten
  | [], _ => by simp [discoverLoop, listing]
  | e :: es, parents => by
    rw [discoverLoop, listing]
    cases evaluate cd parents e with
    | none => rfl
    | some v =>
      obtain ⟨p, out⟩ := v
      simp only
      rw [discoverLoop_listing cd title es p]
      cases listing cd p es <;> rfl

theorem coreObserver_listing (cd : List CoREData) : ∀ (es parents : List Entry),
    coreObserver cd parents es = (listing cd parents es).map fun lines =>
      (lines.map fun out => if out = [] then [] else out ++ titleText "test".toList ++ ['\n']).flatten
  | [], _ => by simp [coreObserver, listing]
  | e :: es, parents => by
    rw [coreObserver, listing]
    cases evaluate cd parents e with
    | none => rfl
    | some v =>
      obtain ⟨p, out⟩ := v
      simp only
      rw [coreObserver_listing cd es p]
      cases listing cd p es <;> rfl

mutual
theorem tree_ids (p : Int) (above : List (List Char)) : ∀ t : Tree, (t.table p).map Entry.id = (t.paths above).map Prod.fst
  | .node seg id children => by
    simp only [Tree.table, Tree.paths, List.map_cons]
    rw [forest_ids id (above ++ [seg]) children]
theorem forest_ids (p : Int) (above : List (List Char)) : ∀ ts : List Tree,
    (forestTable p ts).map Entry.id = (forestPaths above ts).map Prod.fst
  | [] => rfl
  | t :: ts => by
    simp only [forestTable, forestPaths, List.map_append]
    rw [tree_ids p above t, forest_ids p above ts]
end

theorem discoverLoop_forest (cd : List CoREData) (title : Int → Option (List Char)) (forest : List Tree)
    (hids : ((forestTable (-1) forest).map Entry.id).Nodup) (hnone : -1 ∉ (forestTable (-1) forest).map Entry.id)
    (hdepth : forestDepth forest ≤ 10) :
    discoverLoop cd title [] (forestTable (-1) forest) = some ((forestPaths [] forest).map (discoverLine cd title)).flatten := by
  rw [discoverLoop_listing, core_listing cd forest hids hnone hdepth, Option.map_some]
  congr 2
  have h := forest_ids (-1) [] forest
  generalize forestTable (-1) forest = es at h
  generalize forestPaths [] forest = ps at h
  induction ps generalizing es with
  | nil => cases es <;> simp_all
  | cons np ps ih =>
    cases es with
    | nil => simp at h
    | cons e es =>
      simp only [List.map_cons, List.cons.injEq] at h
      simp only [List.map_cons, List.zipWith_cons_cons, ih es h.2, discoverLine, h.1]

theorem coreLine_none {cd : List CoREData} {title : Int → Option (List Char)} {np : Int × List (List Char)} :
    coreLine cd np = [] ↔ coreLink cd title np = none := by
  simp only [coreLine, coreLink, link]
  cases cd.find? fun v => v.node == np.1 <;> simp

/-- Reading what the loop prints. -/
theorem linkRun_lines (cd : List CoREData) (title : Int → Option (List Char)) (hcd : ∀ d ∈ cd, Plain d.rt ∧ Plain d.ifd)
    (ht : ∀ i t, title i = some t → Plain t) : ∀ (ps : List (Int × List (List Char))) (done : List Link),
    (∀ np ∈ ps, ∀ s ∈ np.2, '>' ∉ s) →
    linkRun (done, .start) (ps.map (discoverLine cd title)).flatten = some (done ++ ps.filterMap (coreLink cd title), .start) ∧
    (ps.filterMap (coreLink cd title) ≠ [] → ∃ ls l text, ps.filterMap (coreLink cd title) = ls ++ [l] ∧
      (ps.map (discoverLine cd title)).flatten = text ++ [','] ∧ text ≠ [] ∧
      linkRun (done, .start) text = some (done ++ ls, .params l))
  | [], done, _ => by simp [linkRun]
  | np :: ps, done, hp => by
    have hps : ∀ np ∈ ps, ∀ s ∈ np.2, '>' ∉ s := fun q hq => hp q (List.mem_cons_of_mem _ hq)
    cases hd : cd.find? fun v => v.node == np.1 with
    | none =>
      have hl : coreLink cd title np = none := by rw [coreLink, hd]; rfl
      have h0 : discoverLine cd title np = [] := by rw [discoverLine, if_pos (coreLine_none.mpr hl)]
      simp only [List.map_cons, h0, List.flatten_cons, List.nil_append, List.filterMap_cons, hl]
      exact linkRun_lines cd title hcd ht ps done hps
    | some d =>
      have hm := hcd d (List.mem_of_find?_eq_some hd)
      obtain ⟨l, hl, hr⟩ := linkRun_link done cd title np d hd (hp np List.mem_cons_self) hm.1 hm.2 (ht np.1)
      have hne : coreLine cd np ≠ [] := fun h => by rw [coreLine_none (title := title)] at h; rw [hl] at h; cases h
      have hc : linkRun (done, .start) (discoverLine cd title np) = some (done ++ [l], .start) := by
        rw [discoverLine, if_neg hne, linkRun_append, hr]
        simp [linkRun, linkStep, linkNext]
      obtain ⟨i1, i2⟩ := linkRun_lines cd title hcd ht ps (done ++ [l]) hps
      simp only [List.map_cons, List.flatten_cons, List.filterMap_cons, hl]
      refine ⟨?_, fun _ => ?_⟩
      · rw [linkRun_append, hc, Option.bind_some, i1]
        simp
      · by_cases he : ps.filterMap (coreLink cd title) = []
        · have hz : (ps.map (discoverLine cd title)).flatten = [] := by
            rw [List.flatten_eq_nil_iff]
            intro x hx
            obtain ⟨q, hq, rfl⟩ := List.mem_map.mp hx
            rw [discoverLine, if_pos]
            rw [coreLine_none (title := title)]
            exact List.filterMap_eq_nil_iff.mp he q hq
          rw [hz, he]
          refine ⟨[], l, _, rfl, ?_, ?_, by simpa using hr⟩
          · rw [discoverLine, if_neg hne, List.append_nil]
          · simp [hne]
        · obtain ⟨ls, l', text, a1, a2, a3, a4⟩ := i2 he
          refine ⟨l :: ls, l', discoverLine cd title np ++ text, ?_, ?_, ?_, ?_⟩
          · rw [a1]; rfl
          · rw [a2, List.append_assoc]
          · simp [a3]
          · rw [linkRun_append, hc, Option.bind_some, a4]
            simp

/-- C62 (partial: at least one resource to list, no character with a special meaning in names and values): what the
example server sends as its listing is link-format, and a client reads from it exactly the resources that have CoRE
data, each with its full path, resource type, interface description and title, in table order. -/
theorem discovery_read_partial (cd : List CoREData) (title : Int → Option (List Char)) (forest : List Tree)
    (hids : ((forestTable (-1) forest).map Entry.id).Nodup) (hnone : -1 ∉ (forestTable (-1) forest).map Entry.id)
    (hdepth : forestDepth forest ≤ 10) (hp : ∀ np ∈ forestPaths [] forest, ∀ s ∈ np.2, '>' ∉ s)
    (hcd : ∀ d ∈ cd, Plain d.rt ∧ Plain d.ifd) (ht : ∀ i t, title i = some t → Plain t)
    (hsome : (forestPaths [] forest).filterMap (coreLink cd title) ≠ []) :
    ∃ text, discover cd title (forestTable (-1) forest) = some text ∧
      readLinks text = some ((forestPaths [] forest).filterMap (coreLink cd title)) := by
  obtain ⟨ls, l, text, a1, a2, a3, a4⟩ := (linkRun_lines cd title hcd ht (forestPaths [] forest) [] hp).2 hsome
  refine ⟨text, ?_, ?_⟩
  · rw [discover, discoverLoop_forest cd title forest hids hnone hdepth, a2]
    simp
  · rw [readLinks, if_neg a3, a4, a1]
    simp

/-- C62 fails when nothing is to be listed: the length of the payload is not one. -/
theorem discovery_nothing (cd : List CoREData) (title : Int → Option (List Char)) (forest : List Tree)
    (hids : ((forestTable (-1) forest).map Entry.id).Nodup) (hnone : -1 ∉ (forestTable (-1) forest).map Entry.id)
    (hdepth : forestDepth forest ≤ 10) (hn : (forestPaths [] forest).filterMap (coreLink cd title) = []) :
    discoverLoop cd title [] (forestTable (-1) forest) = some [] ∧ discover cd title (forestTable (-1) forest) = none := by
  have h : discoverLoop cd title [] (forestTable (-1) forest) = some [] := by
    rw [discoverLoop_forest cd title forest hids hnone hdepth]
    congr 1
    rw [List.flatten_eq_nil_iff]
    intro x hx
    obtain ⟨q, hq, rfl⟩ := List.mem_map.mp hx
    rw [discoverLine, if_pos]
    rw [coreLine_none (title := title)]
    exact List.filterMap_eq_nil_iff.mp hn q hq
  exact ⟨h, by rw [discover, h]; rfl⟩

/-- C62 fails for the library's own observer: as soon as it lists a resource, the text is not link-format, because a
line end follows every link. -/
theorem core_observer_unreadable (cd : List CoREData) (forest : List Tree)
    (hids : ((forestTable (-1) forest).map Entry.id).Nodup) (hnone : -1 ∉ (forestTable (-1) forest).map Entry.id)
    (hdepth : forestDepth forest ≤ 10) (hp : ∀ np ∈ forestPaths [] forest, ∀ s ∈ np.2, '>' ∉ s)
    (hcd : ∀ d ∈ cd, Plain d.rt ∧ Plain d.ifd)
    (hsome : (forestPaths [] forest).filterMap (coreLink cd fun _ => none) ≠ []) :
    ∃ text, coreObserver cd [] (forestTable (-1) forest) = some text ∧ text ≠ [] ∧ readLinks text = none := by
  rw [coreObserver_listing, core_listing cd forest hids hnone hdepth]
  refine ⟨_, rfl, ?_⟩
  generalize forestPaths [] forest = ps at hp hsome
  induction ps with
  | nil => simp at hsome
  | cons np ps ih =>
    cases hd : cd.find? fun v => v.node == np.1 with
    | none =>
      have hl : coreLink cd (fun _ => none) np = none := by rw [coreLink, hd]; rfl
      have h0 := coreLine_none.mpr hl
      rw [List.filterMap_cons, hl] at hsome
      simp only [List.map_cons, h0, if_true, List.flatten_cons, List.nil_append]
      exact ih (fun q hq => hp q (List.mem_cons_of_mem _ hq)) hsome
    | some d =>
      have hm := hcd d (List.mem_of_find?_eq_some hd)
      obtain ⟨l, hl, hr⟩ := linkRun_link [] cd (fun _ => some "test".toList) np d hd (hp np List.mem_cons_self) hm.1 hm.2
        (by intro t ht; simp only [Option.some.injEq] at ht; subst ht; exact ⟨by decide, by decide⟩)
      have hne : coreLine cd np ≠ [] := fun h => by
        rw [coreLine_none (title := fun _ => some "test".toList)] at h; rw [hl] at h; cases h
      simp only [List.map_cons, hne, if_false, List.flatten_cons]
      refine ⟨by simp, ?_⟩
      rw [readLinks, if_neg (by simp), List.append_assoc, List.append_assoc, ← List.append_assoc _ (titleText _),
        linkRun_append]
      simp only at hr
      rw [hr]
      simp [linkRun, linkStep, linkNext]

/-- C62 fails for values with quotes, whatever the table and the titles are: a resource type can be chosen that is
listed as another resource type and an interface description, so that no client can tell the two servers apart. -/
theorem discovery_quotes_confused (node : Int) (a b : List Char) (ha : a ≠ []) (hb : b ≠ []) (cd : List CoREData)
    (title : Int → Option (List Char)) (table : List Entry) :
    discover (⟨node, a ++ "\";if=\"".toList ++ b, []⟩ :: cd) title table = discover (⟨node, a, b⟩ :: cd) title table := by
  have hev : ∀ parents e, evaluate (⟨node, a ++ "\";if=\"".toList ++ b, []⟩ :: cd) parents e =
      evaluate (⟨node, a, b⟩ :: cd) parents e := by
    intro parents e
    simp only [evaluate]
    cases parentHandler parents e with
    | none => rfl
    | some p =>
      simp only [List.find?_cons]
      cases node == e.id with
      | true => simp [CoREData.print, ha, hb]
      | false => rfl
  have hl : ∀ es parents, discoverLoop (⟨node, a ++ "\";if=\"".toList ++ b, []⟩ :: cd) title parents es =
      discoverLoop (⟨node, a, b⟩ :: cd) title parents es := by
    intro es
    induction es with
    | nil => intro _; rfl
    | cons e es ih =>
      intro parents
      rw [discoverLoop, discoverLoop, hev]
      cases evaluate (⟨node, a, b⟩ :: cd) parents e with
      | none => rfl
      | some v => simp only [ih]
  rw [discover, discover, hl]

/-! The listed paths lead back to the resources. -/

theorem firstEntry_of_mem {t : List Entry} (hu : ∀ x ∈ t, ∀ y ∈ t, x.seg = y.seg → x.parent = y.parent → x = y) {e : Entry}
    (he : e ∈ t) : FirstEntry t e.seg e.parent e := by
  have : ∀ s : List Entry, (∀ x ∈ s, x ∈ t) → e ∈ s → FirstEntry s e.seg e.parent e := by
    intro s
    induction s with
    | nil => intro _ h; simp at h
    | cons x s ih =>
      intro hs h
      by_cases hx : x.seg = e.seg ∧ x.parent = e.parent
      · have := hu x (hs x List.mem_cons_self) e he hx.1 hx.2
        subst this
        exact ⟨[], s, rfl, rfl, rfl, by simp⟩
      · have hes : e ∈ s := by
          rcases List.mem_cons.mp h with rfl | h
          · exact absurd ⟨rfl, rfl⟩ hx
          · exact h
        obtain ⟨pre, post, h1, h2, h3, h4⟩ := ih (fun y hy => hs y (List.mem_cons_of_mem _ hy)) hes
        refine ⟨x :: pre, post, by rw [h1]; rfl, h2, h3, fun y hy => ?_⟩
        rcases List.mem_cons.mp hy with rfl | hy
        · exact hx
        · exact h4 y hy
  exact this t (fun x hx => hx) he

mutual
theorem tree_path_denotes {t : List Entry} (hu : ∀ x ∈ t, ∀ y ∈ t, x.seg = y.seg → x.parent = y.parent → x = y) :
    ∀ (tr : Tree) (p : Int) (above : List (List Char)), (∀ e ∈ tr.table p, e ∈ t) → ∀ np ∈ tr.paths above,
      ∃ rest, np.2 = above ++ rest ∧ Denotes t p rest np.1
  | .node seg id children, p, above, hs, np, hnp => by
    simp only [Tree.table, Tree.paths, List.mem_cons] at hs hnp
    have hf : FirstEntry t seg p ⟨seg, id, p⟩ := firstEntry_of_mem hu (hs _ (Or.inl rfl))
    rcases hnp with rfl | hnp
    · exact ⟨[seg], rfl, .step hf (.here id)⟩
    · obtain ⟨rest, h1, h2⟩ := forest_path_denotes hu children id (above ++ [seg]) (fun e he => hs e (Or.inr he)) np hnp
      exact ⟨seg :: rest, by rw [h1]; simp, .step hf h2⟩
theorem forest_path_denotes {t : List Entry} (hu : ∀ x ∈ t, ∀ y ∈ t, x.seg = y.seg → x.parent = y.parent → x = y) :
    ∀ (ts : List Tree) (p : Int) (above : List (List Char)), (∀ e ∈ forestTable p ts, e ∈ t) → ∀ np ∈ forestPaths above ts,
      ∃ rest, np.2 = above ++ rest ∧ Denotes t p rest np.1
  | [], p, above, hs, np, hnp => by simp [forestPaths] at hnp
  | tr :: ts, p, above, hs, np, hnp => by
    simp only [forestTable, forestPaths, List.mem_append] at hs hnp
    rcases hnp with hnp | hnp
    · exact tree_path_denotes hu tr p above (fun e he => hs e (Or.inl he)) np hnp
    · exact forest_path_denotes hu ts p above (fun e he => hs e (Or.inr he)) np hnp
end

mutual
theorem tree_parents : ∀ (tr : Tree) (p : Int), ∀ e ∈ tr.table p, e.parent = p ∨ e.parent ∈ (tr.table p).map Entry.id
  | .node seg id children, p, e, he => by
    simp only [Tree.table, List.mem_cons, List.map_cons] at he ⊢
    rcases he with rfl | he
    · exact Or.inl rfl
    · rcases forest_parents children id e he with h | h
      · exact Or.inr (Or.inl h)
      · exact Or.inr (Or.inr h)
theorem forest_parents : ∀ (ts : List Tree) (p : Int), ∀ e ∈ forestTable p ts, e.parent = p ∨ e.parent ∈ (forestTable p ts).map Entry.id
  | [], p, e, he => by simp [forestTable] at he
  | tr :: ts, p, e, he => by
    simp only [forestTable, List.mem_append, List.map_append] at he ⊢
    rcases he with he | he
    · rcases tree_parents tr p e he with h | h
      · exact Or.inl h
      · exact Or.inr (Or.inl h)
    · rcases forest_parents ts p e he with h | h
      · exact Or.inl h
      · exact Or.inr (Or.inr h)
end

theorem parentsFirst_append {a b : List Entry} (ha : ParentsFirst a) (hb : ParentsFirst b)
    (h : ∀ x ∈ a, ∀ y ∈ b, x.parent ≠ y.id) : ParentsFirst (a ++ b) := by
  intro pre e post he x hx
  rcases List.append_eq_append_iff.mp he with ⟨c, h1, h2⟩ | ⟨c, h1, h2⟩
  · subst h1
    rcases List.mem_append.mp hx with hx | hx
    · rcases List.mem_append.mp hx with hx | hx
      · exact h x hx e (by rw [h2]; simp)
      · exact hb c e post h2 x (by simp [hx])
    · exact hb c e post h2 x (List.mem_append_right _ hx)
  · cases c with
    | nil =>
      simp only [List.append_nil, List.nil_append] at h1 h2
      rcases List.mem_append.mp hx with hx | hx
      · exact h x (by rw [h1]; exact hx) e (by rw [← h2]; simp)
      · exact hb [] e post h2.symm x hx
    | cons z c =>
      simp only [List.cons_append, List.cons.injEq] at h2
      obtain ⟨rfl, -⟩ := h2
      exact ha pre e c h1 x hx

mutual
theorem tree_parentsFirst : ∀ (tr : Tree) (p : Int), (p :: (tr.table p).map Entry.id).Nodup → ParentsFirst (tr.table p)
  | .node seg id children, p, hn => by
    simp only [Tree.table, List.map_cons] at hn ⊢
    obtain ⟨h1, h2⟩ := List.nodup_cons.mp hn
    refine parentsFirst_cons (fun h => h1 (by simp at h; simp [h])) (fun x hx h => h1 ?_) (forest_parentsFirst children id h2)
    simp only at h
    exact List.mem_cons_of_mem _ (List.mem_map.mpr ⟨x, hx, h.symm⟩)
theorem forest_parentsFirst : ∀ (ts : List Tree) (p : Int), (p :: (forestTable p ts).map Entry.id).Nodup → ParentsFirst (forestTable p ts)
  | [], p, _ => parentsFirst_nil
  | tr :: ts, p, hn => by
    simp only [forestTable, List.map_append] at hn ⊢
    obtain ⟨h1, h2⟩ := List.nodup_cons.mp hn
    obtain ⟨h3, h4, h5⟩ := List.nodup_append.mp h2
    refine parentsFirst_append (tree_parentsFirst tr p (List.nodup_cons.mpr ⟨fun h => h1 (List.mem_append_left _ h), h3⟩))
      (forest_parentsFirst ts p (List.nodup_cons.mpr ⟨fun h => h1 (List.mem_append_right _ h), h4⟩)) fun x hx y hy h => ?_
    have hym : y.id ∈ (forestTable p ts).map Entry.id := List.mem_map.mpr ⟨y, hy, rfl⟩
    rcases tree_parents tr p x hx with hp | hp
    · exact h1 (List.mem_append_right _ ((hp.symm.trans h) ▸ hym))
    · exact h5 _ hp _ hym h
end

/-- The path in a link target: what stands between the slashes. -/
theorem target_inj : ∀ (p q : List (List Char)), (∀ s ∈ p, '/' ∉ s) → (∀ s ∈ q, '/' ∉ s) →
    (p.map fun s => '/' :: s).flatten = (q.map fun s => '/' :: s).flatten → p = q := by
  have key : ∀ (s t : List Char) (x y : List Char), '/' ∉ s → '/' ∉ t → (x = [] ∨ ∃ x', x = '/' :: x') → (y = [] ∨ ∃ y', y = '/' :: y') →
      s ++ x = t ++ y → s = t ∧ x = y := by
    intro s
    induction s with
    | nil =>
      intro t x y hs ht hx hy h
      cases t with
      | nil => exact ⟨rfl, h⟩
      | cons c t =>
        rcases hx with rfl | ⟨x', rfl⟩
        · simp at h
        · simp only [List.nil_append, List.cons_append, List.cons.injEq] at h
          exact absurd (h.1 ▸ List.mem_cons_self) ht
    | cons c s ih =>
      intro t x y hs ht hx hy h
      cases t with
      | nil =>
        rcases hy with rfl | ⟨y', rfl⟩
        · simp at h
        · simp only [List.nil_append, List.cons_append, List.cons.injEq] at h
          exact absurd (by simp [h.1]) hs
      | cons d t =>
        simp only [List.cons_append, List.cons.injEq] at h
        obtain ⟨e1, e2⟩ := ih t x y (fun h' => hs (List.mem_cons_of_mem _ h')) (fun h' => ht (List.mem_cons_of_mem _ h')) hx hy h.2
        exact ⟨by rw [h.1, e1], e2⟩
  have hform : ∀ p : List (List Char), (p.map fun s => '/' :: s).flatten = [] ∨ ∃ x, (p.map fun s => '/' :: s).flatten = '/' :: x := by
    intro p; cases p with
    | nil => exact Or.inl rfl
    | cons s p => exact Or.inr ⟨_, rfl⟩
  intro p
  induction p with
  | nil => intro q _ _ h; cases q <;> simp_all
  | cons s p ih =>
    intro q hp hq h
    cases q with
    | nil => simp at h
    | cons t q =>
      simp only [List.map_cons, List.flatten_cons, List.cons_append, List.cons.injEq, true_and] at h
      obtain ⟨e1, e2⟩ := key s t _ _ (hp s List.mem_cons_self) (hq t List.mem_cons_self) (hform p) (hform q) h
      rw [e1, ih q (fun x hx => hp x (List.mem_cons_of_mem _ hx)) (fun x hx => hq x (List.mem_cons_of_mem _ hx)) e2]

/-- C62: what a client reads in the listing it can use.  If siblings have different names and names have no slash, then
for every link read there is exactly one path it spells, and a request for that path leads the server to a node that
has CoRE data, which is the node with those attributes. -/
theorem listed_path_leads_back (cd : List CoREData) (title : Int → Option (List Char)) (forest : List Tree)
    (hids : ((forestTable (-1) forest).map Entry.id).Nodup) (hnone : -1 ∉ (forestTable (-1) forest).map Entry.id)
    (hu : ∀ x ∈ forestTable (-1) forest, ∀ y ∈ forestTable (-1) forest, x.seg = y.seg → x.parent = y.parent → x = y)
    (hsl : ∀ np ∈ forestPaths [] forest, ∀ s ∈ np.2, '/' ∉ s)
    (l : Link) (hl : l ∈ (forestPaths [] forest).filterMap (coreLink cd title)) (path : List (List Char))
    (hpath : (path.map fun s => '/' :: s).flatten = l.target) (hps : ∀ s ∈ path, '/' ∉ s) :
    coreLink cd title (((Matcher.init (forestTable (-1) forest)).feed path).lastFound, path) = some l := by
  obtain ⟨np, hnp, hc⟩ := List.mem_filterMap.mp hl
  have htgt : l.target = (np.2.map fun s => '/' :: s).flatten := by
    rw [coreLink] at hc
    cases hd : cd.find? fun v => v.node == np.1 with
    | none => rw [hd] at hc; simp at hc
    | some d => rw [hd] at hc; simp only [Option.map_some, Option.some.injEq] at hc; rw [← hc]
  have hpe : path = np.2 := target_inj _ _ hps (hsl np hnp) (by rw [hpath, htgt])
  subst hpe
  obtain ⟨rest, h1, h2⟩ := forest_path_denotes hu forest (-1) [] (fun e he => he) np hnp
  rw [List.nil_append] at h1
  rw [uri_path_found (forest_parentsFirst forest (-1) (List.nodup_cons.mpr ⟨hnone, hids⟩)) (h1 ▸ h2)]
  exact hc

/-- CoRE data and a title for the sample table. -/
def coreSample : List CoREData := [⟨1, "temp-c".toList, "sensor".toList⟩, ⟨4, "t".toList, []⟩]
/-- A title for node 4. -/
def titleSample (i : Int) : Option (List Char) := if i = 4 then some "inside".toList else none

example : discover coreSample titleSample uriSample =
    some "</sensor/temp>;rt=\"temp-c\";if=\"sensor\",</v1/temp>;rt=\"t\";title=\"inside\"".toList := by decide +kernel
example : readLinks "</sensor/temp>;rt=\"temp-c\";if=\"sensor\",</v1/temp>;rt=\"t\";title=\"inside\"".toList =
    some [⟨"/sensor/temp".toList, [("rt".toList, "temp-c".toList), ("if".toList, "sensor".toList)]⟩,
      ⟨"/v1/temp".toList, [("rt".toList, "t".toList), ("title".toList, "inside".toList)]⟩] := by decide +kernel
example : (∀ np ∈ forestPaths [] uriForest, ∀ s ∈ np.2, '>' ∉ s ∧ '/' ∉ s) ∧
    (forestPaths [] uriForest).filterMap (coreLink coreSample titleSample) ≠ [] := by decide +kernel
example : coreObserver coreSample [] uriSample = some
    "</sensor/temp>;rt=\"temp-c\";if=\"sensor\";title=\"test\"\n</v1/temp>;rt=\"t\";title=\"test\"\n".toList := by decide +kernel

end Verif.Props
