import Verif.Props.Core
import Verif.Props.Echo

/-! # C62: from the listing to the answer -/
namespace Verif.Props
open Verif.Model Verif.Model.Uri Verif.Spec Verif.Proofs

mutual
theorem tree_path_listed : ∀ (tr : Tree) (p : Int) (above : List (List Char)), ∀ np ∈ tr.paths above, np.1 ∈ (tr.table p).map Entry.id
  | .node seg id children, p, above, np, hnp => by
    simp only [Tree.paths, Tree.table, List.mem_cons, List.map_cons] at hnp ⊢
    rcases hnp with rfl | hnp
    · exact Or.inl rfl
    · exact Or.inr (forest_path_listed children id _ np hnp)
theorem forest_path_listed : ∀ (ts : List Tree) (p : Int) (above : List (List Char)), ∀ np ∈ forestPaths above ts,
    np.1 ∈ (forestTable p ts).map Entry.id
  | [], p, above, np, hnp => by simp [forestPaths] at hnp
  | tr :: ts, p, above, np, hnp => by
    simp only [forestPaths, forestTable, List.mem_append, List.map_append] at hnp ⊢
    rcases hnp with hnp | hnp
    · exact Or.inl (tree_path_listed tr p above np hnp)
    · exact Or.inr (forest_path_listed ts p above np hnp)
end

/-- A GET request for a path. -/
def pathRequest (mid : Nat) (token : List UInt8) (path : List (List Char)) : Msg :=
  ⟨1, 0, 1, mid, token, path.map fun s => ⟨11, s.map fun c => UInt8.ofNat c.toNat⟩, none⟩

theorem pathRequest_ok (mid : Nat) (token : List UInt8) (path : List (List Char)) (hm : mid < 65536) (ht : token.length ≤ 8)
    (hp : ∀ s ∈ path, s.length < 65536) : (pathRequest mid token path).Ok := by
  refine ⟨by simp [pathRequest], by simp [pathRequest], by simp [pathRequest], hm, ht, ?_, by simp [pathRequest]⟩
  have : ∀ prev, prev ≤ 11 → OptsOk prev (path.map fun s => (⟨11, s.map fun c => UInt8.ofNat c.toNat⟩ : Opt)) := by
    induction path with
    | nil => intro _ _; trivial
    | cons s path ih =>
      intro prev hprev
      exact ⟨hprev, by simp, by simpa using hp s (by simp), ih (fun x hx => hp x (List.mem_cons_of_mem _ hx)) 11 (Nat.le_refl _)⟩
  exact this 0 (by omega)

theorem pathRequest_path (mid : Nat) (token : List UInt8) (path : List (List Char)) (hp : ∀ s ∈ path, ∀ c ∈ s, c.toNat < 256) :
    uriPath (pathRequest mid token path) = path := by
  simp only [uriPath, pathRequest]
  induction path with
  | nil => rfl
  | cons s path ih =>
    have hs : (s.map fun c => UInt8.ofNat c.toNat).map (fun b => Char.ofNat b.toNat) = s := by
      rw [List.map_map]
      refine (List.map_congr_left fun c hc => ?_).trans (List.map_id _)
      have := hp s (by simp) c hc
      simp only [Function.comp_apply, UInt8.toNat_ofNat', Nat.reducePow, Nat.mod_eq_of_lt this, Char.ofNat_toNat, id_eq]
    have := ih (fun x hx => hp x (List.mem_cons_of_mem _ hx))
    simp only [List.map_cons, List.filter_cons, decide_true, if_true, hs, this]

/-- C62 (partial: names of single-byte characters without slash, `>` and, in attributes, quotes; siblings named apart; at most
ten levels), from one end to the other: the listing that the example server sends can be read, and for every link in it a
GET request for the path that the link spells, sent to a server that serves the node, is answered with 2.05 and the text of the
node — and with 4.04 by a server, on the same paths, of any other node. -/
theorem listed_resource_answered_partial (cd : List CoREData) (title : Int → Option (List Char)) (forest : List Tree)
    (hids : ((forestTable (-1) forest).map Entry.id).Nodup) (hnone : -1 ∉ (forestTable (-1) forest).map Entry.id)
    (hu : ∀ x ∈ forestTable (-1) forest, ∀ y ∈ forestTable (-1) forest, x.seg = y.seg → x.parent = y.parent → x = y)
    (hdepth : forestDepth forest ≤ 10)
    (hp : ∀ np ∈ forestPaths [] forest, ∀ s ∈ np.2, '>' ∉ s ∧ '/' ∉ s ∧ s.length < 65536 ∧ ∀ c ∈ s, c.toNat < 256)
    (hcd : ∀ d ∈ cd, Verif.Spec.Plain d.rt ∧ Verif.Spec.Plain d.ifd) (ht : ∀ i t, title i = some t → Verif.Spec.Plain t)
    (hsome : (forestPaths [] forest).filterMap (coreLink cd title) ≠ []) :
    ∃ listing links, discover cd title (forestTable (-1) forest) = some listing ∧ readLinks listing = some links ∧ links ≠ [] ∧
      ∀ l ∈ links, ∃ id path, coreLink cd title (id, path) = some l ∧
        (∀ path', (path'.map fun s => '/' :: s).flatten = l.target → (∀ s ∈ path', '/' ∉ s) → path' = path) ∧
        ∀ (mid : Nat) (token : List UInt8), mid < 65536 → token.length ≤ 8 →
        ∀ (k : SbKind), EndOk k (pathRequest mid token path) →
          (k.charSigned = true → ∀ b ∈ encHeader (pathRequest mid token path) ++ token, b ≠ 0xFF) →
        ∀ (junk : Dec), junk.tbuf.length = 8 → ∀ (text : List UInt8) (cap : Nat), 6 + token.length + text.length ≤ cap →
        ∀ (jt : List UInt8), jt.length = 8 → ∀ (jv : List UInt8) (other : Int), other ≠ id → other ≠ -1 →
        ∃ N, ∀ fuel, N ≤ fuel →
          serveWith (SCtx.boilerEvent cap id text jv) k (forestTable (-1) forest) junk jt fuel ⟨encMsg (pathRequest mid token path), []⟩ =
            .ok [encMsg (textReply (pathRequest mid token path) text)] ∧
          serveWith (SCtx.boilerEvent cap other text jv) k (forestTable (-1) forest) junk jt fuel ⟨encMsg (pathRequest mid token path), []⟩ =
            .ok [encMsg (replyTo (pathRequest mid token path) 0x84)] := by
  obtain ⟨listing, h1, h2⟩ := discovery_read_partial cd title forest hids hnone hdepth (fun np hnp s hs => (hp np hnp s hs).1) hcd ht hsome
  have hpf := forest_parentsFirst forest (-1) (List.nodup_cons.mpr ⟨hnone, hids⟩)
  refine ⟨listing, _, h1, h2, hsome, fun l hl => ?_⟩
  obtain ⟨np, hnp, hc⟩ := List.mem_filterMap.mp hl
  have htgt : l.target = (np.2.map fun s => '/' :: s).flatten := by
    rw [coreLink] at hc
    cases hd : cd.find? fun v => v.node == np.1 with
    | none => rw [hd] at hc; simp at hc
    | some d => rw [hd] at hc; simp only [Option.map_some, Option.some.injEq] at hc; rw [← hc]
  obtain ⟨rest, g1, g2⟩ := forest_path_denotes hu forest (-1) [] (fun e he => he) np hnp
  rw [List.nil_append] at g1
  rw [← g1] at g2
  have hid : np.1 ≠ -1 := fun h => hnone (h ▸ forest_path_listed forest (-1) [] np hnp)
  refine ⟨np.1, np.2, hc, fun path' hpath hps => target_inj _ _ hps (fun s hs => (hp np hnp s hs).2.1) (by rw [hpath, htgt]), ?_⟩
  intro mid token hmid htok k hk hchar junk hj text cap hcap jt hjt jv other ho ho1
  have hok := pathRequest_ok mid token np.2 hmid htok (fun s hs => (hp np hnp s hs).2.2.1)
  have hpath := pathRequest_path mid token np.2 (fun s hs => (hp np hnp s hs).2.2.2)
  have hne : (pathRequest mid token np.2).opts ≠ [] := by
    intro h
    have : np.2 = [] := by simpa [pathRequest] using h
    rw [this] at g2
    generalize hq : np.1 = q at g2
    cases g2
    exact hid hq
  obtain ⟨N, hN⟩ := boilerplate_partial k _ hk hok junk hj (.inr (.inr (.inl hne))) hchar text cap hcap hpf hid jt hjt jv
  obtain ⟨N', hN'⟩ := boilerplate_partial k _ hk hok junk hj (.inr (.inr (.inl hne))) hchar text cap hcap hpf ho1 jt hjt jv
  refine ⟨max N N', fun fuel hf => ⟨(hN fuel (by omega)).1 (by rw [hpath]; exact g2), (hN' fuel (by omega)).2 ?_⟩⟩
  rw [hpath]
  intro hd
  exact ho ((uri_path_found hpf hd).symm.trans (uri_path_found hpf g2))

-- the sample table of C45 meets the hypotheses
example := listed_resource_answered_partial coreSample titleSample uriForest (by decide +kernel) (by decide +kernel) (by decide +kernel) (by decide +kernel)
  (by decide +kernel) (by simp only [Verif.Spec.Plain]; decide +kernel)
  (fun i t h => by
    simp only [titleSample] at h
    split at h
    · cases h; simp only [Verif.Spec.Plain]; decide
    · cases h) (by decide +kernel)
example : pathRequest 7 [9] ["v1".toList, "temp".toList] = ⟨1, 0, 1, 7, [9], [⟨11, [0x76, 0x31]⟩, ⟨11, [0x74, 0x65, 0x6D, 0x70]⟩], none⟩ := by decide

end Verif.Props
