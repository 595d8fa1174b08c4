import Verif.Props.Dtls
import Verif.Spec.DtlsRestart

/-! # C75: the daemon starts anew exactly after a failure -/
namespace Verif.Props
open Verif.Model Verif.Spec

/-- The last call, if there is one, has failed for good exactly if `bad`. -/
def EndsBad (tr : TlsTrace) (bad : Prop) : Prop := ∀ before x, tr = before ++ [x] → (failedForGood x ↔ bad)

theorem right_snoc {tr : TlsTrace} {y : TlsCall × TlsAnswer} (h : ShutDownRight tr) (he : EndsBad tr (y.1 = .shutdown)) :
    ShutDownRight (tr ++ [y]) := by
  intro before x z after e
  rcases List.eq_nil_or_concat after with rfl | ⟨after', w, rfl⟩
  · have : tr ++ [y] = (before ++ [x]) ++ [z] := by simpa using e
    obtain ⟨h1, h2⟩ := List.append_inj' this rfl
    simp only [List.cons.injEq, and_true] at h2
    subst h2
    exact (he before x h1).symm
  · have : tr ++ [y] = (before ++ x :: z :: after') ++ [w] := by simpa using e
    obtain ⟨h1, -⟩ := List.append_inj' this rfl
    exact h before x z after' h1

theorem endsBad_snoc (tr : TlsTrace) (y : TlsCall × TlsAnswer) : EndsBad (tr ++ [y]) (failedForGood y) := by
  intro before x e
  obtain ⟨-, h2⟩ := List.append_inj' e rfl
  simp only [List.cons.injEq, and_true] at h2
  rw [h2]

/-- Calls that went well. -/
def Fine (l : TlsTrace) : Prop := ∀ p ∈ l, p.1 ≠ .shutdown ∧ ¬failedForGood p

theorem right_fine : ∀ (l : TlsTrace) {tr : TlsTrace}, ShutDownRight tr → EndsBad tr False → Fine l →
    ShutDownRight (tr ++ l) ∧ EndsBad (tr ++ l) False
  | [], tr, h, he, _ => by simpa using ⟨h, he⟩
  | p :: l, tr, h, he, hf => by
    obtain ⟨h1, h2⟩ := hf p (by simp)
    have := right_fine l (tr := tr ++ [p]) (right_snoc h (by simpa [h1] using he)) (by simpa [h2] using endsBad_snoc tr p)
      (fun q hq => hf q (by simp [hq]))
    simpa using this

/-- A stretch of calls of which only the last may have failed. -/
def Stretch (l : TlsTrace) (bad : Prop) : Prop :=
  ∃ l0 p, l = l0 ++ [p] ∧ Fine l0 ∧ p.1 ≠ .shutdown ∧ (failedForGood p ↔ bad)

theorem right_stretch {tr l : TlsTrace} {bad : Prop} (h : ShutDownRight tr) (he : EndsBad tr False) (hl : Stretch l bad) :
    ShutDownRight (tr ++ l) ∧ EndsBad (tr ++ l) bad := by
  obtain ⟨l0, p, rfl, hf, h1, h2⟩ := hl
  obtain ⟨g1, g2⟩ := right_fine l0 h he hf
  rw [← List.append_assoc]
  refine ⟨right_snoc g1 (by simpa [h1] using g2), ?_⟩
  have := endsBad_snoc (tr ++ l0) p
  intro before x e
  rw [this before x e]; exact h2

theorem right_shutdown {tr : TlsTrace} (h : ShutDownRight tr) (he : EndsBad tr True) (a : TlsAnswer) :
    ShutDownRight (tr ++ [(.shutdown, a)]) ∧ EndsBad (tr ++ [(.shutdown, a)]) False :=
  ⟨right_snoc h (by simpa using he), by simpa [failedForGood] using endsBad_snoc tr (TlsCall.shutdown, a)⟩

theorem stretch_after {l l' : TlsTrace} {bad : Prop} (h : Fine l) (h' : Stretch l' bad) : Stretch (l ++ l') bad := by
  obtain ⟨l0, p, rfl, hf, h1, h2⟩ := h'
  refine ⟨l ++ l0, p, by simp, ?_, h1, h2⟩
  intro q hq
  rcases List.mem_append.1 hq with hq | hq
  · exact h q hq
  · exact hf q hq

theorem fine_of_stretch {l : TlsTrace} (h : Stretch l False) : Fine l := by
  obtain ⟨l0, p, rfl, hf, h1, h2⟩ := h
  intro q hq
  rcases List.mem_append.1 hq with hq | hq
  · exact hf q hq
  · simp only [List.mem_singleton] at hq; subst hq; exact ⟨h1, h2.1⟩

theorem fine_append {l l' : TlsTrace} (h : Fine l) (h' : Fine l') : Fine (l ++ l') := by
  intro q hq
  rcases List.mem_append.1 hq with hq | hq
  · exact h q hq
  · exact h' q hq

theorem repeated_stretch {again : Int → Bool} {c : TlsCall} {a : TlsAnswer} {l : TlsTrace} (h : Repeated again c a l) (hc : c ≠ .shutdown)
    (hw : ∀ x : TlsAnswer, again x.code = true → ¬failedForGood (c, x)) : Stretch l (failedForGood (c, a)) := by
  obtain ⟨mid, rfl, h2, -⟩ := h
  refine ⟨mid, (c, a), rfl, fun p hp => ?_, hc, Iff.rfl⟩
  obtain ⟨h3, h4⟩ := h2 p hp
  obtain ⟨c', x⟩ := p
  subst h3
  exact ⟨hc, hw x h4⟩

theorem handshake_not_over (x : TlsAnswer) (h : wantsMore x.code = true) : ¬failedForGood (.handshake, x) := by
  simp only [wantsMore, Bool.or_eq_true, beq_iff_eq] at h
  simp only [failedForGood]; rcases h with h | h <;> simp [h]

theorem read_not_over (n : Nat) (x : TlsAnswer) (h : wantsMore x.code = true) : ¬failedForGood (.read n, x) := by
  simp only [wantsMore, Bool.or_eq_true, beq_iff_eq] at h
  simp only [failedForGood]; rcases h with h | h <;> simp [h]

theorem write_not_over (d : List UInt8) (x : TlsAnswer) (h : wantsMore x.code = true) : ¬failedForGood (.write d, x) := by
  simp only [wantsMore, Bool.or_eq_true, beq_iff_eq] at h
  simp only [failedForGood]; rcases h with h | h <;> simp [h]

theorem closing_fine {a : TlsAnswer} {l : TlsTrace} {again : Int → Bool} (h : Repeated again .closeNotify a l) : Stretch l False := by
  simpa [failedForGood] using repeated_stretch h (by simp) (fun x _ => by simp [failedForGood])

theorem repeated_end {again : Int → Bool} {c : TlsCall} {a : TlsAnswer} {l : TlsTrace} (h : Repeated again c a l) : again a.code = false := by
  obtain ⟨mid, -, -, h3⟩ := h
  simpa using h3

theorem wants_not {x : TlsAnswer} (h : wantsMore x.code = false) : x.code ≠ sslWantRead ∧ x.code ≠ sslWantWrite := by
  simpa [wantsMore] using h

theorem stretch_congr {l : TlsTrace} {p q : Prop} (h : Stretch l p) (e : p ↔ q) : Stretch l q := by
  obtain ⟨l0, x, h1, h2, h3, h4⟩ := h
  exact ⟨l0, x, h1, h2, h3, h4.trans e⟩

theorem served_stretch {L : TlsLib} {l : TlsTrace} {b : Bool} {ret : Int} (h : DtlsServed L l b ret) : Stretch l (b = false ∨ ret ≠ 0) := by
  cases h with
  | failed _ a hr _ hle hpc =>
    obtain ⟨w1, w2⟩ := wants_not (repeated_end hr)
    refine stretch_congr (repeated_stretch hr (by simp) (read_not_over _)) ?_
    simp only [failedForGood, Bool.true_eq_false, false_or]
    exact ⟨fun h => by omega, fun h => ⟨by omega, w1, w2, hpc⟩⟩
  | closed r a cl x hr _ hpc hc =>
    refine stretch_after (fine_of_stretch (stretch_congr (repeated_stretch hr (by simp) (read_not_over _)) ?_))
      (stretch_congr (closing_fine hc) (by simp))
    simp [failedForGood, hpc]
  | broken r a w b hr _ hpos hw _ hneg =>
    obtain ⟨w1, w2⟩ := wants_not (repeated_end hw)
    refine stretch_after (fine_of_stretch (stretch_congr (repeated_stretch hr (by simp) (read_not_over _)) ?_))
      (stretch_congr (repeated_stretch hw (by simp) (write_not_over _)) ?_)
    · simp only [failedForGood, iff_false]; omega
    · simp [failedForGood, w1, w2, hneg]
  | echoed r a w b cl x hr _ hpos hw _ hneg hc =>
    refine stretch_after (fine_append
      (fine_of_stretch (stretch_congr (repeated_stretch hr (by simp) (read_not_over _)) ?_))
      (fine_of_stretch (stretch_congr (repeated_stretch hw (by simp) (write_not_over _)) ?_)))
      (stretch_congr (closing_fine hc) (by simp))
    · simp only [failedForGood, iff_false]; omega
    · simp only [failedForGood, iff_false]; omega

theorem four_fine {f s a i : TlsAnswer} (ha : a.code = 0) (hi : i.code = 0) :
    Fine [(.freeClient, f), (.sessionReset, s), (.accept, a), (.transportId, i)] := by
  intro p hp
  simp only [List.mem_cons, List.not_mem_nil, or_false] at hp
  rcases hp with rfl | rfl | rfl | rfl <;> simp [failedForGood, ha, hi]

theorem round_stretch {L : TlsLib} {l : TlsTrace} {b : Bool} {ret : Int} (h : DtlsRound L l b ret) : Stretch l (b = false ∨ ret ≠ 0) := by
  cases h with
  | accept f s a ha =>
    refine ⟨[(.freeClient, f), (.sessionReset, s)], (.accept, a), rfl, ?_, by simp, by simp [failedForGood, ha]⟩
    intro p hp
    simp only [List.mem_cons, List.not_mem_nil, or_false] at hp
    rcases hp with rfl | rfl <;> simp [failedForGood]
  | ident f s a i ha hi =>
    refine ⟨[(.freeClient, f), (.sessionReset, s), (.accept, a)], (.transportId, i), rfl, ?_, by simp, by simp [failedForGood, hi]⟩
    intro p hp
    simp only [List.mem_cons, List.not_mem_nil, or_false] at hp
    rcases hp with rfl | rfl | rfl <;> simp [failedForGood, ha]
  | hello f s a i x hs ha hi hr hv =>
    refine stretch_after (four_fine ha hi) (stretch_congr (repeated_stretch hr (by simp) handshake_not_over) ?_)
    simp [failedForGood, hv]
  | refused f s a i x hs ha hi hr hv hne =>
    obtain ⟨w1, w2⟩ := wants_not (repeated_end hr)
    refine stretch_after (four_fine ha hi) (stretch_congr (repeated_stretch hr (by simp) handshake_not_over) ?_)
    simp [failedForGood, hv, hne, w1, w2]
  | served f s a i x hs l b ret ha hi hr hx hl =>
    refine stretch_after (fine_append (four_fine ha hi)
      (fine_of_stretch (stretch_congr (repeated_stretch hr (by simp) handshake_not_over) ?_))) (served_stretch hl)
    simp [failedForGood, hx]

theorem setupCalls_failed {c : TlsCall} (hc : c ∈ setupCalls) (a : TlsAnswer) :
    c ≠ .shutdown ∧ (failedForGood (c, a) ↔ a.code ≠ 0) := by
  simp only [setupCalls, List.mem_cons, List.not_mem_nil, or_false] at hc
  rcases hc with rfl | rfl | rfl | rfl | rfl | rfl | rfl | rfl | rfl | rfl <;> simp [failedForGood]

theorem setup_stretch (L : TlsLib) (tr : TlsTrace) : ∃ l, (dtlsSetup L tr).1 = tr ++ l ∧ Stretch l ((dtlsSetup L tr).2 ≠ 0) := by
  obtain ⟨l, h1, h2⟩ := dtls_setup L tr
  have hno := setup_no_accept h1
  have hok : ∀ l' : TlsTrace, (∀ p ∈ l', p ∈ l) → (∀ p ∈ l', p.2.code = 0) → Fine l' := by
    intro l' hs h0 p hp
    obtain ⟨g1, g2⟩ := setupCalls_failed (hno p (hs p hp)) p.2
    exact ⟨g1, fun hc => g2.1 hc (h0 p hp)⟩
  refine ⟨l, h1, ?_⟩
  rcases h2 with ⟨h3, h4, h5⟩ | ⟨before, c, a, after, h3, h4, h5, h6, h7⟩
  · have hl : l ≠ [] := by rintro rfl; simp [setupCalls] at h4
    have hlast := List.dropLast_concat_getLast hl
    refine ⟨l.dropLast, l.getLast hl, hlast.symm, hok _ (fun p hp => List.dropLast_subset _ hp)
      (fun p hp => h5 p (List.dropLast_subset _ hp)), ?_⟩
    obtain ⟨g1, g2⟩ := setupCalls_failed (hno _ (List.getLast_mem hl)) (l.getLast hl).2
    refine ⟨g1, g2.trans ?_⟩
    simp [h3, h5 _ (List.getLast_mem hl)]
  · subst h3
    refine ⟨before, (c, a), rfl, hok _ (fun p hp => by simp [hp]) h5, ?_⟩
    obtain ⟨g1, g2⟩ := setupCalls_failed (hno (c, a) (by simp)) a
    exact ⟨g1, by rw [h7]; exact g2⟩

theorem daemon_restarts (L : TlsLib) (fuel : Nat) : ∀ (rounds : Nat) (tr : TlsTrace) (ret : Int) (tr' : TlsTrace) (ret' : Int),
    ShutDownRight tr → EndsBad tr (ret ≠ 0) → dtlsDaemonLoop L fuel rounds tr ret = some (tr', ret') →
    ShutDownRight tr' ∧ EndsBad tr' True
  | 0, _, _, _, _, _, _, h => by simp [dtlsDaemonLoop] at h
  | rounds + 1, tr, ret, tr', ret', hR, hE, h => by
    simp only [dtlsDaemonLoop] at h
    split at h
    · rename_i hne
      simp only [Option.some.injEq, Prod.mk.injEq] at h
      obtain ⟨rfl, rfl⟩ := h
      exact ⟨hR, by simpa [hne] using hE⟩
    · rename_i hz
      have hz : ret = 0 := by simpa using hz
      split at h
      · exact absurd h (by simp)
      · rename_i t1 cont r1 hr
        obtain ⟨l, rfl, hl⟩ := dtlsLoop_spec hr
        obtain ⟨g1, g2⟩ := right_stretch hR (by simpa [hz] using hE) (round_stretch hl)
        split at h
        · rename_i hc
          simp only [Bool.or_eq_true, Bool.not_eq_true', bne_iff_ne] at hc
          obtain ⟨sh, hsh⟩ := tlsCall_eq L .shutdown (tr ++ l)
          simp only [hsh] at h
          obtain ⟨k1, k2⟩ := right_shutdown g1 (by simpa [hc] using g2) sh
          obtain ⟨l2, h1, h2⟩ := setup_stretch L (tr ++ l ++ [(.shutdown, sh)])
          obtain ⟨m1, m2⟩ := right_stretch k1 k2 h2
          exact daemon_restarts L fuel rounds _ _ _ _ (h1 ▸ m1) (h1 ▸ m2) h
        · rename_i hc
          simp only [Bool.or_eq_true, Bool.not_eq_true', bne_iff_ne] at hc
          have hz1 : r1 = 0 := by
            refine Classical.byContradiction fun hn => hc (.inr hn)
          refine daemon_restarts L fuel rounds _ _ _ _ g1 ?_ h
          simp only [hc] at g2
          simpa [hz1] using g2

/-- C75 (the server keeps going): over the whole life of the daemon, whatever the library answers, the server is shut down - and, unless
that was a setup, set up anew - directly after a call that failed for good, and never while all goes well. -/
theorem dtls_daemon_restarts (L : TlsLib) (fuel rounds : Nat) (tr : TlsTrace) (ret : Int) (h : dtlsDaemon L fuel rounds = some (tr, ret)) :
    ShutDownRight tr := by
  simp only [dtlsDaemon] at h
  split at h
  · exact absurd h (by simp)
  · rename_i t1 r1 hd
    simp only [Option.some.injEq, Prod.mk.injEq] at h
    obtain ⟨rfl, rfl⟩ := h
    obtain ⟨l, h1, h2⟩ := setup_stretch L []
    obtain ⟨m1, m2⟩ := right_stretch (tr := []) (fun before x y after e => by simp at e) (fun before x e => by simp at e) h2
    obtain ⟨k1, k2⟩ := daemon_restarts L fuel rounds _ _ _ _ (h1 ▸ m1) (h1 ▸ m2) hd
    obtain ⟨sh, hsh⟩ := tlsCall_eq L .shutdown t1
    rw [hsh]
    exact (right_shutdown k1 k2 sh).1

/-- The first client is served, the second one is not accepted, and setting up again fails: one shutdown after each of the two. -/
def demoRestart : TlsLib := fun tr c => match c with
  | .accept => if tr.any (fun p => p.1 == .accept) then ⟨-1, []⟩ else ⟨0, []⟩
  | .bind => if tr.any (fun p => p.1 == .shutdown) then ⟨-2, []⟩ else ⟨0, []⟩
  | .read _ => ⟨1, [65]⟩
  | _ => ⟨0, []⟩
example : (dtlsDaemon demoRestart 5 5).map (fun r => ((r.1.map Prod.fst).drop 10, r.2)) =
    some ([.freeClient, .sessionReset, .accept, .transportId, .handshake, .read 8191, .write [65], .closeNotify,
      .freeClient, .sessionReset, .accept, .shutdown, .crtServer, .crtAuthority, .crtAuthority, .keyParse, .bind, .shutdown], -2) := by
  decide +kernel

end Verif.Props
