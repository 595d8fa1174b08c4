import Verif.Model.Dtls
import Verif.Spec.Dtls

/-!
# C75, C76: the DTLS servers, for every behaviour of the TLS library
-/
namespace Verif.Props
open Verif.Model Verif.Spec

/-- `l` is a call `c` repeated as long as the answer says so, the last answer being `a`. -/
def Repeated (again : Int → Bool) (c : TlsCall) (a : TlsAnswer) (l : TlsTrace) : Prop :=
  ∃ mid, l = mid ++ [(c, a)] ∧ (∀ p ∈ mid, p.1 = c ∧ again p.2.code = true) ∧ again a.code = false

theorem tlsCall_eq (L : TlsLib) (c : TlsCall) (tr : TlsTrace) : ∃ a, tlsCall L c tr = (tr ++ [(c, a)], a) := ⟨_, rfl⟩

theorem tlsSpin_spec {L : TlsLib} {again : Int → Bool} {c : TlsCall} :
    ∀ {fuel tr tr' a}, tlsSpin L again c fuel tr = some (tr', a) →
      ∃ l, tr' = tr ++ l ∧ Repeated again c a l ∧ ∃ t, a = L t c
  | 0, _, _, _, h => by simp [tlsSpin] at h
  | fuel + 1, tr, tr', a, h => by
    simp only [tlsSpin] at h
    split at h
    · rename_i hg
      simp only [tlsCall] at h hg
      obtain ⟨l, h1, ⟨mid, h2, h3, h4⟩, h5⟩ := tlsSpin_spec h
      refine ⟨(c, L tr c) :: l, by simp [h1], ⟨(c, L tr c) :: mid, by simp [h2], ?_, h4⟩, h5⟩
      intro p hp
      rcases List.mem_cons.1 hp with rfl | hp
      · exact ⟨rfl, hg⟩
      · exact h3 p hp
    · rename_i hg
      simp only [tlsCall, Option.some.injEq, Prod.mk.injEq] at h hg
      obtain ⟨h1, h2⟩ := h
      subst h2
      exact ⟨[(c, L tr c)], h1.symm, ⟨[], rfl, by simp, by simpa using hg⟩, tr, rfl⟩

/-- The shapes a round may take from the read on. -/
inductive DtlsServed (L : TlsLib) : TlsTrace → Bool → Int → Prop
  | failed (r a) : Repeated wantsMore (.read 8191) a r → (∃ t, a = L t (.read 8191)) → a.code ≤ 0 → a.code ≠ sslPeerClose →
      DtlsServed L r true a.code
  | closed (r a cl x) : Repeated wantsMore (.read 8191) a r → (∃ t, a = L t (.read 8191)) → a.code = sslPeerClose →
      Repeated (fun r => r == sslWantWrite) .closeNotify x cl → DtlsServed L (r ++ cl) true 0
  | broken (r a w b) : Repeated wantsMore (.read 8191) a r → (∃ t, a = L t (.read 8191)) → 0 < a.code →
      Repeated wantsMore (.write ((dtlsBuffer a.data).take a.code.toNat)) b w → (∃ t, b = L t (.write ((dtlsBuffer a.data).take a.code.toNat))) →
      b.code < 0 → DtlsServed L (r ++ w) false b.code
  | echoed (r a w b cl x) : Repeated wantsMore (.read 8191) a r → (∃ t, a = L t (.read 8191)) → 0 < a.code →
      Repeated wantsMore (.write ((dtlsBuffer a.data).take a.code.toNat)) b w → (∃ t, b = L t (.write ((dtlsBuffer a.data).take a.code.toNat))) →
      0 ≤ b.code → Repeated (fun r => r == sslWantWrite) .closeNotify x cl → DtlsServed L (r ++ w ++ cl) true 0

theorem dtlsServe_spec {L : TlsLib} {fuel : Nat} {tr tr' : TlsTrace} {b : Bool} {ret : Int} (h : dtlsServe L fuel tr = some (tr', b, ret)) :
    ∃ l, tr' = tr ++ l ∧ DtlsServed L l b ret := by
  simp only [dtlsServe] at h
  split at h
  · exact absurd h (by simp)
  · rename_i t1 a hs
    obtain ⟨r, rfl, hr, ht⟩ := tlsSpin_spec hs
    split at h
    · rename_i hle
      split at h
      · rename_i hto
        simp only [Option.some.injEq, Prod.mk.injEq] at h
        obtain ⟨rfl, rfl, rfl⟩ := h
        exact ⟨r, rfl, .failed r a hr ht hle (by rw [hto]; decide)⟩
      · split at h
        · rename_i hpc
          simp only [dtlsClose] at h
          split at h
          · exact absurd h (by simp)
          · rename_i t2 x hc
            obtain ⟨cl, rfl, hcl, -⟩ := tlsSpin_spec hc
            simp only [Option.some.injEq, Prod.mk.injEq] at h
            obtain ⟨rfl, rfl, rfl⟩ := h
            exact ⟨r ++ cl, by simp, .closed r a cl x hr ht hpc hcl⟩
        · rename_i hpc
          simp only [Option.some.injEq, Prod.mk.injEq] at h
          obtain ⟨rfl, rfl, rfl⟩ := h
          exact ⟨r, rfl, .failed r a hr ht hle hpc⟩
    · rename_i hle
      split at h
      · exact absurd h (by simp)
      · rename_i t2 w hw
        obtain ⟨wl, rfl, hwl, hwt⟩ := tlsSpin_spec hw
        split at h
        · rename_i hneg
          simp only [Option.some.injEq, Prod.mk.injEq] at h
          obtain ⟨rfl, rfl, rfl⟩ := h
          exact ⟨r ++ wl, by simp, .broken r a wl w hr ht (by omega) hwl hwt hneg⟩
        · rename_i hneg
          simp only [dtlsClose] at h
          split at h
          · exact absurd h (by simp)
          · rename_i t3 x hc
            obtain ⟨cl, rfl, hcl, -⟩ := tlsSpin_spec hc
            simp only [Option.some.injEq, Prod.mk.injEq] at h
            obtain ⟨rfl, rfl, rfl⟩ := h
            exact ⟨r ++ wl ++ cl, by simp, .echoed r a wl w cl x hr ht (by omega) hwl hwt (by omega) hcl⟩

/-- The shapes a round may take. -/
inductive DtlsRound (L : TlsLib) : TlsTrace → Bool → Int → Prop
  | accept (f s a) : a.code ≠ 0 → DtlsRound L [(.freeClient, f), (.sessionReset, s), (.accept, a)] false a.code
  | ident (f s a i) : a.code = 0 → i.code ≠ 0 →
      DtlsRound L [(.freeClient, f), (.sessionReset, s), (.accept, a), (.transportId, i)] false i.code
  | hello (f s a i h hs) : a.code = 0 → i.code = 0 → Repeated wantsMore .handshake h hs → h.code = sslHelloVerify →
      DtlsRound L ([(.freeClient, f), (.sessionReset, s), (.accept, a), (.transportId, i)] ++ hs) true 0
  | refused (f s a i h hs) : a.code = 0 → i.code = 0 → Repeated wantsMore .handshake h hs → h.code ≠ sslHelloVerify → h.code ≠ 0 →
      DtlsRound L ([(.freeClient, f), (.sessionReset, s), (.accept, a), (.transportId, i)] ++ hs) true h.code
  | served (f s a i h hs l b ret) : a.code = 0 → i.code = 0 → Repeated wantsMore .handshake h hs → h.code = 0 → DtlsServed L l b ret →
      DtlsRound L ([(.freeClient, f), (.sessionReset, s), (.accept, a), (.transportId, i)] ++ hs ++ l) b ret

theorem dtlsLoop_spec {L : TlsLib} {fuel : Nat} {tr tr' : TlsTrace} {b : Bool} {ret : Int} (h : dtlsLoop L fuel tr = some (tr', b, ret)) :
    ∃ l, tr' = tr ++ l ∧ DtlsRound L l b ret := by
  simp only [dtlsLoop] at h
  obtain ⟨f, hf⟩ := tlsCall_eq L .freeClient tr
  simp only [hf] at h
  obtain ⟨s, hs⟩ := tlsCall_eq L .sessionReset (tr ++ [(.freeClient, f)])
  simp only [hs] at h
  obtain ⟨a, ha⟩ := tlsCall_eq L .accept (tr ++ [(.freeClient, f)] ++ [(.sessionReset, s)])
  simp only [ha] at h
  obtain ⟨i, hi⟩ := tlsCall_eq L .transportId (tr ++ [(.freeClient, f)] ++ [(.sessionReset, s)] ++ [(.accept, a)])
  simp only [hi] at h
  split at h
  · rename_i ha0
    simp only [Option.some.injEq, Prod.mk.injEq] at h
    obtain ⟨rfl, rfl, rfl⟩ := h
    exact ⟨[(.freeClient, f), (.sessionReset, s), (.accept, a)], by simp, .accept _ _ _ ha0⟩
  · rename_i ha0
    have ha1 : a.code = 0 := by simpa using ha0
    split at h
    · rename_i hi0
      simp only [Option.some.injEq, Prod.mk.injEq] at h
      obtain ⟨rfl, rfl, rfl⟩ := h
      exact ⟨[(.freeClient, f), (.sessionReset, s), (.accept, a), (.transportId, i)], by simp, .ident _ _ _ _ ha1 hi0⟩
    · rename_i hi0
      have hi1 : i.code = 0 := by simpa using hi0
      split at h
      · exact absurd h (by simp)
      · rename_i t1 hh hsp
        obtain ⟨hl, rfl, hr, -⟩ := tlsSpin_spec hsp
        split at h
        · rename_i hv
          simp only [Option.some.injEq, Prod.mk.injEq] at h
          obtain ⟨rfl, rfl, rfl⟩ := h
          exact ⟨[(.freeClient, f), (.sessionReset, s), (.accept, a), (.transportId, i)] ++ hl, by simp, .hello _ _ _ _ _ hl ha1 hi1 hr hv⟩
        · rename_i hv
          split at h
          · rename_i hne
            simp only [Option.some.injEq, Prod.mk.injEq] at h
            obtain ⟨rfl, rfl, rfl⟩ := h
            exact ⟨[(.freeClient, f), (.sessionReset, s), (.accept, a), (.transportId, i)] ++ hl, by simp, .refused _ _ _ _ _ hl ha1 hi1 hr hv hne⟩
          · rename_i hne
            have hne1 : hh.code = 0 := by simpa using hne
            obtain ⟨l, rfl, hl'⟩ := dtlsServe_spec h
            exact ⟨[(.freeClient, f), (.sessionReset, s), (.accept, a), (.transportId, i)] ++ hl ++ l, by simp,
              .served _ _ _ _ _ hl l _ _ ha1 hi1 hr hne1 hl'⟩

/-- The shapes an attempt at a handshake may take. -/
inductive DtlsAttempt : TlsTrace → Bool → Int → Prop
  | accept (f s a) : a.code ≠ 0 → DtlsAttempt [(.freeClient, f), (.sessionReset, s), (.accept, a)] false a.code
  | ident (f s a i) : a.code = 0 → i.code ≠ 0 →
      DtlsAttempt [(.freeClient, f), (.sessionReset, s), (.accept, a), (.transportId, i)] false i.code
  | hello (f s a i h hs) : a.code = 0 → i.code = 0 → Repeated wantsMore .handshake h hs → h.code = sslHelloVerify →
      DtlsAttempt ([(.freeClient, f), (.sessionReset, s), (.accept, a), (.transportId, i)] ++ hs) true 0
  | refused (f s a i h hs) : a.code = 0 → i.code = 0 → Repeated wantsMore .handshake h hs → h.code ≠ sslHelloVerify → h.code ≠ 0 →
      DtlsAttempt ([(.freeClient, f), (.sessionReset, s), (.accept, a), (.transportId, i)] ++ hs) false h.code
  | done (f s a i h hs) : a.code = 0 → i.code = 0 → Repeated wantsMore .handshake h hs → h.code = 0 →
      DtlsAttempt ([(.freeClient, f), (.sessionReset, s), (.accept, a), (.transportId, i)] ++ hs) true 0

theorem dtlsAttempt_spec {L : TlsLib} {fuel : Nat} {tr tr' : TlsTrace} {b : Bool} {ret : Int} (h : dtlsAttempt L fuel tr = some (tr', b, ret)) :
    ∃ l, tr' = tr ++ l ∧ DtlsAttempt l b ret := by
  simp only [dtlsAttempt] at h
  obtain ⟨f, hf⟩ := tlsCall_eq L .freeClient tr
  simp only [hf] at h
  obtain ⟨s, hs⟩ := tlsCall_eq L .sessionReset (tr ++ [(.freeClient, f)])
  simp only [hs] at h
  obtain ⟨a, ha⟩ := tlsCall_eq L .accept (tr ++ [(.freeClient, f)] ++ [(.sessionReset, s)])
  simp only [ha] at h
  obtain ⟨i, hi⟩ := tlsCall_eq L .transportId (tr ++ [(.freeClient, f)] ++ [(.sessionReset, s)] ++ [(.accept, a)])
  simp only [hi] at h
  split at h
  · rename_i ha0
    simp only [Option.some.injEq, Prod.mk.injEq] at h
    obtain ⟨rfl, rfl, rfl⟩ := h
    exact ⟨[(.freeClient, f), (.sessionReset, s), (.accept, a)], by simp, .accept _ _ _ ha0⟩
  · rename_i ha0
    have ha1 : a.code = 0 := by simpa using ha0
    split at h
    · rename_i hi0
      simp only [Option.some.injEq, Prod.mk.injEq] at h
      obtain ⟨rfl, rfl, rfl⟩ := h
      exact ⟨[(.freeClient, f), (.sessionReset, s), (.accept, a), (.transportId, i)], by simp, .ident _ _ _ _ ha1 hi0⟩
    · rename_i hi0
      have hi1 : i.code = 0 := by simpa using hi0
      split at h
      · exact absurd h (by simp)
      · rename_i t1 hh hsp
        obtain ⟨hl, rfl, hr, -⟩ := tlsSpin_spec hsp
        split at h
        · rename_i hv
          simp only [Option.some.injEq, Prod.mk.injEq] at h
          obtain ⟨rfl, rfl, rfl⟩ := h
          exact ⟨[(.freeClient, f), (.sessionReset, s), (.accept, a), (.transportId, i)] ++ hl, by simp, .hello _ _ _ _ _ hl ha1 hi1 hr hv⟩
        · rename_i hv
          split at h
          · rename_i hne
            simp only [Option.some.injEq, Prod.mk.injEq] at h
            obtain ⟨rfl, rfl, rfl⟩ := h
            exact ⟨[(.freeClient, f), (.sessionReset, s), (.accept, a), (.transportId, i)] ++ hl, by simp, .refused _ _ _ _ _ hl ha1 hi1 hr hv hne⟩
          · rename_i hne
            have hne1 : hh.code = 0 := by simpa using hne
            simp only [Option.some.injEq, Prod.mk.injEq] at h
            obtain ⟨rfl, rfl, rfl⟩ := h
            rw [hne1]
            exact ⟨[(.freeClient, f), (.sessionReset, s), (.accept, a), (.transportId, i)] ++ hl, by simp, .done _ _ _ _ _ hl ha1 hi1 hr hne1⟩

/-! ### Counting -/

theorem delivered_append (a b : TlsTrace) : delivered (a ++ b) = delivered a ++ delivered b := by simp [delivered]
theorem offered_append (a b : TlsTrace) : offered (a ++ b) = offered a ++ offered b := by simp [offered]
theorem taken_append (a b : TlsTrace) : taken (a ++ b) = taken a ++ taken b := by simp [taken]

theorem wantsMore_neg {r : Int} (h : wantsMore r = true) : r < 0 := by
  simp only [wantsMore, Bool.or_eq_true, beq_iff_eq] at h
  rcases h with rfl | rfl <;> decide

/-- A list of calls all of which are the same, and are neither reads nor writes, moves no data. -/
theorem quiet_calls {c : TlsCall} {l : TlsTrace} (h : ∀ p ∈ l, p.1 = c) (h1 : ∀ n, c ≠ .read n) (h2 : ∀ d, c ≠ .write d) :
    delivered l = [] ∧ offered l = [] ∧ taken l = [] := by
  simp only [delivered, offered, taken, List.filterMap_eq_nil_iff]
  refine ⟨?_, ?_, ?_⟩ <;>
  · rintro ⟨c', a⟩ hp
    have := h _ hp
    simp only at this
    subst this
    cases c' <;> simp_all

theorem repeated_all {again : Int → Bool} {c : TlsCall} {a : TlsAnswer} {l : TlsTrace} (h : Repeated again c a l) : ∀ p ∈ l, p.1 = c := by
  obtain ⟨mid, rfl, h2, -⟩ := h
  intro p hp
  rcases List.mem_append.1 hp with hp | hp
  · exact (h2 p hp).1
  · simp only [List.mem_singleton] at hp; subst hp; rfl

theorem repeated_read {n : Nat} {a : TlsAnswer} {l : TlsTrace} (h : Repeated wantsMore (.read n) a l) :
    delivered l = (if 0 < a.code then [a.data] else []) ∧ offered l = [] ∧ taken l = [] := by
  obtain ⟨mid, rfl, h2, -⟩ := h
  have hm : delivered mid = [] ∧ offered mid = [] ∧ taken mid = [] := by
    simp only [delivered, offered, taken, List.filterMap_eq_nil_iff]
    refine ⟨?_, ?_, ?_⟩ <;>
    · rintro ⟨c', x⟩ hp
      obtain ⟨hc, hw⟩ := h2 _ hp
      have := wantsMore_neg hw
      simp only at hc this
      subst hc
      simp
      try omega
  rw [delivered_append, offered_append, taken_append, hm.1, hm.2.1, hm.2.2]
  refine ⟨?_, by simp [offered], by simp [taken]⟩
  simp only [delivered, List.nil_append, List.filterMap_cons, List.filterMap_nil]
  by_cases h0 : 0 < a.code <;> simp [h0]

theorem repeated_write {d : List UInt8} {a : TlsAnswer} {l : TlsTrace} (h : Repeated wantsMore (.write d) a l) :
    delivered l = [] ∧ (∀ x ∈ offered l, x = d) ∧ taken l = (if 0 ≤ a.code then [d.take a.code.toNat] else []) := by
  have hall := repeated_all h
  obtain ⟨mid, rfl, h2, -⟩ := h
  have hm : delivered mid = [] ∧ taken mid = [] := by
    simp only [delivered, taken, List.filterMap_eq_nil_iff]
    refine ⟨?_, ?_⟩ <;>
    · rintro ⟨c', x⟩ hp
      obtain ⟨hc, hw⟩ := h2 _ hp
      have := wantsMore_neg hw
      simp only at hc this
      subst hc
      simp
      try omega
  refine ⟨by rw [delivered_append, hm.1]; simp [delivered], ?_, ?_⟩
  · intro x hx
    simp only [offered, List.mem_filterMap] at hx
    obtain ⟨⟨c', y⟩, hp, he⟩ := hx
    have hc := hall _ hp
    simp only at hc
    subst hc
    simpa using he.symm
  · rw [taken_append, hm.2]
    simp only [taken, List.nil_append, List.filterMap_cons, List.filterMap_nil]
    by_cases h0 : 0 ≤ a.code <;> simp [h0]


/-! ### Calls made again -/

theorem repeated_persistent {again : Int → Bool} {c : TlsCall} {a : TlsAnswer} {l rest : TlsTrace} (h : Repeated again c a l)
    (hc : ∀ a, asksAgain (c, a) ↔ again a.code = true) (hr : Persistent rest) (hn : ∀ x r, rest ≠ (c, x) :: r) : Persistent (l ++ rest) := by
  obtain ⟨mid, rfl, h2, h3⟩ := h
  induction mid with
  | nil =>
    refine ⟨?_, hr⟩
    rw [hc, h3]
    refine ⟨fun h => absurd h (by simp), ?_⟩
    rintro ⟨x, r, e⟩
    exact absurd e (hn x r)
  | cons p mid ih =>
    have hp := h2 p List.mem_cons_self
    refine ⟨?_, ih fun q hq => h2 q (List.mem_cons_of_mem _ hq)⟩
    obtain ⟨c', y⟩ := p
    simp only at hp
    obtain ⟨rfl, hp⟩ := hp
    rw [hc]
    refine ⟨fun _ => ?_, fun _ => hp⟩
    cases mid with
    | nil => exact ⟨a, rest, rfl⟩
    | cons q mid =>
      obtain ⟨c2, z⟩ := q
      have := (h2 (c2, z) (by simp)).1
      simp only at this
      subst this
      exact ⟨z, _, rfl⟩

theorem wants_read (n : Nat) (a : TlsAnswer) : asksAgain (.read n, a) ↔ wantsMore a.code = true := by simp [asksAgain, wantsMore]
theorem wants_write (d : List UInt8) (a : TlsAnswer) : asksAgain (.write d, a) ↔ wantsMore a.code = true := by simp [asksAgain, wantsMore]
theorem wants_handshake (a : TlsAnswer) : asksAgain (.handshake, a) ↔ wantsMore a.code = true := by simp [asksAgain, wantsMore]
theorem wants_close (a : TlsAnswer) : asksAgain (.closeNotify, a) ↔ (a.code == sslWantWrite) = true := by simp [asksAgain]

/-- What begins with another call does not begin with this one. -/
theorem repeated_begins {again : Int → Bool} {c c' : TlsCall} {a : TlsAnswer} {l rest : TlsTrace} (h : Repeated again c' a l) (hne : c' ≠ c) :
    ∀ x r, l ++ rest ≠ (c, x) :: r := by
  intro x r e
  have := repeated_all h (c, x)
  obtain ⟨mid, rfl, -, -⟩ := h
  cases mid with
  | nil => simp only [List.nil_append, List.singleton_append, List.cons.injEq, Prod.mk.injEq] at e; exact hne e.1.1
  | cons p mid =>
    simp only [List.cons_append, List.cons.injEq] at e
    exact hne (this (by rw [← e.1]; simp)).symm

theorem start_persistent (f s a i : TlsAnswer) {rest : TlsTrace} (h : Persistent rest) (hn : ∀ x r, rest ≠ (.transportId, x) :: r) :
    Persistent ([(.freeClient, f), (.sessionReset, s), (.accept, a), (.transportId, i)] ++ rest) := by
  refine ⟨by simp [asksAgain], by simp [asksAgain], by simp [asksAgain], ⟨fun h => h.elim, ?_⟩, h⟩
  rintro ⟨x, r, e⟩
  exact absurd e (hn x r)

theorem close_persistent {x : TlsAnswer} {cl : TlsTrace} (h : Repeated (fun r => r == sslWantWrite) .closeNotify x cl) : Persistent cl := by
  have := repeated_persistent (rest := []) h wants_close trivial (by simp)
  simpa using this

theorem served_persistent {L : TlsLib} {l : TlsTrace} {b : Bool} {ret : Int} (h : DtlsServed L l b ret) :
    Persistent l ∧ (∀ x r, l ≠ (.handshake, x) :: r) := by
  cases h with
  | failed _ a hr ht hle hpc =>
    have h1 := repeated_persistent (rest := []) hr (wants_read 8191) trivial (by simp)
    have h2 := repeated_begins (c := .handshake) (rest := []) hr (by simp)
    rw [List.append_nil] at h1 h2
    exact ⟨h1, h2⟩
  | closed r a cl x hr ht hpc hcl =>
    have hb := repeated_begins (c := .read 8191) (rest := []) hcl (by simp)
    rw [List.append_nil] at hb
    exact ⟨repeated_persistent hr (wants_read _) (close_persistent hcl) hb, repeated_begins hr (by simp)⟩
  | broken r a w y hr ht hpos hw hwt hneg =>
    have h1 := repeated_persistent (rest := []) hw (wants_write _) trivial (by simp)
    have h2 := repeated_begins (c := .read 8191) (rest := []) hw (by simp)
    rw [List.append_nil] at h1 h2
    exact ⟨repeated_persistent hr (wants_read _) h1 h2, repeated_begins hr (by simp)⟩
  | echoed r a w y cl x hr ht hpos hw hwt hnn hcl =>
    rw [List.append_assoc]
    have hb := fun d => repeated_begins (c := .write d) (rest := []) hcl (by simp)
    simp only [List.append_nil] at hb
    have h1 := repeated_persistent hw (wants_write _) (close_persistent hcl) (hb _)
    exact ⟨repeated_persistent hr (wants_read _) h1 (repeated_begins hw (by simp)), repeated_begins hr (by simp)⟩

/-- C75 (waiting).  In every round, whatever the library answers, a handshake, a read, a write or a closing that it asks to be made again
is made again at once, with the same data, as often as it asks; and no call is repeated that it did not ask for. -/
theorem dtls_round_persists (L : TlsLib) (fuel : Nat) (tr tr' : TlsTrace) (b : Bool) (ret : Int) (h : dtlsLoop L fuel tr = some (tr', b, ret)) :
    ∃ l, tr' = tr ++ l ∧ Persistent l := by
  obtain ⟨l, rfl, hl⟩ := dtlsLoop_spec h
  refine ⟨l, rfl, ?_⟩
  cases hl with
  | accept f s a ha => simp [Persistent, asksAgain]
  | ident f s a i ha hi => simp [Persistent, asksAgain]
  | hello f s a i x hs ha hi hr hv =>
    have h1 := repeated_persistent (rest := []) hr wants_handshake trivial (by simp)
    have h2 := repeated_begins (c := .transportId) (rest := []) hr (by simp)
    rw [List.append_nil] at h1 h2
    exact start_persistent f s a i h1 h2
  | refused f s a i x hs ha hi hr hv hne =>
    have h1 := repeated_persistent (rest := []) hr wants_handshake trivial (by simp)
    have h2 := repeated_begins (c := .transportId) (rest := []) hr (by simp)
    rw [List.append_nil] at h1 h2
    exact start_persistent f s a i h1 h2
  | served f s a i x hs l _ _ ha hi hr h0 hl =>
    have hl := served_persistent hl
    rw [List.append_assoc]
    exact start_persistent f s a i (repeated_persistent hr wants_handshake hl.1 hl.2) (repeated_begins hr (by simp))

/-! ### One round -/

/-- The calls of the beginning of a round move no data. -/
theorem round_start_quiet (f s a i : TlsAnswer) :
    delivered [(.freeClient, f), (.sessionReset, s), (.accept, a), (.transportId, i)] = [] ∧
    offered [(.freeClient, f), (.sessionReset, s), (.accept, a), (.transportId, i)] = [] ∧
    taken [(.freeClient, f), (.sessionReset, s), (.accept, a), (.transportId, i)] = [] := by
  simp [delivered, offered, taken]

/-- C75 (how a round ends).  For every library, every history and every number of repetitions: the round stops the server only when
accepting, naming the client or writing failed, and reports that failure; otherwise it ends with a handshake to be tried again
(reported as no error), a handshake that failed, a read that brought nothing, or the closing of the session. -/
theorem dtls_round_ends (L : TlsLib) (fuel : Nat) (tr tr' : TlsTrace) (b : Bool) (ret : Int) (h : dtlsLoop L fuel tr = some (tr', b, ret)) :
    ∃ before c a, tr' = tr ++ before ++ [(c, a)] ∧
      ((b = false ∧ ret = a.code ∧ ret ≠ 0 ∧ (c = .accept ∨ c = .transportId ∨ ((∃ d, c = .write d) ∧ a.code < 0))) ∨
       (b = true ∧ c = .handshake ∧ a.code = sslHelloVerify ∧ ret = 0) ∨
       (b = true ∧ c = .handshake ∧ a.code ≠ sslHelloVerify ∧ ret = a.code ∧ ret ≠ 0) ∨
       (b = true ∧ c = .read 8191 ∧ a.code ≤ 0 ∧ a.code ≠ sslPeerClose ∧ ret = a.code) ∨
       (b = true ∧ c = .closeNotify ∧ ret = 0)) := by
  obtain ⟨l, rfl, hl⟩ := dtlsLoop_spec h
  cases hl with
  | accept f s a ha => exact ⟨[(.freeClient, f), (.sessionReset, s)], .accept, a, by simp, .inl ⟨rfl, rfl, ha, .inl rfl⟩⟩
  | ident f s a i ha hi =>
    exact ⟨[(.freeClient, f), (.sessionReset, s), (.accept, a)], .transportId, i, by simp, .inl ⟨rfl, rfl, hi, .inr (.inl rfl)⟩⟩
  | hello f s a i x hs ha hi hr hv =>
    obtain ⟨mid, rfl, -, -⟩ := hr
    exact ⟨[(.freeClient, f), (.sessionReset, s), (.accept, a), (.transportId, i)] ++ mid, .handshake, x, by simp, .inr (.inl ⟨rfl, rfl, hv, rfl⟩)⟩
  | refused f s a i x hs ha hi hr hv hne =>
    obtain ⟨mid, rfl, -, -⟩ := hr
    exact ⟨[(.freeClient, f), (.sessionReset, s), (.accept, a), (.transportId, i)] ++ mid, .handshake, x, by simp, .inr (.inr (.inl ⟨rfl, rfl, hv, rfl, hne⟩))⟩
  | served f s a i x hs l _ _ ha hi hr h0 hl =>
    cases hl with
    | failed r y hy _ hle hpc =>
      obtain ⟨mid, rfl, -, -⟩ := hy
      exact ⟨[(.freeClient, f), (.sessionReset, s), (.accept, a), (.transportId, i)] ++ hs ++ mid, .read 8191, y, by simp, .inr (.inr (.inr (.inl ⟨rfl, rfl, hle, hpc, rfl⟩)))⟩
    | closed r y cl z hy _ hpc hz =>
      obtain ⟨mid, rfl, -, -⟩ := hz
      exact ⟨[(.freeClient, f), (.sessionReset, s), (.accept, a), (.transportId, i)] ++ hs ++ (r ++ mid), .closeNotify, z, by simp, .inr (.inr (.inr (.inr ⟨rfl, rfl, rfl⟩)))⟩
    | broken r y w z hy _ hpos hz _ hneg =>
      obtain ⟨mid, rfl, -, -⟩ := hz
      exact ⟨[(.freeClient, f), (.sessionReset, s), (.accept, a), (.transportId, i)] ++ hs ++ (r ++ mid), .write ((dtlsBuffer y.data).take y.code.toNat), z, by simp, .inl ⟨rfl, rfl, by omega, .inr (.inr ⟨⟨_, rfl⟩, hneg⟩)⟩⟩
    | echoed r y w z cl q hy _ hpos hz _ hneg hq =>
      obtain ⟨mid, rfl, -, -⟩ := hq
      exact ⟨[(.freeClient, f), (.sessionReset, s), (.accept, a), (.transportId, i)] ++ hs ++ (r ++ w ++ mid), .closeNotify, q, by simp, .inr (.inr (.inr (.inr ⟨rfl, rfl, rfl⟩)))⟩

/-- C75 (a new client).  Every round first drops the client and the session of the round before, and then waits for one client. -/
theorem dtls_round_begins (L : TlsLib) (fuel : Nat) (tr tr' : TlsTrace) (b : Bool) (ret : Int) (h : dtlsLoop L fuel tr = some (tr', b, ret)) :
    ∃ f s a rest, tr' = tr ++ [(.freeClient, f), (.sessionReset, s), (.accept, a)] ++ rest ∧
      ∀ p ∈ rest, p.1 ≠ .freeClient ∧ p.1 ≠ .sessionReset ∧ p.1 ≠ .accept ∧ p.1 ≠ .shutdown := by
  obtain ⟨l, rfl, hl⟩ := dtlsLoop_spec h
  have key : ∀ {again c x l}, Repeated again c x l → c ≠ .freeClient → c ≠ .sessionReset → c ≠ .accept → c ≠ .shutdown →
      ∀ p ∈ l, p.1 ≠ .freeClient ∧ p.1 ≠ .sessionReset ∧ p.1 ≠ .accept ∧ p.1 ≠ .shutdown := by
    intro again c x l hr h1 h2 h3 h4 p hp
    rw [repeated_all hr p hp]
    exact ⟨h1, h2, h3, h4⟩
  cases hl with
  | accept f s a ha => exact ⟨f, s, a, [], by simp, by simp⟩
  | ident f s a i ha hi => exact ⟨f, s, a, [(.transportId, i)], by simp, by simp⟩
  | hello f s a i x hs ha hi hr hv =>
    refine ⟨f, s, a, (.transportId, i) :: hs, by simp, ?_⟩
    intro p hp
    rcases List.mem_cons.1 hp with rfl | hp
    · simp
    · exact key hr (by simp) (by simp) (by simp) (by simp) p hp
  | refused f s a i x hs ha hi hr hv hne =>
    refine ⟨f, s, a, (.transportId, i) :: hs, by simp, ?_⟩
    intro p hp
    rcases List.mem_cons.1 hp with rfl | hp
    · simp
    · exact key hr (by simp) (by simp) (by simp) (by simp) p hp
  | served f s a i x hs l _ _ ha hi hr h0 hl =>
    refine ⟨f, s, a, (.transportId, i) :: (hs ++ l), by simp, ?_⟩
    intro p hp
    rcases List.mem_cons.1 hp with rfl | hp
    · simp
    · rcases List.mem_append.1 hp with hp | hp
      · exact key hr (by simp) (by simp) (by simp) (by simp) p hp
      · cases hl with
        | failed r y hy _ hle hpc => exact key hy (by simp) (by simp) (by simp) (by simp) p hp
        | closed r y cl z hy _ hpc hz =>
          rcases List.mem_append.1 hp with hp | hp
          · exact key hy (by simp) (by simp) (by simp) (by simp) p hp
          · exact key hz (by simp) (by simp) (by simp) (by simp) p hp
        | broken r y w z hy _ hpos hz _ hneg =>
          rcases List.mem_append.1 hp with hp | hp
          · exact key hy (by simp) (by simp) (by simp) (by simp) p hp
          · exact key hz (by simp) (by simp) (by simp) (by simp) p hp
        | echoed r y w z cl q hy _ hpos hz _ hneg hq =>
          rcases List.mem_append.1 hp with hp | hp
          · rcases List.mem_append.1 hp with hp | hp
            · exact key hy (by simp) (by simp) (by simp) (by simp) p hp
            · exact key hz (by simp) (by simp) (by simp) (by simp) p hp
          · exact key hq (by simp) (by simp) (by simp) (by simp) p hp

/-- What is offered is what was delivered, if the library counts what it delivers. -/
theorem dtlsBuffer_take {a : TlsAnswer} (h : a.code = a.data.length) : (dtlsBuffer a.data).take a.code.toNat = a.data := by
  rw [h, dtlsBuffer]
  simp

/-- The data of a round: at most one message is delivered, and at most one piece taken. -/
theorem dtls_round_data (L : TlsLib) (hL : TlsConforms L) (l : TlsTrace) (b : Bool) (ret : Int) (hl : DtlsRound L l b ret) :
    (delivered l = [] ∧ offered l = [] ∧ taken l = []) ∨
    ∃ d, delivered l = [d] ∧ d.length ≤ 8191 ∧ 0 < d.length ∧ (∀ x ∈ offered l, x = d) ∧ offered l ≠ [] ∧
      ((b = false ∧ taken l = []) ∨ (b = true ∧ ∃ t k, k = (L t (.write d)).code ∧ 0 ≤ k ∧ taken l = [d.take k.toNat])) := by
  cases hl with
  | accept f s a ha => left; simp [delivered, offered, taken]
  | ident f s a i ha hi => left; simp [delivered, offered, taken]
  | hello f s a i x hs ha hi hr hv =>
    left
    have q := quiet_calls (repeated_all hr) (by simp) (by simp)
    have q0 := round_start_quiet f s a i
    rw [delivered_append, offered_append, taken_append, q.1, q.2.1, q.2.2, q0.1, q0.2.1, q0.2.2]
    simp
  | refused f s a i x hs ha hi hr hv hne =>
    left
    have q := quiet_calls (repeated_all hr) (by simp) (by simp)
    have q0 := round_start_quiet f s a i
    rw [delivered_append, offered_append, taken_append, q.1, q.2.1, q.2.2, q0.1, q0.2.1, q0.2.2]
    simp
  | served f s a i x hs l _ _ ha hi hr h0 hl =>
    have q := quiet_calls (repeated_all hr) (by simp) (by simp)
    have q0 := round_start_quiet f s a i
    simp only [delivered_append _ l, offered_append _ l, taken_append _ l, delivered_append _ hs, offered_append _ hs, taken_append _ hs,
      q.1, q.2.1, q.2.2, q0.1, q0.2.1, q0.2.2, List.nil_append]
    cases hl with
    | failed r y hy _ hle hpc =>
      left
      have := repeated_read hy
      rw [if_neg (by omega)] at this
      exact this
    | closed r y cl z hy _ hpc hz =>
      left
      have h1 := repeated_read hy
      rw [if_neg (by rw [hpc]; decide)] at h1
      have h2 := quiet_calls (repeated_all hz) (by simp) (by simp)
      rw [delivered_append, offered_append, taken_append, h1.1, h1.2.1, h1.2.2, h2.1, h2.2.1, h2.2.2]
      simp
    | broken r y w z hy ht hpos hz _ hneg =>
      right
      obtain ⟨t, rfl⟩ := ht
      have hc := hL.1 t 8191 hpos
      have h1 := repeated_read hy
      rw [if_pos hpos] at h1
      rw [dtlsBuffer_take hc.1] at hz
      have h2 := repeated_write hz
      rw [if_neg (by omega)] at h2
      refine ⟨_, by rw [delivered_append, h1.1, h2.1]; simp, hc.2, by omega, ?_, ?_, .inl ⟨rfl, ?_⟩⟩
      · rw [offered_append, h1.2.1]; simpa using h2.2.1
      · obtain ⟨mid, rfl, -, -⟩ := hz
        rw [offered_append, offered_append]; simp [offered]
      · rw [taken_append, h1.2.2, h2.2.2]; rfl
    | echoed r y w z cl q hy ht hpos hz hzt hneg hq =>
      right
      obtain ⟨t, rfl⟩ := ht
      have hc := hL.1 t 8191 hpos
      have h1 := repeated_read hy
      rw [if_pos hpos] at h1
      rw [dtlsBuffer_take hc.1] at hz hzt
      have h2 := repeated_write hz
      rw [if_pos hneg] at h2
      have h3 := quiet_calls (repeated_all hq) (by simp) (by simp)
      obtain ⟨t2, rfl⟩ := hzt
      refine ⟨_, by rw [delivered_append, delivered_append, h1.1, h2.1, h3.1]; simp, hc.2, by omega, ?_, ?_, .inr ⟨rfl, t2, _, rfl, hneg, ?_⟩⟩
      · rw [offered_append, offered_append, h1.2.1, h3.2.1]; simpa using h2.2.1
      · obtain ⟨mid, rfl, -, -⟩ := hz
        rw [offered_append, offered_append, offered_append]; simp [offered]
      · rw [taken_append, taken_append, h1.2.2, h2.2.2, h3.2.2]; rfl

/-- C75 (echo).  Whatever a round offers to the client is the one message the client sent in it, byte for byte, however often the library
asks for the call to be repeated; and that message leaves room for the end of the text in the buffer. -/
theorem dtls_echo (L : TlsLib) (hL : TlsConforms L) (fuel : Nat) (tr tr' : TlsTrace) (b : Bool) (ret : Int)
    (h : dtlsLoop L fuel tr = some (tr', b, ret)) :
    ∃ l, tr' = tr ++ l ∧ ∀ x ∈ offered l, delivered l = [x] ∧ x.length < 8192 := by
  obtain ⟨l, rfl, hl⟩ := dtlsLoop_spec h
  refine ⟨l, rfl, ?_⟩
  intro x hx
  rcases dtls_round_data L hL l b ret hl with h1 | ⟨d, h1, h2, h3, h4, -⟩
  · rw [h1.2.1] at hx; exact absurd hx (by simp)
  · have := h4 x hx
    subst this
    exact ⟨h1, by omega⟩

/-- C75 (the answer arrives), partial: provided that the library takes what it is offered whole.  A round that neither stops the server nor
leaves an error has sent back every message it received. -/
theorem dtls_echo_whole_partial (L : TlsLib) (hL : TlsConforms L) (hw : TlsWritesWhole L) (fuel : Nat) (tr tr' : TlsTrace) (ret : Int)
    (h : dtlsLoop L fuel tr = some (tr', true, ret)) :
    ∃ l, tr' = tr ++ l ∧ taken l = delivered l := by
  obtain ⟨l, rfl, hl⟩ := dtlsLoop_spec h
  refine ⟨l, rfl, ?_⟩
  rcases dtls_round_data L hL l true ret hl with h1 | ⟨d, h1, h2, h3, h4, -, h5⟩
  · rw [h1.1, h1.2.2]
  · rcases h5 with h5 | ⟨-, t, k, hk, hk0, h5⟩
    · exact absurd h5.1 (by simp)
    · have := hw t d (by omega)
      rw [h5, h1, hk, this]
      simp

/-- C75 (what does not hold).  A library that takes less than it is offered is not offered the rest: whatever it takes, the round reports
success, closes the session, and the remainder of the answer is lost. -/
theorem dtls_short_write_lost (L : TlsLib) (hL : TlsConforms L) (hs : ∀ t d, 0 < d.length → (L t (.write d)).code < d.length)
    (fuel : Nat) (tr tr' : TlsTrace) (ret : Int) (h : dtlsLoop L fuel tr = some (tr', true, ret)) :
    ∃ l, tr' = tr ++ l ∧ ∀ d ∈ delivered l, d ∉ taken l ∧ (taken l).flatten.length < d.length := by
  obtain ⟨l, rfl, hl⟩ := dtlsLoop_spec h
  refine ⟨l, rfl, ?_⟩
  intro d hd
  rcases dtls_round_data L hL l true ret hl with h1 | ⟨d', h1, h2, h3, h4, -, h5⟩
  · rw [h1.1] at hd; exact absurd hd (by simp)
  · rw [h1] at hd
    simp only [List.mem_singleton] at hd
    subst hd
    rcases h5 with h5 | ⟨-, t, k, hk, hk0, h5⟩
    · exact absurd h5.1 (by simp)
    · have := hs t d h3
      rw [h5]
      constructor
      · simp only [List.mem_singleton]
        intro he
        have := congrArg List.length he
        simp only [List.length_take] at this
        omega
      · simp only [List.flatten_cons, List.flatten_nil, List.append_nil, List.length_take]
        omega

/-! ### Setting up, and the daemon -/

/-- C75 (setting up).  A sequence of steps answers 0 exactly when every step was taken and answered 0; otherwise it answers what the first
failing step did, and takes none after it. -/
theorem tls_steps (L : TlsLib) : ∀ (cs : List TlsCall) (tr : TlsTrace), ∃ l, (tlsSteps L cs tr).1 = tr ++ l ∧
    ((tlsSteps L cs tr).2 = 0 ∧ l.map Prod.fst = cs ∧ (∀ p ∈ l, p.2.code = 0) ∨
     ∃ before c a after, l = before ++ [(c, a)] ∧ cs = before.map Prod.fst ++ c :: after ∧ (∀ p ∈ before, p.2.code = 0) ∧
      a.code ≠ 0 ∧ (tlsSteps L cs tr).2 = a.code)
  | [], tr => ⟨[], by simp [tlsSteps], .inl ⟨rfl, rfl, by simp⟩⟩
  | c :: cs, tr => by
    obtain ⟨a, ha⟩ := tlsCall_eq L c tr
    simp only [tlsSteps, ha]
    by_cases h0 : a.code = 0
    · rw [if_neg (by simpa using h0)]
      obtain ⟨l, h1, h2⟩ := tls_steps L cs (tr ++ [(c, a)])
      refine ⟨(c, a) :: l, by simp [h1], ?_⟩
      rcases h2 with ⟨h2, h3, h4⟩ | ⟨before, c', a', after, h2, h3, h4, h5, h6⟩
      · refine .inl ⟨h2, by simp [h3], ?_⟩
        intro p hp
        rcases List.mem_cons.1 hp with rfl | hp
        · exact h0
        · exact h4 p hp
      · refine .inr ⟨(c, a) :: before, c', a', after, by simp [h2], by simp [h3], ?_, h5, h6⟩
        intro p hp
        rcases List.mem_cons.1 hp with rfl | hp
        · exact h0
        · exact h4 p hp
    · rw [if_pos h0]
      exact ⟨[(c, a)], rfl, .inr ⟨[], c, a, cs, rfl, rfl, by simp, h0, rfl⟩⟩

/-- C75 (setting up).  The same, for the setup of the server. -/
theorem dtls_setup (L : TlsLib) (tr : TlsTrace) : ∃ l, (dtlsSetup L tr).1 = tr ++ l ∧
    ((dtlsSetup L tr).2 = 0 ∧ l.map Prod.fst = setupCalls ∧ (∀ p ∈ l, p.2.code = 0) ∨
     ∃ before c a after, l = before ++ [(c, a)] ∧ setupCalls = before.map Prod.fst ++ c :: after ∧ (∀ p ∈ before, p.2.code = 0) ∧
      a.code ≠ 0 ∧ (dtlsSetup L tr).2 = a.code) := tls_steps L setupCalls tr

/-- How `isSetUp` goes on. -/
def upStep (up : Bool) (p : TlsCall × TlsAnswer) : Bool := match p.1 with
  | .sslSetup => p.2.code == 0
  | .shutdown => false
  | _ => up

theorem isSetUp_append (a b : TlsTrace) : isSetUp (a ++ b) = b.foldl upStep (isSetUp a) := by
  simp only [isSetUp, List.foldl_append]
  rfl

theorem up_keeps {l : TlsTrace} (h : ∀ p ∈ l, p.1 ≠ .sslSetup ∧ p.1 ≠ .shutdown) : ∀ up, l.foldl upStep up = up := by
  induction l with
  | nil => intro up; rfl
  | cons p l ih =>
    intro up
    have hp := h p (by simp)
    rw [List.foldl_cons, ih (fun q hq => h q (by simp [hq]))]
    rcases p with ⟨c, a⟩
    cases c <;> simp_all [upStep]

/-- A round does not set up or shut down anything. -/
theorem round_keeps {L : TlsLib} {l : TlsTrace} {b : Bool} {ret : Int} (hl : DtlsRound L l b ret) :
    ∀ p ∈ l, p.1 ≠ .sslSetup ∧ p.1 ≠ .shutdown := by
  have key : ∀ {again c x l}, Repeated again c x l → c ≠ .sslSetup → c ≠ .shutdown → ∀ p ∈ l, p.1 ≠ .sslSetup ∧ p.1 ≠ .shutdown := by
    intro again c x l hr h1 h2 p hp
    rw [repeated_all hr p hp]
    exact ⟨h1, h2⟩
  have k4 : ∀ (f s a i : TlsAnswer), ∀ p ∈ [(TlsCall.freeClient, f), (.sessionReset, s), (.accept, a), (.transportId, i)], p.1 ≠ .sslSetup ∧ p.1 ≠ .shutdown := by
    simp
  intro p hp
  cases hl with
  | accept f s a ha => exact k4 f s a a p (by simp at hp ⊢; rcases hp with h | h | h <;> simp [h])
  | ident f s a i ha hi => exact k4 f s a i p hp
  | hello f s a i x hs ha hi hr hv =>
    rcases List.mem_append.1 hp with hp | hp
    · exact k4 _ _ _ _ p hp
    · exact key hr (by simp) (by simp) p hp
  | refused f s a i x hs ha hi hr hv hne =>
    rcases List.mem_append.1 hp with hp | hp
    · exact k4 _ _ _ _ p hp
    · exact key hr (by simp) (by simp) p hp
  | served f s a i x hs l _ _ ha hi hr h0 hl =>
    rcases List.mem_append.1 hp with hp | hp
    · rcases List.mem_append.1 hp with hp | hp
      · exact k4 _ _ _ _ p hp
      · exact key hr (by simp) (by simp) p hp
    · cases hl with
      | failed r y hy _ hle hpc => exact key hy (by simp) (by simp) p hp
      | closed r y cl z hy _ hpc hz =>
        rcases List.mem_append.1 hp with hp | hp
        · exact key hy (by simp) (by simp) p hp
        · exact key hz (by simp) (by simp) p hp
      | broken r y w z hy _ hpos hz _ hneg =>
        rcases List.mem_append.1 hp with hp | hp
        · exact key hy (by simp) (by simp) p hp
        · exact key hz (by simp) (by simp) p hp
      | echoed r y w z cl q hy _ hpos hz _ hneg hq =>
        rcases List.mem_append.1 hp with hp | hp
        · rcases List.mem_append.1 hp with hp | hp
          · exact key hy (by simp) (by simp) p hp
          · exact key hz (by simp) (by simp) p hp
        · exact key hq (by simp) (by simp) p hp

theorem acceptsSetUp_append {tr l : TlsTrace} (h : AcceptsSetUp tr)
    (hl : ∀ before a after, l = before ++ (.accept, a) :: after → isSetUp (tr ++ before) = true) : AcceptsSetUp (tr ++ l) := by
  intro before a after he
  rcases List.append_eq_append_iff.1 he with ⟨c, h1, h2⟩ | ⟨c, h1, h2⟩
  · rw [h1]
    exact hl c a after h2
  · cases c with
    | nil =>
      simp only [List.append_nil] at h1
      simp only [List.nil_append] at h2
      have := hl [] a after (by simpa using h2.symm)
      rw [← h1]; simpa using this
    | cons p c =>
      simp only [List.cons_append, List.cons.injEq] at h2
      obtain ⟨rfl, h2⟩ := h2
      exact h before a c h1

theorem setup_up {L : TlsLib} {tr : TlsTrace} (h : (dtlsSetup L tr).2 = 0) : isSetUp (dtlsSetup L tr).1 = true := by
  obtain ⟨l, h1, h2⟩ := dtls_setup L tr
  rcases h2 with ⟨-, h3, h4⟩ | ⟨before, c, a, after, -, -, -, h5, h6⟩
  · rw [h1, isSetUp_append]
    have hl : l ≠ [] := by rintro rfl; simp [setupCalls] at h3
    have hlast := List.dropLast_concat_getLast hl
    have hc : (l.getLast hl).1 = .sslSetup := by
      have := List.getLast_map (f := Prod.fst) (l := l) (by simpa using hl)
      rw [← this]
      simp only [h3]
      rfl
    rw [← hlast, List.foldl_append, List.foldl_cons, List.foldl_nil, upStep, hc]
    simpa using h4 _ (List.getLast_mem hl)
  · exact absurd (h6 ▸ h) h5

theorem setup_no_accept {L : TlsLib} {tr l : TlsTrace} (h : (dtlsSetup L tr).1 = tr ++ l) : ∀ p ∈ l, p.1 ∈ setupCalls := by
  obtain ⟨l', h1, h2⟩ := dtls_setup L tr
  rw [h] at h1
  have := List.append_cancel_left h1
  subst this
  rcases h2 with ⟨-, h3, -⟩ | ⟨before, c, a, after, h3, h4, -, -, -⟩
  · intro p hp
    rw [← h3]
    exact List.mem_map_of_mem hp
  · intro p hp
    rw [h4]
    rw [h3] at hp
    rcases List.mem_append.1 hp with hp | hp
    · exact List.mem_append_left _ (List.mem_map_of_mem hp)
    · simp only [List.mem_singleton] at hp
      subst hp
      simp

theorem daemon_inv (L : TlsLib) (fuel : Nat) : ∀ (rounds : Nat) (tr : TlsTrace) (ret : Int) (tr' : TlsTrace) (ret' : Int),
    AcceptsSetUp tr → (ret = 0 → isSetUp tr = true) → (ret ≠ 0 → ∃ before c a, tr = before ++ [(c, a)] ∧ c ∈ setupCalls ∧ a.code = ret) →
    dtlsDaemonLoop L fuel rounds tr ret = some (tr', ret') →
    AcceptsSetUp tr' ∧ ret' ≠ 0 ∧ ∃ before c a, tr' = before ++ [(c, a)] ∧ c ∈ setupCalls ∧ a.code = ret'
  | 0, _, _, _, _, _, _, _, h => by simp [dtlsDaemonLoop] at h
  | rounds + 1, tr, ret, tr', ret', hA, hU, hF, h => by
    simp only [dtlsDaemonLoop] at h
    split at h
    · rename_i hne
      simp only [Option.some.injEq, Prod.mk.injEq] at h
      obtain ⟨rfl, rfl⟩ := h
      exact ⟨hA, hne, hF hne⟩
    · rename_i hz
      have hz : ret = 0 := by simpa using hz
      split at h
      · exact absurd h (by simp)
      · rename_i t1 cont r1 hr
        obtain ⟨l, rfl, hl⟩ := dtlsLoop_spec hr
        have hkeep := round_keeps hl
        have hA1 : AcceptsSetUp (tr ++ l) := by
          refine acceptsSetUp_append hA ?_
          intro before a after he
          rw [isSetUp_append, up_keeps (fun p hp => hkeep p (by rw [he]; simp [hp])), hU hz]
        have hU1 : isSetUp (tr ++ l) = true := by rw [isSetUp_append, up_keeps hkeep, hU hz]
        split at h
        · obtain ⟨sh, hsh⟩ := tlsCall_eq L .shutdown (tr ++ l)
          simp only [hsh] at h
          obtain ⟨l2, h1, h2⟩ := dtls_setup L (tr ++ l ++ [(.shutdown, sh)])
          have hno := setup_no_accept h1
          refine daemon_inv L fuel rounds _ _ _ _ ?_ (fun h0 => setup_up h0) ?_ h
          · rw [h1]
            refine acceptsSetUp_append (acceptsSetUp_append hA1 ?_) ?_
            · intro before a after he
              have : (TlsCall.accept, a) ∈ [(TlsCall.shutdown, sh)] := by rw [he]; simp
              simp at this
            · intro before a after he
              have := hno (.accept, a) (by rw [he]; simp)
              simp [setupCalls] at this
          · intro hne
            rcases h2 with ⟨h3, -⟩ | ⟨before, c, a, after, h3, h4, -, h5, h6⟩
            · exact absurd h3 hne
            · exact ⟨(tr ++ l ++ [(.shutdown, sh)]) ++ before, c, a, by rw [h1, h3]; simp, by rw [h4]; simp, h6.symm⟩
        · rename_i hc
          simp only [Bool.or_eq_true, Bool.not_eq_true', bne_iff_ne, ne_eq, not_or, Decidable.not_not] at hc
          refine daemon_inv L fuel rounds _ _ _ _ hA1 (fun _ => hU1) (fun hne => absurd hc.2 hne) h

/-- C75 (the server keeps going).  The daemon ends only after a setup that failed, reporting that failure; and it never waits for a
client unless it is set up, whatever happened to the clients before. -/
theorem dtls_daemon (L : TlsLib) (fuel rounds : Nat) (tr : TlsTrace) (ret : Int) (h : dtlsDaemon L fuel rounds = some (tr, ret)) :
    AcceptsSetUp tr ∧ ret ≠ 0 ∧ ∃ before c a sh, tr = before ++ [(c, a), (.shutdown, sh)] ∧ c ∈ setupCalls ∧ a.code = ret := by
  simp only [dtlsDaemon] at h
  split at h
  · exact absurd h (by simp)
  · rename_i t1 r1 hd
    simp only [Option.some.injEq, Prod.mk.injEq] at h
    obtain ⟨rfl, rfl⟩ := h
    obtain ⟨l, h1, h2⟩ := dtls_setup L []
    have hno := setup_no_accept h1
    obtain ⟨hA, hne, before, c, a, h3, h4, h5⟩ := daemon_inv L fuel rounds _ _ _ _ (by
        intro before a after he
        have := hno (.accept, a) (by rw [h1] at he; simp only [List.nil_append] at he; rw [he]; simp)
        simp [setupCalls] at this) (fun h0 => setup_up h0) (by
        intro hne
        rcases h2 with ⟨h3, -⟩ | ⟨before, c, a, after, h3, h4, -, h5, h6⟩
        · exact absurd h3 hne
        · exact ⟨before, c, a, by rw [h1, h3]; rfl, by rw [h4]; simp, h6.symm⟩) hd
    obtain ⟨sh, hsh⟩ := tlsCall_eq L .shutdown t1
    rw [hsh]
    refine ⟨?_, hne, before, c, a, sh, by simp [h3], h4, h5⟩
    refine acceptsSetUp_append hA ?_
    intro before a after he
    have : (TlsCall.accept, a) ∈ [(TlsCall.shutdown, sh)] := by rw [he]; simp
    simp at this

/-! ### The server class -/

/-- C76 (handshake).  `handshake()` returns only when an attempt has failed: what it leaves behind is never a session. -/
theorem dtls_handshake_returns_failed (L : TlsLib) (fuel : Nat) : ∀ (rounds : Nat) (tr tr' : TlsTrace),
    dtlsHandshake L fuel rounds tr = some tr' →
    ∃ before c a, tr' = tr ++ before ++ [(c, a)] ∧ a.code ≠ 0 ∧ (c = .accept ∨ c = .transportId ∨ c = .handshake)
  | 0, _, _, h => by simp [dtlsHandshake] at h
  | rounds + 1, tr, tr', h => by
    simp only [dtlsHandshake] at h
    split at h
    · exact absurd h (by simp)
    · rename_i t1 ok ret ha
      obtain ⟨l, rfl, hl⟩ := dtlsAttempt_spec ha
      split at h
      · obtain ⟨before, c, a, h1, h2⟩ := dtls_handshake_returns_failed L fuel rounds _ _ h
        exact ⟨l ++ before, c, a, by simp [h1], h2⟩
      · rename_i hno
        simp only [Option.some.injEq] at h
        subst h
        cases hl with
        | accept f s a h0 => exact ⟨[(.freeClient, f), (.sessionReset, s)], .accept, a, by simp, h0, .inl rfl⟩
        | ident f s a i h0 hi => exact ⟨[(.freeClient, f), (.sessionReset, s), (.accept, a)], .transportId, i, by simp, hi, .inr (.inl rfl)⟩
        | hello f s a i x hs h0 hi hr hv => simp at hno
        | refused f s a i x hs h0 hi hr hv hne =>
          obtain ⟨mid, rfl, -, -⟩ := hr
          exact ⟨[(.freeClient, f), (.sessionReset, s), (.accept, a), (.transportId, i)] ++ mid, .handshake, x, by simp, hne, .inr (.inr rfl)⟩
        | done f s a i x hs h0 hi hr hz => simp at hno

/-- C76 (handshake).  If no attempt fails, it never returns. -/
theorem dtls_handshake_never (L : TlsLib) (hL : ∀ tr c, (L tr c).code = 0) (fuel : Nat) (rounds : Nat) (tr : TlsTrace) :
    dtlsHandshake L fuel rounds tr = none := by
  cases h : dtlsHandshake L fuel rounds tr with
  | none => rfl
  | some tr' =>
    exfalso
    revert h
    induction rounds generalizing tr with
    | zero => simp [dtlsHandshake]
    | succ rounds ih =>
      intro h
      simp only [dtlsHandshake] at h
      split at h
      · exact absurd h (by simp)
      · rename_i t1 ok ret ha
        simp only [dtlsAttempt] at ha
        cases fuel with
        | zero => simp [tlsCall, hL, tlsSpin] at ha
        | succ fuel =>
          simp only [tlsCall, hL, ne_eq, not_true_eq_false, if_false, tlsSpin] at ha
          have hw : wantsMore 0 = false := by decide
          have hv : ¬ (0 : Int) = sslHelloVerify := by decide
          simp only [hw, Bool.false_eq_true, if_false, hL, hv, not_true_eq_false, Option.some.injEq, Prod.mk.injEq] at ha
          obtain ⟨-, rfl, rfl⟩ := ha
          simp only [Bool.true_and, beq_self_eq_true, if_true] at h
          exact ih t1 h

/-- In an attempt, no handshake call but the last answers 0. -/
theorem attempt_last {l : TlsTrace} {ok : Bool} {ret : Int} (h : DtlsAttempt l ok ret) :
    (∃ f s rest, l = (.freeClient, f) :: (.sessionReset, s) :: rest) ∧
    (∀ before a after, l = before ++ (.handshake, a) :: after → a.code = 0 → after = [] ∧ ok = true ∧ ret = 0) := by
  have key : ∀ (f s a i x : TlsAnswer) (hs : TlsTrace), Repeated wantsMore .handshake x hs →
      ∀ before y after, [(TlsCall.freeClient, f), (.sessionReset, s), (.accept, a), (.transportId, i)] ++ hs = before ++ (.handshake, y) :: after →
        y.code = 0 → after = [] ∧ y = x := by
    intro f s a i x hs hr before y after he hy
    obtain ⟨mid, rfl, hm, -⟩ := hr
    by_cases ha : after = []
    · subst ha
      rw [← List.append_assoc] at he
      have := List.append_inj_right' he rfl
      simp only [List.cons.injEq, Prod.mk.injEq, and_true, true_and] at this
      exact ⟨rfl, this.symm⟩
    · exfalso
      have h1 := List.dropLast_concat_getLast ha
      rw [← List.append_assoc, ← h1, ← List.cons_append, ← List.append_assoc] at he
      have h2 := List.append_inj_left' he rfl
      have h3 : (TlsCall.handshake, y) ∈ [(TlsCall.freeClient, f), (.sessionReset, s), (.accept, a), (.transportId, i)] ++ mid := by
        rw [h2]; simp
      simp only [List.mem_append, List.mem_cons, Prod.mk.injEq, List.not_mem_nil, or_false, reduceCtorEq, false_and, false_or] at h3
      have h4 := wantsMore_neg (hm _ h3).2
      simp only at h4
      omega
  have short : ∀ (l : TlsTrace), (∀ p ∈ l, p.1 ≠ .handshake) → ∀ before a after, l ≠ before ++ (.handshake, a) :: after := by
    intro l hl before a after he
    exact hl (.handshake, a) (by rw [he]; simp) rfl
  cases h with
  | accept f s a h0 => exact ⟨⟨_, _, _, rfl⟩, fun before y after he => absurd he (short _ (by simp) _ _ _)⟩
  | ident f s a i h0 hi => exact ⟨⟨_, _, _, rfl⟩, fun before y after he => absurd he (short _ (by simp) _ _ _)⟩
  | hello f s a i x hs h0 hi hr hv => exact ⟨⟨_, _, _, rfl⟩, fun before y after he hy => ⟨(key f s a i x hs hr _ _ _ he hy).1, rfl, rfl⟩⟩
  | refused f s a i x hs h0 hi hr hv hne =>
    exact ⟨⟨_, _, _, rfl⟩, fun before y after he hy => absurd ((key f s a i x hs hr _ _ _ he hy).2 ▸ hy) hne⟩
  | done f s a i x hs h0 hi hr hz => exact ⟨⟨_, _, _, rfl⟩, fun before y after he hy => ⟨(key f s a i x hs hr _ _ _ he hy).1, rfl, rfl⟩⟩

/-- C76 (handshake).  A handshake that was completed is followed at once by the dropping of the client and of its session. -/
theorem dtls_handshake_dropped (L : TlsLib) (fuel : Nat) : ∀ (rounds : Nat) (tr tr' : TlsTrace),
    dtlsHandshake L fuel rounds tr = some tr' → ∃ l, tr' = tr ++ l ∧ (∃ f s rest, l = (.freeClient, f) :: (.sessionReset, s) :: rest) ∧
    ∀ before a after, l = before ++ (.handshake, a) :: after → a.code = 0 →
      ∃ f s rest, after = (.freeClient, f) :: (.sessionReset, s) :: rest
  | 0, _, _, h => by simp [dtlsHandshake] at h
  | rounds + 1, tr, tr', h => by
    simp only [dtlsHandshake] at h
    split at h
    · exact absurd h (by simp)
    · rename_i t1 ok ret ha
      obtain ⟨l, rfl, hl⟩ := dtlsAttempt_spec ha
      obtain ⟨⟨f, s, rest, hb⟩, hlast⟩ := attempt_last hl
      split at h
      · obtain ⟨l2, rfl, ⟨f2, s2, rest2, hb2⟩, h2⟩ := dtls_handshake_dropped L fuel rounds _ _ h
        refine ⟨l ++ l2, by simp, ⟨f, s, rest ++ l2, by simp [hb]⟩, ?_⟩
        intro before a after he hz
        rcases List.append_eq_append_iff.1 he with ⟨c, h3, h4⟩ | ⟨c, h3, h4⟩
        · exact h2 c a after h4 hz
        · cases c with
          | nil => rw [hb2] at h4; simp at h4
          | cons p c =>
            simp only [List.cons_append, List.cons.injEq] at h4
            obtain ⟨rfl, h4⟩ := h4
            have h5 := (hlast before a c h3 hz).1
            subst h5
            exact ⟨f2, s2, rest2, by rw [h4, hb2]; rfl⟩
      · rename_i hno
        simp only [Option.some.injEq] at h
        subst h
        refine ⟨l, rfl, ⟨f, s, rest, hb⟩, ?_⟩
        intro before a after he hz
        have := hlast before a after he hz
        rw [this.2.1, this.2.2] at hno
        simp at hno

/-- C76 (reading).  `read` asks for the same data as long as the library says to, and no longer, and answers false exactly when the peer
has closed the connection. -/
theorem dtls_read_false_partial (L : TlsLib) (fuel : Nat) (buf : List UInt8) (tr tr' : TlsTrace) (ok : Bool) (buf' : List UInt8)
    (h : dtlsRead L fuel buf tr = some (tr', ok, buf')) :
    ∃ before a, tr' = tr ++ before ++ [(.read buf.length, a)] ∧ (ok = false ↔ a.code = sslPeerClose) ∧
      Persistent (before ++ [(.read buf.length, a)]) ∧ ∀ p ∈ before, p.1 = .read buf.length := by
  simp only [dtlsRead] at h
  split at h
  · exact absurd h (by simp)
  · rename_i t1 a hs
    obtain ⟨r, rfl, hr, -⟩ := tlsSpin_spec hs
    have hpers := repeated_persistent (rest := []) hr (wants_read _) trivial (by simp)
    rw [List.append_nil] at hpers
    obtain ⟨mid, rfl, hmid, -⟩ := hr
    refine ⟨mid, a, ?_, ?_, hpers, fun p hp => (hmid p hp).1⟩
    · repeat' split at h
      all_goals
        simp only [Option.some.injEq, Prod.mk.injEq] at h
        simp [← h.1]
    · have hpc : sslPeerClose < 0 := by decide
      have hto : sslTimeout ≠ sslPeerClose := by decide
      repeat' split at h
      all_goals
        simp only [Option.some.injEq, Prod.mk.injEq] at h
        obtain ⟨-, rfl, -⟩ := h
        simp
        try omega

/-- C76 (what does not hold).  A failed read cannot be told from one that brought data: for every buffer with room and every error other
than the closing there are two libraries, one delivering data and one failing that way, and the same comes back from both. -/
theorem dtls_read_ambiguous (buf : List UInt8) (hb : buf ≠ []) (e : Int) (he : e < 0) (hp : e ≠ sslPeerClose) (hw : wantsMore e = false)
    (fuel : Nat) (tr : TlsTrace) :
    ∃ L1 L2 : TlsLib, TlsConforms L1 ∧ TlsConforms L2 ∧ ∃ t1 t2, dtlsRead L1 (fuel + 1) buf tr = some (t1, true, buf) ∧
      dtlsRead L2 (fuel + 1) buf tr = some (t2, true, buf) ∧ delivered t1 = delivered tr ++ [buf] ∧ delivered t2 = delivered tr := by
  have hl : 0 < buf.length := by cases buf with
    | nil => exact absurd rfl hb
    | cons => simp
  refine ⟨fun _ c => if c = .read buf.length then ⟨buf.length, buf⟩ else ⟨0, []⟩, fun _ c => if c = .read buf.length then ⟨e, []⟩ else ⟨0, []⟩,
    ⟨?_, ?_⟩, ⟨?_, ?_⟩, tr ++ [(.read buf.length, ⟨buf.length, buf⟩)], tr ++ [(.read buf.length, ⟨e, []⟩)], ?_, ?_, ?_, ?_⟩
  · intro t n
    by_cases hn : n = buf.length <;> simp [hn]
  · intro t d; simp
  · intro t n
    by_cases hn : n = buf.length <;> simp [hn]
    omega
  · intro t d; simp
  · have h1 : wantsMore (buf.length : Int) = false := by
      simp only [wantsMore, sslWantRead, sslWantWrite, Bool.or_eq_false_iff, beq_eq_false_iff_ne]
      omega
    have h2 : ¬ ((buf.length : Int) ≤ 0) := by omega
    simp only [dtlsRead, tlsSpin, tlsCall, if_true, h1, Bool.false_eq_true, if_false, h2, List.drop_length, List.append_nil]
  · simp only [dtlsRead, tlsSpin, tlsCall, if_true, hw, Bool.false_eq_true, if_false, List.length_nil, List.drop_zero, List.nil_append, hp,
      if_pos (Int.le_of_lt he), ite_self]
  · rw [delivered_append]
    congr 1
    have h1 : (0 : Int) < buf.length := by omega
    simp only [delivered, List.filterMap_cons, List.filterMap_nil, if_pos h1]
  · rw [delivered_append]
    simp [delivered]; omega

/-- C76 (what does not hold).  `write` sends nothing. -/
theorem dtls_write_nothing (data : List UInt8) (tr : TlsTrace) : offered (dtlsWrite data tr) = offered tr := rfl

/-- C76 (closing).  Closing repeats the notice as long as the library asks for it, and does nothing else. -/
theorem dtls_close_partial (L : TlsLib) (fuel : Nat) (tr tr' : TlsTrace) (h : dtlsServerClose L fuel tr = some tr') :
    ∃ before a, tr' = tr ++ before ++ [(.closeNotify, a)] ∧ a.code ≠ sslWantWrite ∧ ∀ p ∈ before, p.1 = .closeNotify ∧ p.2.code = sslWantWrite := by
  simp only [dtlsServerClose] at h
  split at h
  · exact absurd h (by simp)
  · rename_i t1 a hs
    obtain ⟨r, rfl, ⟨mid, rfl, hm, hn⟩, -⟩ := tlsSpin_spec hs
    simp only [Option.some.injEq] at h
    subst h
    exact ⟨mid, a, by simp, by simpa using hn, fun p hp => ⟨(hm p hp).1, by simpa using (hm p hp).2⟩⟩

/-! ### Cases that meet the hypotheses -/

/-- A library that delivers `hello`, asks once for each call of the handshake and of the write to be repeated, and takes at most `n` bytes. -/
def demoTls (n : Nat) : TlsLib := fun tr c => match c with
  | .handshake => if tr.any (fun p => p.1 == .handshake) then ⟨0, []⟩ else ⟨sslWantRead, []⟩
  | .read len => if 5 ≤ len then ⟨5, [104, 101, 108, 108, 111]⟩ else ⟨-1, []⟩
  | .write d => if tr.any (fun p => p.1 == .write d) then ⟨min d.length n, []⟩ else ⟨sslWantWrite, []⟩
  | _ => ⟨0, []⟩

theorem demoTls_conforms (n : Nat) : TlsConforms (demoTls n) := by
  constructor
  · intro tr len
    simp only [demoTls]
    split <;> simp_all
  · intro tr d
    simp only [demoTls]
    split
    · simp only; omega
    · have : sslWantWrite < 0 := by decide
      simp only; omega

example : (dtlsLoop (demoTls 100) 5 []).map (fun r => (r.2, delivered r.1, offered r.1, taken r.1)) =
    some ((true, 0), [[104, 101, 108, 108, 111]], [[104, 101, 108, 108, 111], [104, 101, 108, 108, 111]], [[104, 101, 108, 108, 111]]) := by
  decide +kernel
/-- The handshake and the write are made twice. -/
example : (dtlsLoop (demoTls 100) 5 []).map (fun r => r.1.map (·.1)) = some [.freeClient, .sessionReset, .accept, .transportId, .handshake,
    .handshake, .read 8191, .write [104, 101, 108, 108, 111], .write [104, 101, 108, 108, 111], .closeNotify] := by decide +kernel
example : (dtlsLoop (demoTls 2) 5 []).map (fun r => (r.2, taken r.1)) = some ((true, 0), [[104, 101]]) := by decide +kernel

/-- The second setup fails; the first two clients fail to be accepted. -/
def demoDaemon : TlsLib := fun tr c => match c with
  | .accept => ⟨-1, []⟩
  | .bind => if tr.any (fun p => p.1 == .shutdown) then ⟨-2, []⟩ else ⟨0, []⟩
  | _ => ⟨0, []⟩
example : (dtlsDaemon demoDaemon 5 5).map (fun r => (r.1.map Prod.fst, r.2)) =
    some ([.crtServer, .crtAuthority, .crtAuthority, .keyParse, .bind, .seed, .configDefaults, .ownCert, .cookieSetup, .sslSetup,
      .freeClient, .sessionReset, .accept, .shutdown, .crtServer, .crtAuthority, .crtAuthority, .keyParse, .bind, .shutdown], -2) := by
  decide +kernel

/-- Two clients complete the handshake, the third one fails: only then does the call return. -/
def demoHandshake : TlsLib := fun tr c => match c with
  | .handshake => if 2 ≤ (tr.filter (fun p => p.1 == .handshake)).length then ⟨-3, []⟩ else ⟨0, []⟩
  | _ => ⟨0, []⟩
example : (dtlsHandshake demoHandshake 5 5 []).map (fun t => (t.filter (fun p => p.1 == .handshake)).map (fun p => p.2.code)) =
    some [0, 0, -3] := by decide +kernel

end Verif.Props
