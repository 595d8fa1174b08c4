import Verif.Spec.ObserveOrder
import Verif.Props.Observable
import Verif.Props.ReadBack

/-! # C102: the order of notifications -/
namespace Verif.Props
open Verif.Model Verif.Model.Observable Verif.Spec Verif.Proofs

/-- A number in its shortest form needs as many bytes as it has digits to the base 256. -/
theorem shortest_le (v : List UInt8) (h0 : v.head? ≠ some 0) (n : Nat) (hn : beValue v < 256 ^ n) : v.length ≤ n := by
  match v with
  | [] => simp
  | x :: xs =>
    have hx : 1 ≤ x.toNat := by
      have : x ≠ 0 := fun h => h0 (by simp [h])
      have : x.toNat ≠ 0 := fun h => this (by apply UInt8.toNat_inj.mp; simpa using h)
      omega
    have hb : 256 ^ xs.length ≤ beValue (x :: xs) := by
      simp only [beValue]
      have : 256 ^ xs.length ≤ x.toNat * 256 ^ xs.length := Nat.le_mul_of_pos_left _ hx
      omega
    have hlt : 256 ^ xs.length < 256 ^ n := by omega
    have := (Nat.pow_lt_pow_iff_right (by decide : 1 < 256)).mp hlt
    simp only [List.length_cons]
    omega

/-- A round of a history, by its number. -/
theorem round_at {A : Type} : ∀ (es : List (Ev A)) (k : Nat), k < rounds es → ∃ p q, es = p ++ .round :: q ∧ rounds p = k
  | [], k, h => by simp [rounds] at h
  | .round :: es, 0, _ => ⟨[], es, rfl, rfl⟩
  | .round :: es, k + 1, h => by
    obtain ⟨p, q, rfl, hp⟩ := round_at es k (by simp only [rounds] at h; omega)
    exact ⟨.round :: p, q, rfl, by simp [rounds, hp]⟩
  | .observe a t c :: es, k, h => by
    obtain ⟨p, q, rfl, hp⟩ := round_at es k (by simpa only [rounds] using h)
    exact ⟨.observe a t c :: p, q, rfl, by simp [rounds, hp]⟩

theorem observeNumber_notification (mid : Nat) (t v : List UInt8) (p : Option (List UInt8)) (n : Nat) (hv : beValue v = n) (h0 : v.head? ≠ some 0) :
    observeNumber (notification mid t v p) = if n < 2 ^ 24 then some n else none := by
  have hiff : v.length ≤ 3 ↔ n < 2 ^ 24 := by
    constructor
    · intro h
      have := beValue_lt v
      have h2 : 256 ^ v.length ≤ 256 ^ 3 := Nat.pow_le_pow_right (by omega) h
      omega
    · intro h
      exact shortest_le v h0 3 (by omega)
  simp only [observeNumber, notification, List.filter_cons, List.filter_nil, beq_self_eq_true, if_true, hiff, hv]

/-- C102: what a registration gets in a history.  In the `k`-th round behind the registration (from 0 on) one message goes
to it, with its token and what the application writes; its number is `k + 1`, as long as that is below 2^24, and it has
none from then on. -/
theorem registration_sent {A : Type} (cap room fuel : Nat) (junk : List UInt8) (text : Session A → List UInt8)
    (hj : 4 ≤ junk.length) (htext : ∀ s, text s ≠ [] ∧ (text s).length + 18 ≤ room) (hf : room + 6 ≤ fuel)
    (before after : List (Ev A)) (a : A) (t : List UInt8) (hfit : Fits cap (before ++ .observe a t 0 :: after))
    (r : Registrar A) (outs : List (List (Sent A)))
    (h : run cap room fuel junk (fun s e => (e.payload (text s)).1) Registrar.init (before ++ .observe a t 0 :: after) = .ok (r, outs))
    (k : Nat) (hk : k < rounds after) :
    ∃ ms m, outs[rounds before + k]? = some ms ∧ ms[(subs before).length]? = some ⟨a, encMsg m⟩ ∧ m.Ok ∧ m.token = t ∧
      m.payload = some (text ⟨a, t, UInt32.ofNat (k + 1)⟩) ∧ observeNumber m = if k + 1 < 2 ^ 24 then some (k + 1) else none := by
  obtain ⟨p, q, rfl, hp⟩ := round_at after k hk
  have hassoc : before ++ .observe a t 0 :: (p ++ .round :: q) = (before ++ .observe a t 0 :: p) ++ .round :: q := by simp
  rw [hassoc] at hfit h
  obtain ⟨hx, hroom⟩ := htext ⟨a, t, UInt32.ofNat (k + 1)⟩
  obtain ⟨r', outs', ms, h1, -, h2, -, h3⟩ := observers_notified_partial cap room fuel junk (fun s e => (e.payload (text s)).1) hj (by omega) hf _ q hfit
  rw [h] at h1
  obtain ⟨rfl, rfl⟩ : r = r' ∧ outs = outs' := by simpa using h1
  have hs : (subs (before ++ .observe a t 0 :: p))[(subs before).length]? = some (a, t, k) := by
    rw [subs_append, List.getElem?_append_right (by simp)]
    simp [subs, hp]
  obtain ⟨v, e, g1, g2, g3, g4, g5⟩ := h3 _ a t k hs
  have htok : t.length ≤ 8 := by
    have := hfit.2.1
    have hmem : ∃ n, (a, t, n) ∈ subs ((before ++ .observe a t 0 :: p) ++ .round :: q) := (mem_subs _ a t).mpr (by simp)
    obtain ⟨n, hn⟩ := hmem
    exact this _ hn
  have hlen : (encMsg (notification ((due (before ++ .observe a t 0 :: p) + (subs before).length) % 65536) t v none)).length ≤ 17 := by
    simp only [encMsg, notification, encHeader, encPayload, encOpts, List.length_append]
    have h1 : (optHeader (6 - 0) v.length).length = 1 := by
      have hl : v.length < 13 := by omega
      simp [optHeader, extBytes, hl]
    simp only [h1, List.length_cons, List.length_nil]
    omega
  obtain ⟨d1, -⟩ := notification_delivered _ (Nat.mod_lt _ (by decide)) t v (text ⟨a, t, UInt32.ofNat (k + 1)⟩) htok g2 e room g4 hx
    (by have := g4.2.2.2.2; omega)
  rw [rounds_append] at h2
  simp only [rounds, hp] at h2
  refine ⟨ms, notification ((due (before ++ .observe a t 0 :: p) + (subs before).length) % 65536) t v (some (text ⟨a, t, UInt32.ofNat (k + 1)⟩)), h2, ?_, ?_, rfl, rfl,
    observeNumber_notification _ _ _ _ _ g1 g3⟩
  · rw [g5, d1]
  · refine ⟨by simp [notification], by simp [notification], by simp [notification], Nat.mod_lt _ (by decide), htok, ⟨by simp, by simp, ?_, trivial⟩, ?_⟩
    · simp only; omega
    · simpa [notification] using hx

theorem newerNumber_iff {a b : Nat} (h1 : a < b + 2 ^ 23) (h2 : b < a + 2 ^ 23) : newerNumber a b = true ↔ a < b := by
  simp only [newerNumber, Bool.or_eq_true, Bool.and_eq_true, decide_eq_true_eq]
  omega

/-- The client, on messages with numbers less than 2^23 apart: it ends with the largest. -/
theorem observeClient_max (sent : Nat → Msg) : ∀ (ks : List Nat) (h : Nat), (∀ k ∈ h :: ks, observeNumber (sent k) = some (k + 1)) →
    (∀ k ∈ h :: ks, ∀ l ∈ h :: ks, k < l + 2 ^ 23) →
    ∃ k ∈ h :: ks, (∀ l ∈ h :: ks, l ≤ k) ∧ observeClient (some (h + 1, sent h)) (ks.map sent) = some (k + 1, sent k)
  | [], h, _, _ => ⟨h, by simp, by simp, rfl⟩
  | k :: ks, h, hn, hd => by
    have hnk := hn k (by simp)
    have hiff := newerNumber_iff (a := h + 1) (b := k + 1) (by have := hd h (by simp) k (by simp); omega) (by have := hd k (by simp) h (by simp); omega)
    simp only [List.map_cons, observeClient, hnk]
    by_cases hlt : h < k
    · rw [if_pos (hiff.mpr (by omega))]
      obtain ⟨x, hx, hmax, e⟩ := observeClient_max sent ks k (fun y hy => hn y (List.mem_cons_of_mem _ hy))
        (fun y hy z hz => hd y (List.mem_cons_of_mem _ hy) z (List.mem_cons_of_mem _ hz))
      refine ⟨x, List.mem_cons_of_mem _ hx, ?_, e⟩
      intro l hl
      rcases List.mem_cons.mp hl with rfl | hl
      · have := hmax k (by simp); omega
      · exact hmax l hl
    · rw [if_neg (fun hc => hlt (by have := hiff.mp hc; omega))]
      have hsub : ∀ y, y ∈ h :: ks → y ∈ h :: k :: ks := by
        intro y hy
        rcases List.mem_cons.mp hy with rfl | hy
        · simp
        · exact List.mem_cons_of_mem _ (List.mem_cons_of_mem _ hy)
      obtain ⟨x, hx, hmax, e⟩ := observeClient_max sent ks h (fun y hy => hn y (hsub y hy)) (fun y hy z hz => hd y (hsub y hy) z (hsub z hz))
      refine ⟨x, hsub x hx, ?_, e⟩
      intro l hl
      rcases List.mem_cons.mp hl with rfl | hl
      · exact hmax l (by simp)
      · rcases List.mem_cons.mp hl with rfl | hl
        · have := hmax h (by simp); omega
        · exact hmax l (List.mem_cons_of_mem _ hl)

/-- Messages without a number change nothing. -/
theorem observeClient_skips (s : Option (Nat × Msg)) : ∀ ms : List Msg, (∀ m ∈ ms, observeNumber m = none) → observeClient s ms = s
  | [], _ => rfl
  | m :: ms, h => by
    simp only [observeClient, h m (by simp)]
    exact observeClient_skips s ms (fun x hx => h x (List.mem_cons_of_mem _ hx))

/-- `sent k` is the message that the `k`-th round behind a registration sends to it; the registration is the one behind
`before`. -/
def SentTo {A : Type} (outs : List (List (Sent A))) (before after : List (Ev A)) (a : A) (sent : Nat → Msg) : Prop :=
  ∀ k, k < rounds after → ∃ ms, outs[rounds before + k]? = some ms ∧ ms[(subs before).length]? = some ⟨a, encMsg (sent k)⟩ ∧ (sent k).Ok

/-- Messages with the same bytes are the same. -/
theorem encMsg_inj (m m' : Msg) (hm : m.Ok) (hm' : m'.Ok) (h : encMsg m = encMsg m') : m = m' := by
  have hob := isOpts_encOpts 0 m.opts hm.2.2.2.2.2.1
  have hob' := isOpts_encOpts 0 m'.opts hm'.2.2.2.2.2.1
  obtain ⟨N, hN⟩ := messages_read_back [(m, encOpts 0 m.opts)] (by simpa using ⟨hm, hob⟩) Dec.zero rfl (.inl rfl)
  obtain ⟨rs, hrs, -⟩ := hN N (Nat.le_refl _)
  have hw : wire m (encOpts 0 m.opts) = wire m' (encOpts 0 m'.opts) := h
  exact reports_tell_apart m m' hm hm' _ _ hob hob' Dec.zero Dec.zero rfl rfl (.inl rfl) (.inl rfl) N N rs hrs (by rw [← hw]; exact hrs)

/-- There is such a message for every round. -/
theorem sentTo_exists {A : Type} (cap room fuel : Nat) (junk : List UInt8) (text : Session A → List UInt8)
    (hj : 4 ≤ junk.length) (htext : ∀ s, text s ≠ [] ∧ (text s).length + 18 ≤ room) (hf : room + 6 ≤ fuel)
    (before after : List (Ev A)) (a : A) (t : List UInt8) (hfit : Fits cap (before ++ .observe a t 0 :: after))
    (r : Registrar A) (outs : List (List (Sent A)))
    (h : run cap room fuel junk (fun s e => (e.payload (text s)).1) Registrar.init (before ++ .observe a t 0 :: after) = .ok (r, outs)) :
    ∃ sent, SentTo outs before after a sent := by
  have hall : ∀ k, ∃ m : Msg, k < rounds after →
      ∃ ms, outs[rounds before + k]? = some ms ∧ ms[(subs before).length]? = some ⟨a, encMsg m⟩ ∧ m.Ok := by
    intro k
    by_cases hk : k < rounds after
    · obtain ⟨ms, m, g1, g2, g3, -⟩ := registration_sent cap room fuel junk text hj htext hf before after a t hfit r outs h k hk
      exact ⟨m, fun _ => ⟨ms, g1, g2, g3⟩⟩
    · exact ⟨⟨1, 0, 0, 0, [], [], none⟩, fun hk' => absurd hk' hk⟩
  exact ⟨fun k => Classical.choose (hall k), fun k hk => Classical.choose_spec (hall k) hk⟩

theorem sentTo_unique {A : Type} {outs : List (List (Sent A))} {before after : List (Ev A)} {a : A} {sent : Nat → Msg}
    (h : SentTo outs before after a sent) {k : Nat} (hk : k < rounds after) {ms : List (Sent A)} {m : Msg}
    (h1 : outs[rounds before + k]? = some ms) (h2 : ms[(subs before).length]? = some ⟨a, encMsg m⟩) (hm : m.Ok) : sent k = m := by
  obtain ⟨ms', g1, g2, g3⟩ := h k hk
  rw [h1] at g1
  obtain rfl : ms = ms' := by simpa using g1
  rw [h2] at g2
  have : encMsg m = encMsg (sent k) := by simpa using g2
  exact (encMsg_inj _ _ hm g3 this).symm

/-- C102 (partial: the numbers below 2^24 and less than 2^23 apart): a client that observes keeps the newest of the
notifications that reach it, in whatever order they come, however often each comes and whichever are lost. -/
theorem client_keeps_newest_partial {A : Type} (cap room fuel : Nat) (junk : List UInt8) (text : Session A → List UInt8)
    (hj : 4 ≤ junk.length) (htext : ∀ s, text s ≠ [] ∧ (text s).length + 18 ≤ room) (hf : room + 6 ≤ fuel)
    (before after : List (Ev A)) (a : A) (t : List UInt8) (hfit : Fits cap (before ++ .observe a t 0 :: after))
    (r : Registrar A) (outs : List (List (Sent A)))
    (h : run cap room fuel junk (fun s e => (e.payload (text s)).1) Registrar.init (before ++ .observe a t 0 :: after) = .ok (r, outs))
    (sent : Nat → Msg) (hsent : SentTo outs before after a sent) (ks : List Nat) (hne : ks ≠ []) (hks : ∀ k ∈ ks, k < rounds after)
    (h24 : ∀ k ∈ ks, k + 1 < 2 ^ 24) (h23 : ∀ k ∈ ks, ∀ l ∈ ks, k < l + 2 ^ 23) :
    ∃ k ∈ ks, (∀ l ∈ ks, l ≤ k) ∧ observeClient none (ks.map sent) = some (k + 1, sent k) ∧
      (sent k).payload = some (text ⟨a, t, UInt32.ofNat (k + 1)⟩) := by
  have hnum : ∀ k ∈ ks, observeNumber (sent k) = some (k + 1) ∧ (sent k).payload = some (text ⟨a, t, UInt32.ofNat (k + 1)⟩) := by
    intro k hk
    obtain ⟨ms, m, g1, g2, g3, -, g4, g5⟩ := registration_sent cap room fuel junk text hj htext hf before after a t hfit r outs h k (hks k hk)
    rw [sentTo_unique hsent (hks k hk) g1 g2 g3, g5, if_pos (h24 k hk)]
    exact ⟨rfl, g4⟩
  match ks, hne with
  | k0 :: ks, _ =>
    obtain ⟨k, hk, hmax, e⟩ := observeClient_max sent ks k0 (fun k hk => (hnum k hk).1) h23
    refine ⟨k, hk, hmax, ?_, (hnum k hk).2⟩
    simp only [List.map_cons, observeClient, (hnum k0 (by simp)).1]
    exact e

/-- C102 (partial as above) with a client of this library: it reads the datagrams that reach it with one decoder, used
before or not, and puts the messages together from what the decoder reports. -/
theorem client_reads_newest_partial {A : Type} (cap room fuel : Nat) (junk : List UInt8) (text : Session A → List UInt8)
    (hj : 4 ≤ junk.length) (htext : ∀ s, text s ≠ [] ∧ (text s).length + 18 ≤ room) (hf : room + 6 ≤ fuel)
    (before after : List (Ev A)) (a : A) (t : List UInt8) (hfit : Fits cap (before ++ .observe a t 0 :: after))
    (r : Registrar A) (outs : List (List (Sent A)))
    (h : run cap room fuel junk (fun s e => (e.payload (text s)).1) Registrar.init (before ++ .observe a t 0 :: after) = .ok (r, outs))
    (sent : Nat → Msg) (hsent : SentTo outs before after a sent) (ks : List Nat) (hne : ks ≠ []) (hks : ∀ k ∈ ks, k < rounds after)
    (h24 : ∀ k ∈ ks, k + 1 < 2 ^ 24) (h23 : ∀ k ∈ ks, ∀ l ∈ ks, k < l + 2 ^ 23)
    (d : Dec) (hd8 : d.tbuf.length = 8) (hd : d.st = .uninitialized ∨ d.st = .done) :
    ∃ k ∈ ks, (∀ l ∈ ks, l ≤ k) ∧ (sent k).payload = some (text ⟨a, t, UInt32.ofNat (k + 1)⟩) ∧
      ∃ N, ∀ fuel, N ≤ fuel → ∃ rs, reports fuel d (ks.map fun k => encMsg (sent k)) = .ok rs ∧
        observeClient none (rs.filterMap readBack) = some (k + 1, sent k) := by
  obtain ⟨k, hk, hmax, hc, hp⟩ := client_keeps_newest_partial cap room fuel junk text hj htext hf before after a t hfit r outs h sent hsent
    ks hne hks h24 h23
  have hok : ∀ k ∈ ks, (sent k).Ok := by
    intro k hk
    obtain ⟨_, -, -, g⟩ := hsent k (hks k hk)
    exact g
  obtain ⟨N, hN⟩ := messages_read_back (ks.map fun k => (sent k, encOpts 0 (sent k).opts)) (by
    intro x hx
    obtain ⟨k, hk, rfl⟩ := List.mem_map.mp hx
    exact ⟨hok k hk, isOpts_encOpts 0 _ (hok k hk).2.2.2.2.2.1⟩) d hd8 hd
  refine ⟨k, hk, hmax, hp, N, fun fuel hf => ?_⟩
  obtain ⟨rs, h1, h2⟩ := hN fuel hf
  rw [List.map_map] at h1 h2
  refine ⟨rs, h1, ?_⟩
  have : rs.filterMap readBack = ks.map sent := by
    have hfm : rs.filterMap readBack = (rs.map readBack).filterMap id := by rw [List.filterMap_map]; rfl
    rw [hfm, h2, List.filterMap_map]
    exact congrFun (List.filterMap_eq_map (f := sent)) ks
  rw [this, hc]

/-- C102 fails: from the 2^24-th notification of a registration on, a client takes none of them, however many reach it. -/
theorem client_stuck {A : Type} (cap room fuel : Nat) (junk : List UInt8) (text : Session A → List UInt8)
    (hj : 4 ≤ junk.length) (htext : ∀ s, text s ≠ [] ∧ (text s).length + 18 ≤ room) (hf : room + 6 ≤ fuel)
    (before after : List (Ev A)) (a : A) (t : List UInt8) (hfit : Fits cap (before ++ .observe a t 0 :: after))
    (r : Registrar A) (outs : List (List (Sent A)))
    (h : run cap room fuel junk (fun s e => (e.payload (text s)).1) Registrar.init (before ++ .observe a t 0 :: after) = .ok (r, outs))
    (sent : Nat → Msg) (hsent : SentTo outs before after a sent) (ks : List Nat) (hks : ∀ k ∈ ks, k < rounds after)
    (h24 : ∀ k ∈ ks, 2 ^ 24 ≤ k + 1) (s : Option (Nat × Msg)) : observeClient s (ks.map sent) = s := by
  refine observeClient_skips s _ ?_
  intro m hm
  obtain ⟨k, hk, rfl⟩ := List.mem_map.mp hm
  obtain ⟨ms, m, g1, g2, g3, -, -, g5⟩ := registration_sent cap room fuel junk text hj htext hf before after a t hfit r outs h k (hks k hk)
  rw [sentTo_unique hsent (hks k hk) g1 g2 g3, g5, if_neg (by have := h24 k hk; omega)]

/-- C102 fails for a client that asks again, with the same token: it has two registrations, and the numbers of the second
begin anew.  A client that has got the notification of the first in one round takes that of the second in a later round
for an old one exactly if no more rounds lie between these two than between its requests. -/
theorem asked_again_exact {A : Type} (cap room fuel : Nat) (junk : List UInt8) (text : Session A → List UInt8)
    (hj : 4 ≤ junk.length) (htext : ∀ s, text s ≠ [] ∧ (text s).length + 18 ≤ room) (hf : room + 6 ≤ fuel)
    (before between after : List (Ev A)) (a : A) (t : List UInt8)
    (hfit : Fits cap (before ++ .observe a t 0 :: (between ++ .observe a t 0 :: after)))
    (r : Registrar A) (outs : List (List (Sent A)))
    (h : run cap room fuel junk (fun s e => (e.payload (text s)).1) Registrar.init
      (before ++ .observe a t 0 :: (between ++ .observe a t 0 :: after)) = .ok (r, outs))
    (first second : Nat → Msg) (h1 : SentTo outs before (between ++ .observe a t 0 :: after) a first)
    (h2 : SentTo outs (before ++ .observe a t 0 :: between) after a second) (k l : Nat) (hl : l < rounds after)
    (hkl : k < l) (h24 : rounds between + l + 1 < 2 ^ 24) (h23 : rounds between + k < l + 2 ^ 23)
    (h23' : l < rounds between + k + 2 ^ 23) :
    observeClient none [first (rounds between + k), second l] =
      (if l - k ≤ rounds between then some (rounds between + k + 1, first (rounds between + k)) else some (l + 1, second l)) ∧
    (second l).payload = some (text ⟨a, t, UInt32.ofNat (l + 1)⟩) := by
  have hr : rounds (between ++ .observe a t 0 :: after) = rounds between + rounds after := by rw [rounds_append]; rfl
  obtain ⟨ms, m, g1, g2, g3, -, -, g5⟩ := registration_sent cap room fuel junk text hj htext hf before _ a t hfit r outs h (rounds between + k) (by omega)
  have hassoc : before ++ .observe a t 0 :: (between ++ .observe a t 0 :: after) = (before ++ .observe a t 0 :: between) ++ .observe a t 0 :: after := by simp
  rw [hassoc] at hfit h
  obtain ⟨ms', m', e1, e2, e3, -, e4, e5⟩ := registration_sent cap room fuel junk text hj htext hf _ after a t hfit r outs h l hl
  rw [sentTo_unique h1 (by omega) g1 g2 g3, sentTo_unique h2 hl e1 e2 e3]
  rw [if_pos (by omega)] at g5 e5
  refine ⟨?_, e4⟩
  have hiff := newerNumber_iff (a := rounds between + k + 1) (b := l + 1) (by omega) (by omega)
  simp only [observeClient, g5, e5]
  by_cases hb : l - k ≤ rounds between
  · rw [if_pos hb, if_neg (fun hc => by have := hiff.mp hc; omega)]
  · rw [if_neg hb, if_pos (hiff.mpr (by omega))]

/-! ## Cases -/

-- three rounds; the second notification is lost and the third overtakes the first
example : (run 4 30 50 [0, 0, 0, 0] (fun _ e => (e.payload [0x2A]).1) (Registrar.init (A := Nat)) ([] ++ .observe 7 [0xAA] 0 :: [.round, .round, .round])).toOption.map
      (·.2) = some ((List.range 3).map fun k => [⟨7, encMsg (notification k [0xAA] [UInt8.ofNat (k + 1)] (some [0x2A]))⟩]) ∧
    observeClient none ([2, 0].map fun k => notification k [0xAA] [UInt8.ofNat (k + 1)] (some [0x2A])) = some (3, notification 2 [0xAA] [3] (some [0x2A])) := by
  decide +kernel

theorem rounds_replicate {A : Type} (n : Nat) : rounds (List.replicate n (Ev.round : Ev A)) = n := by
  induction n with
  | zero => rfl
  | succ n ih => simp [List.replicate_succ, rounds, ih]

theorem subs_replicate {A : Type} (n : Nat) : subs (List.replicate n (Ev.round : Ev A)) = [] := by
  induction n with
  | zero => rfl
  | succ n ih => simp [List.replicate_succ, subs, ih]

-- a history with more than 2^24 rounds
example : Fits 1 ([] ++ Ev.observe (7 : Nat) [0xAA] 0 :: List.replicate (2 ^ 24 + 5) .round) ∧
    rounds (List.replicate (2 ^ 24 + 5) (Ev.round : Ev Nat)) = 2 ^ 24 + 5 := by
  refine ⟨⟨?_, ?_, ?_⟩, rounds_replicate _⟩ <;> simp only [List.nil_append, due, subs, if_true, subs_replicate, rounds_replicate] <;> simp

-- asked again after two rounds, then two more rounds; the notification of the first registration in the last round is lost
example : observeClient none [notification 2 [0xAA] [3] (some [1]), notification 5 [0xAA] [2] (some [2])] = some (3, notification 2 [0xAA] [3] (some [1])) ∧
    (run 4 30 50 [0, 0, 0, 0] (fun s e => (e.payload [UInt8.ofNat s.sequence.toNat]).1) (Registrar.init (A := Nat))
      [.observe 7 [0xAA] 0, .round, .round, .observe 7 [0xAA] 0, .round, .round]).toOption.map (·.2.getLast?) =
      some (some [⟨7, encMsg (notification 4 [0xAA] [4] (some [4]))⟩, ⟨7, encMsg (notification 5 [0xAA] [2] (some [2]))⟩]) := by decide +kernel

end Verif.Props
