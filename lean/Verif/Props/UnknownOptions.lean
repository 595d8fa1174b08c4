import Verif.Spec.UnknownOptions
import Verif.Props.Echo
import Verif.Props.ExamplesPlace
import Verif.Props.Responder

/-! # C103: options a server does not know -/
namespace Verif.Props
open Verif.Model Verif.Spec Verif.Proofs Verif.Model.Header Pull Observable

theorem electiveAdded_filter {os os' : List Opt} (h : ElectiveAdded os os') :
    (os'.filter fun o => o.number = 11) = os.filter fun o => o.number = 11 := by
  induction h with
  | nil => rfl
  | keep _ ih => simp only [List.filter_cons, ih]
  | add hu _ _ ih =>
    rename_i o _ _ _ _
    have : o.number ≠ 11 := fun h11 => hu (by rw [h11]; decide)
    simp [this, ih]

theorem electiveAdded_path {m : Msg} {os' : List Opt} (h : ElectiveAdded m.opts os') : uriPath { m with opts := os' } = uriPath m := by
  simp only [uriPath, electiveAdded_filter h]

/-- C103 (partial: elective options, this server): the server that answers 4.04 gives the same bytes with and without
options it does not know, wherever they stand. -/
theorem elective_ignored_partial {m : Msg} (hm : m.Ok) {os' : List Opt} (h : ElectiveAdded m.opts os') (hm' : ({ m with opts := os' } : Msg).Ok)
    {cap : Nat} (hcap : 4 + m.token.length ≤ cap) {paths : List Uri.Entry} (hpf : ParentsFirst paths)
    (junk : Dec) (hb : junk.tbuf.length = 8) (jt : List UInt8) (hj : jt.length = 8) (fuel : Nat)
    (hf : 11 * (encMsg m).length + 6 ≤ fuel) (hf' : 11 * (encMsg { m with opts := os' }).length + 6 ≤ fuel) :
    ∃ r, serve cap paths junk jt fuel (encMsg m) = .ok r ∧ serve cap paths junk jt fuel (encMsg { m with opts := os' }) = .ok r := by
  have hp := electiveAdded_path h
  by_cases hd : ∃ q, q ≠ -1 ∧ Denotes paths (-1) (uriPath m) q
  · obtain ⟨q, hq, hd⟩ := hd
    exact ⟨[], known_path_no_reply hm hcap hpf hq hd junk hb jt hj fuel hf,
      known_path_no_reply hm' hcap hpf hq (by rw [hp]; exact hd) junk hb jt hj fuel hf'⟩
  · have hd' : ∀ q, q ≠ -1 → ¬Denotes paths (-1) (uriPath m) q := fun q hq h => hd ⟨q, hq, h⟩
    exact ⟨_, unknown_path_404 hm hcap hpf hd' junk hb jt hj fuel hf,
      unknown_path_404 hm' hcap hpf (by rw [hp]; exact hd') junk hb jt hj fuel hf'⟩

/-- C103, the same for the server of a node with the stream decoder (partial: exclusions as in `boilerplate_partial`). -/
theorem elective_ignored_stream_partial (k : SbKind) (m : Msg) (hk : EndOk k m) (hm : m.Ok) (os' : List Opt) (h : ElectiveAdded m.opts os')
    (hm' : ({ m with opts := os' } : Msg).Ok) (hk' : EndOk k { m with opts := os' }) (junk : Dec) (hj : junk.tbuf.length = 8)
    (hst : junk.opt.st ≠ .payload ∨ m.token ≠ [] ∨ m.opts ≠ [] ∨ m.payload ≠ none)
    (hc : k.charSigned = true → ∀ b ∈ encHeader m ++ m.token, b ≠ 0xFF) (text : List UInt8) (cap : Nat)
    (hcap : 6 + m.token.length + text.length ≤ cap) {paths : List Uri.Entry} (hpf : ParentsFirst paths) {id : Int} (hid : id ≠ -1)
    (jt : List UInt8) (hjt : jt.length = 8) (jv : List UInt8) :
    ∃ N r, ∀ fuel, N ≤ fuel → serveWith (SCtx.boilerEvent cap id text jv) k paths junk jt fuel ⟨encMsg m, []⟩ = .ok [r] ∧
      serveWith (SCtx.boilerEvent cap id text jv) k paths junk jt fuel ⟨encMsg { m with opts := os' }, []⟩ = .ok [r] := by
  have hp := electiveAdded_path h
  have hst' : junk.opt.st ≠ .payload ∨ m.token ≠ [] ∨ os' ≠ [] ∨ m.payload ≠ none := by
    rcases hst with h1 | h1 | h1 | h1
    · exact .inl h1
    · exact .inr (.inl h1)
    · refine .inr (.inr (.inl fun hn => h1 ?_))
      subst hn
      cases hz : m.opts with
      | nil => rfl
      | cons o os => rw [hz] at h; cases h
    · exact .inr (.inr (.inr h1))
  obtain ⟨N, hN⟩ := boilerplate_partial k m hk hm junk hj hst hc text cap hcap hpf hid jt hjt jv
  obtain ⟨N', hN'⟩ := boilerplate_partial k { m with opts := os' } hk' hm' junk hj hst' hc text cap hcap hpf hid jt hjt jv
  by_cases hd : Denotes paths (-1) (uriPath m) id
  · refine ⟨max N N', encMsg (textReply m text), fun fuel hf => ⟨(hN fuel (by omega)).1 hd, ?_⟩⟩
    exact (hN' fuel (by omega)).1 (by rw [hp]; exact hd)
  · refine ⟨max N N', encMsg (replyTo m 0x84), fun fuel hf => ⟨(hN fuel (by omega)).2 hd, ?_⟩⟩
    exact (hN' fuel (by omega)).2 (by rw [hp]; exact hd)

/-- C103 fails for critical options: a request with a critical option that the server does not know is answered with 2.05
and the text of its node, where RFC 7252 asks for 4.02 — whatever the option, its value and its place. -/
theorem critical_answered {m : Msg} (hm : m.Ok) (_hc : ∃ o ∈ m.opts, UnknownOpt o ∧ Critical o) {text : List UInt8} (ht : text ≠ []) {cap : Nat}
    (hcap : 6 + m.token.length + text.length ≤ cap) {paths : List Uri.Entry} (hpf : ParentsFirst paths) {id : Int} (hid : id ≠ -1)
    (hd : Denotes paths (-1) (uriPath m) id) (junk : Dec) (hb : junk.tbuf.length = 8) (jt : List UInt8) (hj : jt.length = 8)
    (jv : List UInt8) (fuel : Nat) (hf : 11 * (encMsg m).length + 6 ≤ fuel) :
    serveVersion cap paths id text junk jt jv fuel (encMsg m) = .ok [encMsg (textReply m text)] ∧ (textReply m text).code = 0x45 ∧
    ∀ r : Msg, r.code = 0x82 → serveVersion cap paths id text junk jt jv fuel (encMsg m) ≠ .ok [encMsg r] := by
  obtain ⟨-, h⟩ := version_answered hm ht hcap hpf hid hd junk hb jt hj jv fuel hf
  refine ⟨h, rfl, fun r hr he => ?_⟩
  rw [h] at he
  have he : encMsg (textReply m text) = encMsg r := by simpa using he
  have h2 := congrArg (fun l : List UInt8 => l[1]?) he
  simp [encMsg, encHeader, textReply, hr] at h2

/-- C103 fails for elective options with the path example: where it answers a request with its path, one more option that it
does not know, before the path, changes the answer. -/
theorem elective_changes_path (m : Msg) (hm : m.Ok) (pre post : List Opt) (s : List UInt8) (hs : s ≠ []) (ho : m.opts = pre ++ ⟨11, s⟩ :: post)
    (hpre : ∀ o ∈ pre, o.number ≠ 11) (hpost : ∀ o ∈ post, o.number ≠ 11) (x : Opt) (hu : UnknownOpt x) (he : Elective x)
    (hm' : ({ m with opts := pre ++ x :: ⟨11, s⟩ :: post } : Msg).Ok) (junk : Dec)
    (hj : junk.tbuf.length = 8) (junkToken : List UInt8) (hjt : junkToken.length = 8) (junkHeader : Header) (cap room fuel : Nat)
    (hcap : s.length + 1 ≤ cap) (hroom : 13 + cap ≤ room) (hf : m.opts.length + 1 < fuel)
    (hright : uriReply cap room fuel junk junkToken junkHeader (encMsg m) =
      .ok (encMsg (response m (if s = [116, 101, 115, 116] then 0x43 else 0x84) (some (s ++ [47]))))) :
    ElectiveAdded m.opts (pre ++ x :: ⟨11, s⟩ :: post) ∧
    uriReply cap room fuel junk junkToken junkHeader (encMsg { m with opts := pre ++ x :: ⟨11, s⟩ :: post }) ≠
      uriReply cap room fuel junk junkToken junkHeader (encMsg m) := by
  have hadd : ElectiveAdded m.opts (pre ++ x :: ⟨11, s⟩ :: post) := by
    rw [ho]
    have hrefl : ∀ l : List Opt, ElectiveAdded l l := fun l => by
      induction l with
      | nil => exact .nil
      | cons o l ih => exact .keep ih
    clear hpre ho hm'
    induction pre with
    | nil => exact .add hu he (hrefl _)
    | cons o pre ih => exact .keep ih
  refine ⟨hadd, fun heq => ?_⟩
  have hx : x.number ≠ 11 := fun h => hu (by rw [h]; decide)
  have h1 := (path_place_iff m hm pre post s hs ho hpre hpost _ (isOpts_encOpts 0 _ hm.2.2.2.2.2.1) junk hj junkToken hjt junkHeader cap room fuel hcap hroom
    (by omega)).mp hright
  have h2 := path_place_iff { m with opts := pre ++ x :: ⟨11, s⟩ :: post } hm' (pre ++ [x]) post s hs (by simp)
    (fun o hmem => by
      rcases List.mem_append.mp hmem with h | h
      · exact hpre o h
      · rw [List.mem_singleton] at h; subst h; exact hx)
    hpost _ (isOpts_encOpts 0 _ hm'.2.2.2.2.2.1) junk hj junkToken hjt junkHeader cap room fuel hcap hroom
    (by simp only [ho, List.length_append, List.length_cons] at hf ⊢; omega)
  have h3 := h2.mp (heq.trans hright)
  simp only [List.length_append, List.length_cons, List.length_nil] at h3
  omega

end Verif.Props
