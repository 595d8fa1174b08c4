import Verif.Spec.Blockwise
import Verif.Props.StreamRoundTrip
import Verif.Props.UInt

/-! # C99: a body sent in blocks -/
namespace Verif.Props
open Verif.Model Verif.Spec Verif.Proofs

/-! ## Putting blocks together -/

theorem blockSize_pos (szx : Nat) : 0 < blockSize szx := Nat.two_pow_pos _

theorem blockCount_bound (body : List UInt8) (szx : Nat) (hb : body ≠ []) :
    0 < blockCount body szx ∧ (blockCount body szx - 1) * blockSize szx < body.length ∧ body.length ≤ blockCount body szx * blockSize szx := by
  have hs := blockSize_pos szx
  have hl : 0 < body.length := List.length_pos_iff.mpr hb
  have h1 := Nat.div_add_mod (body.length + blockSize szx - 1) (blockSize szx)
  have h2 := Nat.mod_lt (body.length + blockSize szx - 1) hs
  have h3 : 0 < blockCount body szx := Nat.div_pos (by omega) hs
  refine ⟨h3, ?_, ?_⟩
  · rw [Nat.sub_mul, Nat.one_mul, blockCount, Nat.mul_comm]
    omega
  · rw [blockCount, Nat.mul_comm]
    omega

theorem block_last_iff (body : List UInt8) (szx k : Nat) (hb : body ≠ []) (hk : k < blockCount body szx) :
    (blockOf body szx k).more = false ↔ k + 1 = blockCount body szx := by
  obtain ⟨h0, h1, h2⟩ := blockCount_bound body szx hb
  simp only [blockOf, decide_eq_false_iff_not, Nat.not_lt]
  constructor
  · intro h
    refine Classical.byContradiction fun hn => ?_
    have : k + 1 ≤ blockCount body szx - 1 := by omega
    have := Nat.mul_le_mul_right (blockSize szx) this
    omega
  · intro h; rw [h]; exact h2

/-- Everything received is a block of the body. -/
def BlocksOf (body : List UInt8) (szx : Nat) (got : List Block) : Prop := ∀ b ∈ got, ∃ k, k < blockCount body szx ∧ b = blockOf body szx k

theorem find_block {body : List UInt8} {szx : Nat} {got : List Block} (h : BlocksOf body szx got) (k : Nat) :
    (got.find? fun b => b.num == k) = if blockOf body szx k ∈ got then some (blockOf body szx k) else none := by
  cases hf : got.find? fun b => b.num == k with
  | none =>
    rw [if_neg]
    intro hm
    have := List.find?_eq_none.mp hf _ hm
    simp [blockOf] at this
  | some b =>
    have hm := List.mem_of_find?_eq_some hf
    have hn : b.num = k := by simpa using List.find?_some hf
    obtain ⟨j, -, rfl⟩ := h b hm
    have : j = k := hn
    subst this
    rw [if_pos hm]

theorem gather_eq {body : List UInt8} {szx : Nat} {got : List Block} (h : BlocksOf body szx got) (n : Nat) :
    gather got n = if ∀ k, k < n → blockOf body szx k ∈ got then some (body.take (n * blockSize szx)) else none := by
  induction n with
  | zero => simp [gather]
  | succ n ih =>
    rw [gather, ih, find_block h n]
    by_cases h1 : ∀ k, k < n → blockOf body szx k ∈ got
    · by_cases h2 : blockOf body szx n ∈ got
      · rw [if_pos h1, if_pos h2, if_pos]
        · simp only [blockOf, Nat.succ_mul, List.take_add]
        · intro k hk
          by_cases hkn : k = n
          · subst hkn; exact h2
          · exact h1 k (by omega)
      · rw [if_pos h1, if_neg h2, if_neg fun hc => h2 (hc n (by omega))]
    · have h3 : ¬ ∀ k, k < n + 1 → blockOf body szx k ∈ got := fun hc => h1 fun k hk => hc k (by omega)
      rw [if_neg h1, if_neg h3]

/-- C99: whatever blocks of a body have come, in whatever order and however often, they are put together to the body if all are there, and to
nothing otherwise. -/
theorem blocks_assembled {body : List UInt8} {szx : Nat} {got : List Block} (hb : body ≠ []) (h : BlocksOf body szx got) :
    assemble got = if ∀ k, k < blockCount body szx → blockOf body szx k ∈ got then some body else none := by
  obtain ⟨h0, h1, h2⟩ := blockCount_bound body szx hb
  rw [assemble]
  cases hf : got.find? fun b => !b.more with
  | none =>
    dsimp only
    rw [if_neg]
    intro hc
    have := List.find?_eq_none.mp hf _ (hc (blockCount body szx - 1) (by omega))
    rw [(block_last_iff body szx _ hb (by omega)).mpr (by omega)] at this
    exact absurd rfl this
  | some last =>
    dsimp only
    have hm := List.mem_of_find?_eq_some hf
    have hl : last.more = false := by simpa using List.find?_some hf
    obtain ⟨j, hj, rfl⟩ := h last hm
    have hj1 := (block_last_iff body szx j hb hj).mp hl
    rw [show (blockOf body szx j).num + 1 = blockCount body szx from hj1, gather_eq h, List.take_of_length_le h2]

/-! ## A block in a message -/

/-- Which option values and payload a report has for an option number: the first complete value and the first complete payload. -/
def reportedValue (number : UInt16) : List Event → Option (List UInt8)
  | [] => none
  | .option n v true :: evs => if n = number then some v else reportedValue number evs
  | _ :: evs => reportedValue number evs

/-- The first complete payload of a report. -/
def reportedPayload : List Event → Option (List UInt8)
  | [] => none
  | .payload p true :: _ => some p
  | _ :: evs => reportedPayload evs

/-- A receiver: value of the block option and payload, read with the functions of src/coap/blockwise.h:12-39; `none` without both, and when they
read outside the value. -/
def blockReported (number : UInt16) (evs : List Event) : Option Block :=
  match reportedValue number evs, reportedPayload evs with
  | some v, some p =>
    match blockDecodeM v, blockDecodeSzx v with
    | some more, some size => some ⟨blockDecodeNum v, more, size, p⟩
    | _, _ => none
  | _, _ => none

/-- A sender: block `k` of the body with the option made by `option_block_encode` (src/coap/blockwise.h:44-67) among other options, written
through the stream encoder; `none` for what is undefined or does not fit. -/
def sendBlock (cap : Nat) (h : Header) (token : List UInt8) (pre post : List Opt) (number : Nat) (szx : UInt8) (body : List UInt8) (k : UInt32)
    (buf : List UInt8) : Option (List UInt8) :=
  match blockEncode buf k (blockOf body szx.toNat k.toNat).more szx with
  | none => none
  | some (buf', n) =>
    match writeMsg (SEnc.init cap) h token (pre ++ ⟨number, buf'.take n.toNat⟩ :: post) (some (blockOf body szx.toNat k.toNat).bytes) with
    | .ok (s, true) => some s.out
    | _ => none

theorem optsOk_value {number : Nat} {v : List UInt8} {post : List Opt} (hv : v.length < 65536) :
    ∀ {prev : Nat} {pre : List Opt}, OptsOk prev (pre ++ ⟨number, []⟩ :: post) → OptsOk prev (pre ++ ⟨number, v⟩ :: post)
  | _, [], h => ⟨h.1, h.2.1, hv, h.2.2.2⟩
  | _, _ :: _, h => ⟨h.1, h.2.1, h.2.2.1, optsOk_value hv h.2.2.2⟩

theorem encodable_value {number : Nat} {v : List UInt8} {post : List Opt} (hv : v.length < 13) :
    ∀ {prev : Nat} {pre : List Opt}, OptsEncodable prev (pre ++ ⟨number, []⟩ :: post) → OptsEncodable prev (pre ++ ⟨number, v⟩ :: post)
  | _, [], h => ⟨⟨h.1.1, Or.inl hv⟩, h.2⟩
  | _, _ :: _, h => ⟨h.1, encodable_value hv h.2⟩

theorem optsOk_number_lt {o : Opt} : ∀ {prev : Nat} {os : List Opt}, OptsOk prev os → o ∈ os → o.number < 65536
  | _, _ :: _, h, hm => by
    rcases List.mem_cons.mp hm with rfl | hm
    · exact h.2.1
    · exact optsOk_number_lt h.2.2.2 hm

theorem reportedValue_opts {number : Nat} {v : List UInt8} {post : List Opt} {rest : List Event} (hn : number < 65536) :
    ∀ {pre : List Opt}, (∀ o ∈ pre, o.number < 65536 ∧ o.number ≠ number) →
      reportedValue (UInt16.ofNat number)
        ((pre ++ ⟨number, v⟩ :: post).map (fun o => Event.option (UInt16.ofNat o.number) o.value true) ++ rest) = some v
  | [], _ => by simp [reportedValue]
  | o :: pre, h => by
    obtain ⟨h1, h2⟩ := h o (by simp)
    have hne : UInt16.ofNat o.number ≠ UInt16.ofNat number := by
      intro e
      have := congrArg UInt16.toNat e
      rw [UInt16.toNat_ofNat_of_lt' h1, UInt16.toNat_ofNat_of_lt' hn] at this
      exact h2 this
    simp only [List.cons_append, List.map_cons, reportedValue, if_neg hne]
    exact reportedValue_opts hn fun x hx => h x (by simp [hx])

theorem reportedPayload_opts {p : List UInt8} {rest : List Event} : ∀ os : List Opt,
    reportedPayload (os.map (fun o => Event.option (UInt16.ofNat o.number) o.value true) ++ ([.optionsCompleted] ++ [.payload p true] ++ rest)) = some p
  | [] => rfl
  | o :: os => by simpa [reportedPayload] using reportedPayload_opts (p := p) (rest := rest) os

theorem block_bytes_ne {body : List UInt8} {szx k : Nat} (hk : k < blockCount body szx) (hb : body ≠ []) : (blockOf body szx k).bytes ≠ [] := by
  obtain ⟨h0, h1, h2⟩ := blockCount_bound body szx hb
  have hs := blockSize_pos szx
  have : k * blockSize szx ≤ (blockCount body szx - 1) * blockSize szx := Nat.mul_le_mul_right _ (by omega)
  intro h
  have := congrArg List.length h
  simp only [blockOf, List.length_take, List.length_drop, List.length_nil] at this
  omega

/-- What the receiver takes from the report on a message. -/
theorem delivery_block {version type code mid : Nat} {token : List UInt8} {pre post : List Opt} {number : Nat} {v p : List UInt8}
    (hok : OptsOk 0 (pre ++ ⟨number, v⟩ :: post)) (hpre : ∀ o ∈ pre, o.number ≠ number) :
    reportedValue (UInt16.ofNat number) (delivery ⟨version, type, code, mid, token, pre ++ ⟨number, v⟩ :: post, some p⟩) = some v ∧
    reportedPayload (delivery ⟨version, type, code, mid, token, pre ++ ⟨number, v⟩ :: post, some p⟩) = some p := by
  have hnum : number < 65536 := optsOk_number_lt (o := ⟨number, v⟩) hok (by simp)
  constructor
  · simp only [delivery, List.append_assoc, List.cons_append, List.nil_append, reportedValue]
    refine Eq.trans ?_ (reportedValue_opts (v := v) (post := post) hnum (pre := pre)
      (rest := Event.optionsCompleted :: Event.payload p true :: [Event.completed]) ?_)
    · simp only [List.append_assoc, List.cons_append, List.nil_append]
    · exact fun o ho => ⟨optsOk_number_lt hok (by simp [ho]), hpre o ho⟩
  · simp only [delivery, List.append_assoc, List.cons_append, List.nil_append, reportedPayload]
    refine Eq.trans ?_ (reportedPayload_opts (p := p) (rest := [Event.completed]) (pre ++ ⟨number, v⟩ :: post))
    simp only [List.append_assoc, List.cons_append, List.nil_append]

/-- C99 (partial: not the first block): block `k` of a body, written with its option among other options, is sent, and the decoder, whatever its
memory held, reports a message from which the receiver reads exactly the number, whether more follow, the size and the bytes of this block.
Missing: block 0, see `block_first_undefined`. -/
theorem block_sent_partial (version type code mid : Nat) (token : List UInt8) (pre post : List Opt) (number : Nat)
    (h : Header) (hh : fields h.b0 h.b1 h.b2 h.b3 = ⟨version, type, token.length, code, mid⟩) (ht : token.length ≤ 8)
    (hok : OptsOk 0 (pre ++ ⟨number, []⟩ :: post)) (henc : OptsEncodable 0 (pre ++ ⟨number, []⟩ :: post))
    (hpre : ∀ o ∈ pre, o.number ≠ number) (szx : UInt8) (hs : szx.toNat < 8) (body : List UInt8) (hb : body ≠ []) (k : UInt32) (h0 : k ≠ 0)
    (hn : k.toNat < 2 ^ 28) (hk : k.toNat < blockCount body szx.toNat) (buf : List UInt8) (hbuf : 4 ≤ buf.length)
    (cap : Nat) (hcap : 5 + token.length + (optsRoom (pre ++ ⟨number, []⟩ :: post) + 4) + blockSize szx.toNat ≤ cap) :
    ∃ w, sendBlock cap h token pre post number szx body k buf = some w ∧
      ∀ junk : Dec, junk.tbuf.length = 8 → ∃ N d' evs, d'.st = .done ∧
        (∀ fuel, N ≤ fuel → Dec.processToDone fuel (Dec.fresh junk) ⟨w, 0, true⟩ = .ok (d', ⟨w, w.length, true⟩, evs)) ∧
        blockReported (UInt16.ofNat number) evs = some (blockOf body szx.toNat k.toNat) := by
  obtain ⟨out, eb, l0, l4, -, hv, -⟩ := block_encode_partial k (blockOf body szx.toNat k.toNat).more szx buf h0 hn hs hbuf
  have hl : (UInt8.ofNat out.length).toNat = out.length := by rw [UInt8.toNat_ofNat']; omega
  have htk : (out ++ buf.drop out.length).take (UInt8.ofNat out.length).toNat = out := by rw [hl]; simp
  obtain ⟨dn, dm, ds⟩ := block_decode out (List.length_pos_iff.mp l0) l4 k.toNat szx.toNat (blockOf body szx.toNat k.toNat).more hs hv
  simp only [fields, Fields.mk.injEq] at hh
  obtain ⟨f1, f2, f3, f4, f5⟩ := hh
  have hb0 := h.b0.toNat_lt
  have hb1 := h.b1.toNat_lt
  have hb2 := h.b2.toNat_lt
  have hb3 := h.b3.toNat_lt
  have hm : (⟨version, type, code, mid, token, pre ++ ⟨number, out⟩ :: post, some (blockOf body szx.toNat k.toNat).bytes⟩ : Msg).Ok := by
    refine ⟨?_, ?_, ?_, ?_, ht, optsOk_value (by omega) hok, ?_⟩
    · dsimp only; omega
    · dsimp only; omega
    · dsimp only; omega
    · dsimp only; omega
    · simpa using block_bytes_ne hk hb
  obtain ⟨w, hw, hwr, hd⟩ := stream_round_trip_partial _ hm (encodable_value (by omega) henc) h
    (by simp only [fields, Fields.mk.injEq]; exact ⟨f1, f2, f3, f4, f5⟩)
  have hroom : optsRoom (pre ++ ⟨number, out⟩ :: post) = optsRoom (pre ++ ⟨number, []⟩ :: post) + out.length := by
    simp only [optsRoom, List.map_append, List.map_cons, List.sum_append, List.sum_cons, List.length_nil]; omega
  have hbl : (blockOf body szx.toNat k.toNat).bytes.length ≤ blockSize szx.toNat := by
    simp only [blockOf, List.length_take]; omega
  obtain ⟨s', e1, e2⟩ := hwr cap (by
    refine Nat.le_trans hw ?_
    simp only [Option.getD_some, hroom]; omega)
  refine ⟨w, ?_, fun junk hj => ?_⟩
  · simp only [sendBlock, eb, htk]
    simp only [] at e1
    rw [e1]
    exact congrArg some e2
  · obtain ⟨N, d', hst, he⟩ := hd junk hj (by simp)
    refine ⟨N, d', _, hst, he, ?_⟩
    obtain ⟨r1, r2⟩ := delivery_block (version := version) (type := type) (code := code) (mid := mid) (token := token)
      (p := (blockOf body szx.toNat k.toNat).bytes) (optsOk_value (v := out) (by omega) hok) hpre
    simp only [blockReported, r1, r2, dm, ds, dn]
    rfl

/-- C99 fails for every body: the message with the first block cannot be made, because its option is written in front of its place. -/
theorem block_first_undefined (cap : Nat) (h : Header) (token : List UInt8) (pre post : List Opt) (number : Nat) (szx : UInt8) (body : List UInt8)
    (buf : List UInt8) : sendBlock cap h token pre post number szx body 0 buf = none := by
  simp only [sendBlock, block_zero_undefined]

/-- A block sent in a message and decoded there: whatever the sender's buffer held, and whatever the decoder's memory held. -/
def Arrives (cap : Nat) (h : Header) (token : List UInt8) (pre post : List Opt) (number : Nat) (szx : UInt8) (body : List UInt8)
    (buf : List UInt8) (k : UInt32) (junk : Dec) (b : Block) : Prop :=
  ∃ w N d' evs, sendBlock cap h token pre post number szx body k buf = some w ∧ d'.st = .done ∧
    (∀ fuel, N ≤ fuel → Dec.processToDone fuel (Dec.fresh junk) ⟨w, 0, true⟩ = .ok (d', ⟨w, w.length, true⟩, evs)) ∧
    blockReported (UInt16.ofNat number) evs = some b

/-- C99 (partial: the first block comes from elsewhere): whatever messages with further blocks arrive, in whatever order and however often, each with its
own decoder, each tells its block, and the blocks are put together to the body if all have come, and to nothing otherwise. -/
theorem block_transfer_partial (version type code mid : Nat) (token : List UInt8) (pre post : List Opt) (number : Nat)
    (h : Header) (hh : fields h.b0 h.b1 h.b2 h.b3 = ⟨version, type, token.length, code, mid⟩) (ht : token.length ≤ 8)
    (hok : OptsOk 0 (pre ++ ⟨number, []⟩ :: post)) (henc : OptsEncodable 0 (pre ++ ⟨number, []⟩ :: post))
    (hpre : ∀ o ∈ pre, o.number ≠ number) (szx : UInt8) (hs : szx.toNat < 8) (body : List UInt8) (hb : body ≠ [])
    (cap : Nat) (hcap : 5 + token.length + (optsRoom (pre ++ ⟨number, []⟩ :: post) + 4) + blockSize szx.toNat ≤ cap)
    (came : List (UInt32 × Dec × List UInt8))
    (hc : ∀ a ∈ came, a.1 ≠ 0 ∧ a.1.toNat < 2 ^ 28 ∧ a.1.toNat < blockCount body szx.toNat ∧ a.2.1.tbuf.length = 8 ∧ 4 ≤ a.2.2.length) :
    (∀ a ∈ came, Arrives cap h token pre post number szx body a.2.2 a.1 a.2.1 (blockOf body szx.toNat a.1.toNat)) ∧
    assemble (blockOf body szx.toNat 0 :: came.map fun a => blockOf body szx.toNat a.1.toNat) =
      if ∀ k, k < blockCount body szx.toNat → 0 < k → ∃ a ∈ came, a.1.toNat = k then some body else none := by
  refine ⟨fun a ha => ?_, ?_⟩
  · obtain ⟨c1, c2, c3, c4, c5⟩ := hc a ha
    obtain ⟨w, e, hd⟩ := block_sent_partial version type code mid token pre post number h hh ht hok henc hpre szx hs body hb a.1 c1 c2 c3 a.2.2 c5
      cap hcap
    obtain ⟨N, d', evs, h1, h2, h3⟩ := hd a.2.1 c4
    exact ⟨w, N, d', evs, e, h1, h2, h3⟩
  · have h0 := (blockCount_bound body szx.toNat hb).1
    rw [blocks_assembled (body := body) (szx := szx.toNat) hb]
    · have key : (∀ k, k < blockCount body szx.toNat →
          blockOf body szx.toNat k ∈ blockOf body szx.toNat 0 :: came.map fun a => blockOf body szx.toNat a.1.toNat) ↔
          ∀ k, k < blockCount body szx.toNat → 0 < k → ∃ a ∈ came, a.1.toNat = k := by
        constructor
        · intro hall k hkc hk
          rcases List.mem_cons.mp (hall k hkc) with e | e
          · have : k = 0 := congrArg Block.num e
            omega
          · obtain ⟨a, ha, e⟩ := List.mem_map.mp e
            exact ⟨a, ha, congrArg Block.num e⟩
        · intro hall k hkc
          by_cases hk : k = 0
          · subst hk; simp
          · obtain ⟨a, ha, rfl⟩ := hall k hkc (by omega)
            exact List.mem_cons_of_mem _ (List.mem_map.mpr ⟨a, ha, rfl⟩)
      by_cases hall : ∀ k, k < blockCount body szx.toNat → 0 < k → ∃ a ∈ came, a.1.toNat = k
      · rw [if_pos (key.mpr hall), if_pos hall]
      · rw [if_neg (fun x => hall (key.mp x)), if_neg hall]
    · intro b hbm
      rcases List.mem_cons.mp hbm with rfl | hbm
      · exact ⟨0, h0, rfl⟩
      · obtain ⟨a, ha, rfl⟩ := List.mem_map.mp hbm
        exact ⟨_, (hc a ha).2.2.1, rfl⟩

/-- C99, the receiving side exactly: a block in a well-formed message of any sender, with any encoding of the options, is read right if and only if
its option value is not empty.  The empty value is the shortest form of the only block, of 16 bytes at most, and is read outside. -/
theorem block_received_iff (m : Msg) (hm : m.Ok) (ob : List UInt8) (hob : IsOpts 0 m.opts ob) (pre post : List Opt) (number : Nat) (v p : List UInt8)
    (ho : m.opts = pre ++ ⟨number, v⟩ :: post) (hpre : ∀ o ∈ pre, o.number ≠ number) (hp : m.payload = some p) (num szx : Nat) (more : Bool)
    (hs : szx < 8) (hl : v.length ≤ 4) (hv : beValue v = blockValue num more szx) (junk : Dec) (hj : junk.tbuf.length = 8) :
    ∃ N d' evs, (∀ fuel, N ≤ fuel → Dec.processToDone fuel (Dec.fresh junk) ⟨wire m ob, 0, true⟩ =
        .ok (d', ⟨wire m ob, (wire m ob).length, true⟩, evs)) ∧
      (blockReported (UInt16.ofNat number) evs = some ⟨num, more, blockSize szx, p⟩ ↔ v ≠ []) := by
  obtain ⟨N, d', -, -, he⟩ := wire_delivered_partial m hm ob hob junk hj (by rw [hp]; simp)
  refine ⟨N, d', delivery m, he, ?_⟩
  obtain ⟨version, type, code, mid, token, opts, payload⟩ := m
  simp only at ho hp
  subst ho hp
  obtain ⟨r1, r2⟩ := delivery_block (version := version) (type := type) (code := code) (mid := mid) (token := token) (p := p) hm.2.2.2.2.2.1 hpre
  constructor
  · rintro h rfl
    simp only [blockReported, r1, r2, block_decode_empty_undefined.1] at h
    cases h
  · intro hne
    obtain ⟨dn, dm, ds⟩ := block_decode v hne hl num szx more hs hv
    simp only [blockReported, r1, r2, dm, ds, dn]
    rfl

/-- A body of 40 bytes in blocks of 16: three blocks, of which the last has eight bytes. -/
example : blockCount (List.replicate 40 7) 0 = 3 ∧ blockOf (List.replicate 40 7) 0 2 = ⟨2, false, 16, List.replicate 8 7⟩ ∧
    assemble [blockOf (List.replicate 40 7) 0 2, blockOf (List.replicate 40 7) 0 0, blockOf (List.replicate 40 7) 0 2,
      blockOf (List.replicate 40 7) 0 1] = some (List.replicate 40 7) := by decide

/-- The hypotheses of `block_transfer_partial`: a response with the options Content-Format and Block2. -/
example : OptsOk 0 ([⟨12, [50]⟩] ++ ⟨23, []⟩ :: []) ∧ OptsEncodable 0 ([⟨12, [50]⟩] ++ ⟨23, []⟩ :: []) ∧
    fields 0x61 0x45 0x12 0x34 = ⟨1, 2, [(7 : UInt8)].length, 69, 0x1234⟩ := by decide

/-- The second of three blocks on the wire. -/
example : sendBlock 100 ⟨0x61, 0x45, 0x12, 0x34⟩ [7] [⟨12, [50]⟩] [] 23 0 (List.replicate 40 9) 1 [0, 0, 0, 0] =
    some ([0x61, 0x45, 0x12, 0x34, 7, 0xC1, 50, 0xB1, 0x18, 0xFF] ++ List.replicate 16 9) := by decide +kernel

end Verif.Props
