import Verif.Model.AggregateUri
import Verif.Model.Legacy
import Verif.Model.ManagedBuffer
import Verif.Model.NetBuf
import Verif.Model.OptionMeta
import Verif.Model.Responder
import Verif.Props.Retry
import Verif.Model.Route
import Verif.Conformance.Encoder

/-!
# The model run on the repository's own tests of dispatch, paths, network buffers and retransmission

Tests of the model, not proofs; see `Verif.Conformance.Decoder`.
-/
namespace Verif.Conformance
open Verif.Model Verif.Model.Header

/-- `buffer_plausible` — test/unit-tests/test-data.h:20-31. -/
def bufferPlausible : List UInt8 :=
  [0x40, 0, 0, 0, 0xB4] ++ ascii "TEST" ++ [0x03] ++ ascii "POS" ++ [0xFF, 0x10, 0x11, 0x12, 0x13, 0x14, 0x15, 0x16]

/-- `buffer_with_token` — test/unit-tests/test-data.h:33-39. -/
def bufferWithToken : List UInt8 := [0x42, 0x01, 0x01, 0x23, 0x77, 0x78, 0xFF] ++ ascii "hi"

/-- `buffer_simplest_request` — test/unit-tests/test-data.h:56-59. -/
def bufferSimplestRequest : List UInt8 := [0x40, 0x00, 0x01, 0x23]

/-! ## The older dispatch — test/unit-tests/decoder-subject-test.cpp:55-96, test-observer.h:23-94 -/

/-- "16 bit delta": a request; no token; the options 270 and 271 with their values; the payload. -/
example : ((Dec.legacyRun 40 Dec.zero ⟨buffer16bitDelta, 0, true⟩).toOption.map fun r => r.2.2) =
    some [.header ⟨0x40, 0x01, 0x01, 0x23⟩, .option 270 1, .value 270 [3] true, .option 271 2, .value 271 [4, 5] true,
      .payload [0x10, 0x11, 0x12, 0x13, 0x14, 0x15, 0x16] true, .complete] := by decide +kernel

example : (⟨0x40, 0x01, 0x01, 0x23⟩ : Header).isRequest = true := by decide +kernel

/-- "payload only". -/
example : ((Dec.legacyRun 40 Dec.zero ⟨bufferPayloadOnly, 0, true⟩).toOption.map fun r => r.2.2.head?) =
    some (some (.header ⟨0x40, 0, 0, 0⟩)) ∧ (⟨0x40, 0, 0, 0⟩ : Header).isRequest = true := by decide +kernel

/-! ## Subject and observers — test/unit-tests/decoder-subject-test.cpp:119-219, test-observer.h:139-157 -/

/-- What the observers of the tests count: options, and the completion. -/
def counts : Event → Bool
  | .option .. => true
  | .completed => true
  | _ => false

/-- "stateless subject", "DecoderContext / subject observe test": three events counted, the completion last, and every
option number at least 270. -/
example : ((Dec.processToDone 60 Dec.zero ⟨buffer16bitDelta, 0, true⟩).toOption.map fun r => r.2.2.filter counts) =
    some [.option 270 [3] true, .option 271 [4, 5] true, .completed] := by decide +kernel

/-- "regular subject" on a stream. -/
example : ((SDec.processToDone ⟨false, true⟩ 60 Dec.zero ⟨buffer16bitDelta, []⟩).toOption.map fun r => r.2.filter counts) =
    some [.option 270 [3] true, .option 271 [4, 5] true, .completed] := by decide +kernel

/-- `while(!decode_and_notify(...))` and one more call — test/unity/decoder.cpp:135-158. -/
def whileNotEnd : Nat → Dec → Sb → Option (List Event)
  | 0, _, _ => none
  | fuel + 1, d, s =>
    match SDec.stepNotify ⟨false, true⟩ d s with
    | .error _ => none
    | .ok (d, s, evs, true) =>
      match SDec.stepNotify ⟨false, true⟩ d s with
      | .error _ => none
      | .ok (_, _, evs', _) => some (evs ++ evs')
    | .ok (d, s, evs, false) => (whileNotEnd fuel d s).map (evs ++ ·)

/-- `test_decode_and_notify` — test/unity/decoder.cpp:93-158: six events besides the start and the end of the options. -/
example : ((whileNotEnd 60 Dec.zero ⟨buffer16bitDelta, []⟩).map fun l =>
      (l.filter fun e => e != .optionStart && e != .optionsCompleted).length) = some 6 := by decide +kernel

/-- `test_encoder_1` — test/unity/encoder.cpp:17-56. -/
def unityEncoder1 : Except Fault (List UInt8) := do
  let s := (SEnc.init 512).header (mk1 confirmable)
  let (s, _) ← s.optionHeader 11 4
  let s := (s.putn (ascii "TEST")).1
  let (s, _) ← s.optionHeader 11 3
  let s := (s.putn (ascii "POS")).1
  let (s, _) := s.payloadMarker
  pure (s.putn [0x10, 0x11, 0x12, 0x13, 0x14, 0x15, 0x16]).1.out

example : unityEncoder1 = .ok bufferPlausible := by decide +kernel

/-- The context of `test_build_reply` — test/unity/encoder.cpp:58-72. -/
def replyContext : SCtx := (SCtx.init [] (List.replicate 8 0)).setHeader ((mk1 confirmable).setMessageId 0x123)

/-- `test_build_reply` — test/unity/encoder.cpp:58-98: the fields of the header. -/
example : (replyContext.buildReply 512 200).toOption = some [0x60, 200, 0x01, 0x23] ∧
    (⟨0x60, 200, 0x01, 0x23⟩ : Header).version = 1 ∧ (⟨0x60, 200, 0x01, 0x23⟩ : Header).tokenLength = 0 ∧
    (⟨0x60, 200, 0x01, 0x23⟩ : Header).code = 200 ∧ (⟨0x60, 200, 0x01, 0x23⟩ : Header).messageId = 0x123 := by
  decide +kernel

/-- The same test: with the option Accept and the payload marker there are eight bytes. -/
def unityReply : Except Fault Nat := do
  let s := (((SEnc.init 512).header ((replyContext.hdr.setCode 200).setType acknowledgement)).token [])
  let (s, _) ← s.optionInt 8 17 50 [0, 0, 0, 0]
  pure s.payloadMarker.1.out.length

example : unityReply = .ok 8 := by decide +kernel

/-- `test_build_reply_stream` — test/unity/encoder.cpp:100-130: eleven bytes. -/
example : (((((SEnc.init 512).header ((replyContext.hdr.setCode 0x43).setType acknowledgement)).token []).payloadMarker.1.putn
      (ascii "{hi2u}")).1.out.length) = 11 := by decide +kernel

/-- `test_default_header` — test/unity/basic.cpp:7-13. -/
example : (mk1 acknowledgement).type = acknowledgement ∧ (mk1 acknowledgement).version = 1 := by decide +kernel

/-! ## Paths — test/unit-tests/test-uri-data.h:31-52, experimental2-test.cpp, test/unity/uri.cpp -/

/-- `uri::map`. -/
def uriMap : List Uri.Entry :=
  [⟨"v1".toList, 0, -1⟩, ⟨"api".toList, 1, 0⟩, ⟨"power".toList, 2, 1⟩, ⟨"test".toList, 6, 1⟩, ⟨"v2".toList, 4, -1⟩,
   ⟨"api".toList, 5, 4⟩, ⟨"nested".toList, 9, 5⟩, ⟨"nested".toList, 10, 9⟩, ⟨"test".toList, 11, 5⟩,
   ⟨".well-known".toList, 7, 0⟩, ⟨"core".toList, 8, 7⟩]

/-- `match(map, 3, "api", 0)` and `test_uri_match`. -/
example : (Uri.match_ (uriMap.take 3) "api".toList 0).map (·.id) = some 1 ∧
    (Uri.match_ (uriMap.take 8) "test".toList 1).map (·.id) = some 6 := by decide +kernel

/-- `UriPathMatcher2`: the search without state, then with state for v1, api, power. -/
example : Uri.find2 uriMap "v1".toList Uri.none_ = 0 ∧
    ((Uri.Matcher.init uriMap).find2 "v1".toList).2 = 0 ∧
    (((Uri.Matcher.init uriMap).find2 "v1".toList).1.find2 "api".toList).2 = 1 ∧
    ((((Uri.Matcher.init uriMap).find2 "v1".toList).1.find2 "api".toList).1.find2 "power".toList).2 = 2 := by
  decide +kernel

/-- `UriPathMatcher3`: v2/api, v2/api/nested/nested, v2/api/test, v3. -/
example : (((Uri.Matcher.init uriMap).find "v2".toList).2.map (·.id)) = some 4 ∧
    (((Uri.Matcher.init uriMap).feed ["v2".toList]).find "api".toList).2.map (·.id) = some 5 ∧
    (((Uri.Matcher.init uriMap).feed ["v2".toList, "api".toList]).find "nested".toList).2.map (·.id) = some 9 ∧
    (((Uri.Matcher.init uriMap).feed ["v2".toList, "api".toList, "nested".toList]).find "nested".toList).2.map (·.id) = some 10 ∧
    (((Uri.Matcher.init uriMap).feed ["v2".toList, "api".toList]).find "test".toList).2.map (·.id) = some 11 ∧
    ((Uri.Matcher.init uriMap).find "v3".toList).2 = none := by decide +kernel

/-- `test_uri_match2` — test/unity/uri.cpp:17-33. -/
example : ((Uri.Matcher.init uriMap).feed ["v1".toList, "api".toList, "power".toList]).lastFound = 2 := by decide +kernel

/-! ## Factories, traits and the managed buffer — test/unit-tests/experimental-test.cpp:73-246 -/

/-- "FnFactory". -/
example :
    let items : List (List UInt8 × Option (Unit → Int)) := [(ascii "wilma", some fun _ => 77), (ascii "fred", some fun _ => 7)]
    let f := fun key => Dispatch.create (fun (a b : List UInt8) => a == b) (-1) items key ()
    f (ascii "test") = -1 ∧ f (ascii "fred") = 7 ∧ f (ascii "wilma") = 77 ∧
      Dispatch.create (Dispatch.startsWith true) (-1) items (ascii "fred") () = 7 := by decide +kernel

/-- "Map". -/
example :
    let items : List (List UInt8 × Int) := [(ascii "fred", 7), (ascii "barny", 77)]
    let f := fun key => Dispatch.find (fun (a b : List UInt8) => a == b) (-1) key items
    f (ascii "fred") = 7 ∧ f (ascii "barny") = 77 ∧ f (ascii "wilma") = -1 := by decide +kernel

/-- "experimental new uri dispatcher". -/
example : (Dispatch.Agg.calls true [ascii "barny"] Dispatch.Agg.init [.option 11 (ascii "barny") true, .complete]).map (·.given) =
    some [(0, .option 11 (ascii "barny") true), (0, .complete)] := by decide +kernel

/-- "option traits", "more option traits". -/
example : OptionMeta.format 11 OptionMeta.traits = .string ∧ OptionMeta.minLen 11 OptionMeta.traits = 0 ∧
    OptionMeta.maxLen 11 OptionMeta.traits = 255 ∧ (OptionMeta.runtimeTrait 11 OptionMeta.traits).format = .string := by
  decide +kernel

/-- "ManagedBuffer": the test's writes and boundaries. -/
def managed : Option MBuf := do
  let b ← (MBuf.init (List.replicate 256 0)).write (ascii "abc")
  let b ← b.boundary 1 3
  let b ← b.write (ascii "ABD")
  let b ← b.boundary 1 4
  let b ← b.boundary 2 0
  pure (b.reset false)

example : ((managed.bind (·.currentRo 1)).map fun c => (c.head?, c.length)) = some (some 0x61, 3) ∧
    (((managed.bind (·.next)).bind (·.currentRo 1)).map fun c => (c.head?, c.length)) = some (some 0x41, 4) ∧
    ((managed.bind (·.currentRo 2)).map (·.length)) = some 7 := by decide +kernel

/-- "More ManagedBuffer". -/
def managed2 : Option (List UInt8 × List UInt8) := do
  let b ← (MBuf.init (List.replicate 256 0)).write (ascii "12")
  let b ← b.boundary 2 2
  let b ← b.write (ascii "abc")
  let b ← b.boundary 2 3
  let (x, b) ← (b.reset false).read 2
  let (y, _) ← b.read 2
  pure (x, y)

example : managed2.map (fun r => (r.1, r.2.head?, r.2.length)) = some (ascii "12", some 0x61, 3) := by decide +kernel

/-- test/unit-tests/coap-dispatcher-test.cpp:120-178: the message goes to the observer behind `TEST` and `POS`, with its
payload of seven bytes. -/
example : ((Dec.legacyRun 40 Dec.zero ⟨bufferPlausible, 0, true⟩).toOption.map fun r => r.2.2) =
    some [.header ⟨0x40, 0, 0, 0⟩, .option 11 4, .value 11 (ascii "TEST") true, .option 11 3, .value 11 (ascii "POS") true,
      .payload [0x10, 0x11, 0x12, 0x13, 0x14, 0x15, 0x16] true, .complete] := by decide +kernel

/-- The factories of that test that look at the path. -/
def routes : List Dispatch.Route := [.leaf (ascii "v1") 0, .node (ascii "TEST") [.leaf (ascii "POS") 1]]

/-- The calls of the older dispatch as the dispatcher sees them. -/
def toCall : LEvent → Dispatch.Call
  | .header h => .header h
  | .token t l => .token t l
  | .option n l => .optionHead n l
  | .value n v l => .option n v l
  | .payload p l => .payload p l
  | .complete => .complete

example : (((Dec.legacyRun 40 Dec.zero ⟨bufferPlausible, 0, true⟩).toOption.map fun r =>
      (Dispatch.dispCalls true routes (Dispatch.DState'.init routes) (r.2.2.map toCall)).2.filter fun x =>
        match x.2 with | .payload .. => true | _ => false)) =
    some [(1, .payload [0x10, 0x11, 0x12, 0x13, 0x14, 0x15, 0x16] true)] := by decide +kernel

/-! ## Network buffers — test/unit-tests/netbuf-test.cpp (compiled out at this commit with `#if OBSOLETE`) -/

/-- "netbuf decoder": the header, then an empty token at `OptionsStart`. -/
example : ((Pull.make Dec.zero buffer16bitDelta).header.toOption.map fun r => (r.1.messageId, r.1.tokenLength)) =
    some (0x0123, 0) := by decide +kernel

example : (((Pull.make Dec.zero buffer16bitDelta).header.toOption.bind fun r => r.2.token.toOption).map fun r =>
      (r.1, r.2.2.d.st)) = some ([], .optionsStart) := by decide +kernel

/-- "token decoding". -/
example : (((Pull.make Dec.zero bufferWithToken).header.toOption.bind fun r => r.2.token.toOption).map (·.1)) =
    some [0x77, 0x78] := by decide +kernel

/-- "netbuf copy" and its 'skip' feature. -/
example : (netbufCopy 10 ⟨bufferSimplestRequest, []⟩ ⟨[], [], 64, []⟩ 0).toOption.map (·.cur) = some bufferSimplestRequest ∧
    (netbufCopy 10 ⟨bufferSimplestRequest, []⟩ ⟨[], [], 64, []⟩ 1).toOption.map (·.cur) =
      some (bufferSimplestRequest.drop 1) := by decide +kernel

/-- "coap NetBufDecoder suite": the state in which the reader is left, `Payload` or `Done`. -/
example : ([bufferSimplestRequest, bufferOversimplifiedObserve, bufferPayloadOnly].map fun b =>
      (Pull.readWith (Pull.iterAll 20) (Pull.make Dec.zero b)).toOption.map (·.final)) =
    [some .done, some .done, some .payload] := by decide +kernel

/-- The last section of that suite requires `Payload` for `buffer_16bit_delta`.  It is compiled out, and it does not hold
at this commit: the iterator takes two steps per option header where the decoder now takes one
(`FEATURE_MCCOAP_SUCCINCT_OPTIONDECODE`), see property C50. -/
example : (Pull.readWith (Pull.iterAll 20) (Pull.make Dec.zero buffer16bitDelta)).toOption.map (·.final) =
    some .optionsDone := by decide +kernel

/-! ## Retransmission — test/unit-tests/retry-test.cpp (compiled out at this commit with `#if OBSOLETE`) -/

/-- A message queued at 2000 with a first timeout of 2500, as the test's policies have it. -/
def queued : Retry.Item Nat := ⟨0, 0, 0x123, [], 2500, 0, 4500⟩

/-- "retransmission low level logic". -/
example : queued.delta = 2500 ∧ { queued with counter := 1 }.delta = 5000 ∧ { queued with counter := 2 }.delta = 10000 := by
  decide +kernel

/-- "retry.service - isolated case": sent again at 4600, 9600 and 19600, nothing left at 25000. -/
example : (Retry.run Props.sortedPQ (fun a b : Nat => a == b) Retry.init
      [.sent 2000 2500 0 ⟨0x40, 0x01, 0x01, 0x23⟩ [], .service 4600, .service 9600, .service 19600, .service 25000]).map (·.2) =
    some [.queued 2000 0 2500 0, .sent 4600 0 0, .sent 9600 0 0, .sent 19600 0 0] := by decide +kernel

/-- "retry.service - ack", with the header of `buffer_ack`. -/
example : (Retry.run Props.sortedPQ (fun a b : Nat => a == b) Retry.init
      [.sent 2000 2500 0 ⟨0x40, 0x01, 0x01, 0x23⟩ [], .recv 0 ⟨0x60, 0x00, 0x01, 0x23⟩ [], .service 25000]).map (·.2) =
      some [.queued 2000 0 2500 0, .acked 0] ∧ (⟨0x60, 0x00, 0x01, 0x23⟩ : Header).type = acknowledgement := by
  decide +kernel

end Verif.Conformance
