import Verif.Model.NetBufEncoder
import Verif.Model.StoredUInt
import Verif.Model.StreamEncoder
import Verif.Conformance.Decoder

/-!
# The model run on the repository's own encoder, header and number tests

Tests of the model, not proofs; see `Verif.Conformance.Decoder`.
-/
namespace Verif.Conformance
open Verif.Model Verif.Model.Header

/-- A short name for the bytes of a text. -/
def ascii (s : String) : List UInt8 := s.toList.map fun c => UInt8.ofNat c.toNat

/-- "Basic header construction" — test/unit-tests/coap_lowlevel.cpp:14-31. -/
example : (mk1 confirmable).type = confirmable ∧ (mk1 confirmable).bytes = [0x40, 0, 0, 0] ∧
    ((mk1 confirmable).setType nonConfirmable).type = nonConfirmable ∧
    ((mk1 confirmable).setType nonConfirmable).bytes = [0x50, 0, 0, 0] := by decide +kernel

/-- `while(sm.state() != OptionValueDone) buffer[counter++] = sm.generate()` — test/unit-tests/coap.cpp:103-106;
`generate` repeats `generate_iterate` until it gives a byte. -/
def generateAll (base : OptBase) : Nat → OptEnc → Option (List UInt8)
  | 0, _ => none
  | fuel + 1, o =>
    if o.st == .optionValueDone then some []
    else match o.generate base with
      | .error _ => none
      | .ok (o, some b) => (generateAll base fuel o).map (b :: ·)
      | .ok (o, none) => generateAll base fuel o

/-- "Basic generating single option" — test/unit-tests/coap.cpp:88-111. -/
example : generateAll ⟨1, 1, ascii "a"⟩ 20 OptEnc.init = some [0x11, 0x61] := by decide +kernel

/-- "Basic generating single option: 16-bit" — test/unit-tests/coap.cpp:112-139. -/
example : generateAll ⟨10000, 1, ascii "a"⟩ 20 OptEnc.init =
    some [0xE1, UInt8.ofNat ((10000 - 269) >>> 8), UInt8.ofNat ((10000 - 269) &&& 0xFF), 0x61] := by decide +kernel

/-- The calls of the test "NetBuf encoder", up to the call numbered `n`. -/
def netbufTest : List (NEnc → Except Fault (NEnc × Bool)) :=
  [fun s => .ok (s.header ((mk1 0).setTokenLength 3)), fun s => .ok (s.token [1, 2, 3]),
   fun s => s.option 40 11 (ascii "test"), fun s => s.option 40 11 (ascii "test2"), fun s => s.option 40 12 [50],
   fun s => .ok (s.payload (ascii "payload"))]

/-- Run a list of calls; what has been written after each of them. -/
def callsOut : NEnc → List (NEnc → Except Fault (NEnc × Bool)) → Option (List Nat × List UInt8)
  | s, [] => some ([], s.out)
  | s, f :: fs =>
    match f s with
    | .error _ => none
    | .ok (s, _) => (callsOut s fs).map fun x => (s.out.length :: x.1, x.2)

/-- "NetBuf encoder" — test/unit-tests/coap-encoder-test.cpp:114-191: the length after each call and the bytes looked
at. -/
example : (callsOut (NEnc.init 256) netbufTest).map (·.1) =
    some [4, 4 + 3, 4 + 3 + 5, 4 + 3 + 5 + 6, 4 + 3 + 5 + 6 + 2, 4 + 3 + 5 + 6 + 2 + 8] := by decide +kernel

example : (callsOut (NEnc.init 256) netbufTest).map (fun x => (x.2[4]?, x.2[5]?, x.2[7]?, x.2[12]?)) =
      some (some 1, some 2, some 0xB4, some 0x05) ∧
    (callsOut (NEnc.init 256) netbufTest).map (fun x => (x.2[18]?, x.2[19]?, x.2[20]?, x.2[21]?)) =
      some (some 0x11, some 50, some 0xFF, some 0x70) := by decide +kernel

/-- "synthetic test 1" — test/unit-tests/coap-encoder-test.cpp:192-218. -/
example : (callsOut (NEnc.init 256) [fun s => .ok (s.header (mk2 confirmable 0x45)), fun s => .ok (s.token [0, 1, 2, 3]),
      fun s => .ok s.payloadHeader, fun s => .ok ((s.write (ascii "hi2u")).1, true)]).map
      (fun x => (x.2.drop 4).take 6) = some [0, 1, 2, 3, 0xFF, 0x68] := by decide +kernel

/-- The header used by the stream encoder's tests — test/unit-tests/coap-encoder-test.cpp:237-240. -/
def testHeader : Header := ((mk1 confirmable).setCode 1).setMessageId 0x0123

/-- "Test 1" of the stream encoder — test/unit-tests/coap-encoder-test.cpp:248-300. -/
def streamTest1 : Except Fault (List UInt8) := do
  let s := (SEnc.init 128).header testHeader
  let (s, _) ← s.optionStr 11 (ascii "hello")
  let (s, _) ← s.option 11 (ascii "hi2u")
  let (s, _) ← s.optionHeader 60 0
  let (s, _) := s.payloadMarker
  pure (s.putn (ascii "PAYLOAD")).1.out

example : streamTest1 = .ok (buffer16bitDelta.take 4 ++ [0xB5] ++ ascii "hello" ++ ([4] : List UInt8) ++ ascii "hi2u" ++
    [0xD0, 60 - 11 - 13] ++ [0xFF] ++ ascii "PAYLOAD") := by decide +kernel

/-- "Regenerate buffer_16bit_delta" and "stream operators" — test/unit-tests/coap-encoder-test.cpp:301-372. -/
def streamTest2 : Except Fault (List UInt8) := do
  let s := ((SEnc.init 128).header testHeader).token []
  let (s, _) ← s.optionHeader 270 1
  let s := (s.putc 3).1
  let (s, _) ← s.optionHeader 271 2
  let s := ((s.putc 4).1.putc 5).1
  let (s, _) := s.payloadMarker
  pure (s.putn [0x10, 0x11, 0x12, 0x13, 0x14, 0x15, 0x16]).1.out

example : streamTest2 = .ok buffer16bitDelta := by decide +kernel

/-- `set_padded` of 77 in four bytes — test/unit-tests/uint-test.cpp. -/
example : uintSetPadded 77 [9, 9, 9, 9] 4 = some [0, 0, 0, 77] ∧ uintGet 32 [0, 0, 0, 77] = 77 := by decide +kernel

/-- Block options — test/unit-tests/blockwise-test.cpp. -/
example : blockDecodeSzx [0x01] = some 32 ∧ blockDecodeNum [0x01] = 0 ∧ blockDecodeM [0x01] = some false ∧
    blockDecodeSzx [0x10] = some 16 ∧ blockDecodeNum [0x10] = 1 ∧ blockDecodeM [0x10] = some false := by decide +kernel

example : blockDecodeSzx [0x32, 0x1A] = some 64 ∧ blockDecodeNum [0x32, 0x1A] = 0x321 ∧
    blockDecodeM [0x32, 0x1A] = some true ∧
    (blockEncode [0, 0, 0, 0] 0x321 true 2).map (fun x => (x.1.take 2, x.2)) = some ([0x32, 0x1A], 2) := by decide +kernel

/-- The token generator and the number writer — test/unit-tests/coap-token-test.cpp. -/
example : (uintSet 0xFEDCBA [0, 0, 0, 0]).map (fun x => (x.1.take 3, x.2)) = some ([0xFE, 0xDC, 0xBA], 3) ∧
    (tokenGenerate 0 0x101 [] ).map (·.1) = some [1, 1] ∧
    (tokenGenerate 0 0x30201 [] ).map (·.1) = some [3, 2, 1] := by decide +kernel

/-- "Test 2" of the number storage — test/unit-tests/coap-token-test.cpp:26-41. -/
example : ((StoredUInt.new [0, 0, 0, 0]).set 0xFEDCBA).map (fun s => (s.length, s.room.head?, s.get 32)) =
    some (3, some 0xFE, 0xFEDCBA) := by decide +kernel

end Verif.Conformance
