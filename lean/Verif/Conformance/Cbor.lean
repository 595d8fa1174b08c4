import Verif.Model.CborDoc
import Verif.Model.CborOld

/-!
# The model run on the repository's own CBOR tests

Tests of the model, not proofs; see `Verif.Conformance.Decoder`.
-/
namespace Verif.Conformance
open Verif.Model Verif.Model.Cbor

/-- The bytes of a text. -/
def text (s : String) : List UInt8 := s.toList.map fun c => UInt8.ofNat c.toNat

/-- `cbor_cred` — test/unit-tests/test-data.h:69-80. -/
def cborCred : List UInt8 :=
  [0xA2, 0x64] ++ text "ssid" ++ [0x69] ++ text "ssid_name" ++ [0x64] ++ text "pass" ++ [0x66] ++ text "secret"

/-- `cbor_int` — test/unit-tests/test-data.h:82-88. -/
def cborInt : List UInt8 := [0xA1, 0x63] ++ text "val" ++ [0x3A, 0x07, 0x5B, 0xCD, 0x14]

/-- A decoder of the old kind whose uninitialised storage is zero. -/
def oldZero : CborOld.ODec := ⟨[0, 0, 0, 0, 0], 0, .uninitialized⟩

/-- "True/false test" — test/unit-tests/cbor-test.cpp:117-129: the item is done after its byte, and it is the simple
value 21. -/
example : (oldZero.process [0xE0 ||| 21]).toOption = some (some (⟨[0xF5, 0, 0, 0, 0], 1, .done⟩, [])) ∧
    (⟨[0xF5, 0, 0, 0, 0], 1, .done⟩ : CborOld.ODec).type = 7 ∧
    (⟨[0xF5, 0, 0, 0, 0], 1, .done⟩ : CborOld.ODec).info = 21 := by decide +kernel

/-- "16-bit integer test" — test/unit-tests/cbor-test.cpp:130-147. -/
example : (oldZero.process [25, 0xF0, 0x77]).toOption = some (some (⟨[25, 0xF0, 0x77, 0, 0], 3, .done⟩, [])) ∧
    (⟨[25, 0xF0, 0x77, 0, 0], 3, .done⟩ : CborOld.ODec).type = 0 ∧
    ((⟨[25, 0xF0, 0x77, 0, 0], 3, .done⟩ : CborOld.ODec).value 16 |>.toOption) = some 0xF077 := by decide +kernel

/-- The reads of "Synthetic cred-set test: with helpers" with the count and the texts they give. -/
def oldCred : Except CborOld.OFault (Option (Nat × List (List UInt8))) := do
  let some (n, _, d, r) ← CborOld.getMap oldZero cborCred | pure none
  let some (some a, _, d, r) ← CborOld.getString d r 999 | pure none
  let some (some b, _, d, r) ← CborOld.getString d r 999 | pure none
  let some (some c, _, d, r) ← CborOld.getString d r 999 | pure none
  let some (some e, _, _, _) ← CborOld.getString d r 999 | pure none
  pure (some (n, [a, b, c, e]))

/-- "Synthetic cred-set test" — test/unit-tests/cbor-test.cpp:148-190. -/
example : oldCred.toOption = some (some (2, [text "ssid", text "ssid_name", text "pass", text "secret"])) := by decide +kernel

/-- The reads of "int decoder". -/
def oldInt : Except CborOld.OFault (Option (Nat × List UInt8 × Int)) := do
  let some (n, _, d, r) ← CborOld.getMap oldZero cborInt | pure none
  let some (some a, _, d, r) ← CborOld.getString d r 999 | pure none
  let some (v, _, _, _) ← CborOld.getInt d r | pure none
  pure (some (n, a, v))

/-- "int decoder" — test/unit-tests/cbor-test.cpp:191-198. -/
example : oldInt.toOption = some (some (1, text "val", -123456789)) := by decide +kernel

/-- "basic encoder", "more advanced encoder" — test/unit-tests/cbor-test.cpp:199-239: the byte in front. -/
example : ((integerBase 32 (List.replicate 9 0) 10).map fun r => r.1.head?) = some (some 10) ∧
    ((integerBase 32 (List.replicate 9 0) 100).map fun r => r.1.head?) = some (some 24) ∧
    (integerBase 32 (List.replicate 9 0) 1000).isSome ∧
    ((integerBase 32 (List.replicate 9 0) (-123456789)).map fun r => r.1.head?) = some (some 0x3A) ∧
    ((majorTypeAndInteger (List.replicate 9 0) 3 5).map fun r => (r.1.head?, r.2)) = some (some 0x65, 1) := by
  decide +kernel

/-- `process_iterate` on each of the given bytes. -/
def feed (d : CDec) : List UInt8 → Option CDec
  | [] => some d
  | b :: bs => match d.iterate b with
    | none => none
    | some (d, _) => feed d bs

/-- A decoder of the new kind whose uninitialised storage is zero. -/
def newZero : CDec := ⟨[0, 0, 0, 0], 0, 0, .headerStart⟩

/-- "revamped cbor decoder" — test/unit-tests/cbor-test.cpp:242-283, the decoder where the test looks at it. -/
def revamped : Option (CDec × CDec × CDec × CDec) := do
  let a ← feed newZero [0xA1, 0xA1, 0x63]
  let b ← feed a.fastForward [0x63, 0x63, 0x63, 0x76]
  let c ← feed b.fastForward [0x3A, 0x3A, 0x07]
  let d ← feed c [0x07, 0x07, 0x5B, 0xCD, 0x14]
  pure (a, b, c, d)

example : (revamped.map fun x => (x.1.st, x.1.type)) = some (.longStart, 5) ∧
    (revamped.map fun x => (x.2.1.st, x.2.1.type, x.2.1.unsigned 8)) = some (.longStart, 3, 3) ∧
    (revamped.map fun x => (x.2.2.1.st, x.2.2.1.type)) = some (.additionalStart, 1) ∧
    (revamped.map fun x => (x.2.2.2.st, x.2.2.2.integer 32)) = some (.additionalDone, -123456789) := by decide +kernel

/-- "revamped netbuf encoder" — test/unit-tests/cbor-test.cpp:284-336. -/
example : (writeAll (List.replicate 64 0) 0 [.string (text "Hello world"), .integer (-5), .integer 0x1234, .map 4,
      .string (text "Hi"), .items [1, 2, 3]]).map (fun r => (r.1.take r.2.1, r.2.1)) =
    some (([0x6B] : List UInt8) ++ text "Hello world" ++ [0x24, 25, 0x12, 0x34, 0xA4, 0x62] ++ text "Hi" ++ [0x83, 1, 2, 3],
      11 + 1 + 1 + 3 + 1 + 3 + 4) := by decide +kernel

/-- "experimental cbor decoder" — test/unit-tests/cbor-test.cpp:337-365. -/
example : readDoc 0 cborInt 40 3 newZero =
    some (some [.map 1, .string (text "val"), .integer (-123456789)]) := by decide +kernel

/-- "Next gen synthetic cred test" — test/unit-tests/cbor-test.cpp:376-397. -/
example : readDoc 0 cborCred 40 5 newZero =
    some (some [.map 2, .string (text "ssid"), .string (text "ssid_name"), .string (text "pass"),
      .string (text "secret")]) := by decide +kernel

/-- "encoder: boolean and NULL" — test/unit-tests/cbor-test.cpp:399-418. -/
example : (writeAll (List.replicate 64 0) 0 [.boolean true, .null]).map (fun r => (r.1.take 2, r.2.1)) =
    some ([0xF5, 0xF6], 2) := by decide +kernel

end Verif.Conformance
