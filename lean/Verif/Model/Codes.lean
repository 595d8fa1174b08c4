import Verif.Model.Header

/-! # The named codes of `Header::Code` -/
namespace Verif.Model

/-- The names of `Header::Code::Codes` — src/coap/header.h:91-119. -/
inductive CodeName
  | empty | get | post | put | delete | created | deleted | valid | changed | content | badRequest | unauthorized | badOption | forbidden
  | notFound | methodNotAllowed | notAcceptable | preConditionFailed | requestEntityTooLarge | unsupportedContentFormat
  | internalServerError | notImplemented | serviceUnavailable | gatewayTimeout | proxyingNotSupported
deriving DecidableEq, Repr

namespace CodeName

/-- `COAP_RESPONSE_CODE` — src/coap/header.h:29. -/
def responseCode (cls detail : Nat) : Nat := (cls <<< 5) ||| detail

/-- `Classes` — src/coap/header.h:82-88. -/
def request : Nat := 0
/-- `Success` — src/coap/header.h:85. -/
def success : Nat := 2
/-- `ClientError` — src/coap/header.h:86. -/
def clientError : Nat := 4
/-- `ServerError` — src/coap/header.h:87. -/
def serverError : Nat := 5

/-- The values of the names — src/coap/header.h:93-117.  The constants `00` to `06` are octal, which makes no difference. -/
def value : CodeName → Nat
  | .empty => responseCode 0 0
  | .get => responseCode 0 1
  | .post => responseCode 0 2
  | .put => responseCode 0 3
  | .delete => responseCode 0 4
  | .created => responseCode success 1
  | .deleted => responseCode success 2
  | .valid => responseCode success 3
  | .changed => responseCode success 4
  | .content => responseCode success 5
  | .badRequest => responseCode clientError 0
  | .unauthorized => responseCode clientError 1
  | .badOption => responseCode clientError 2
  | .forbidden => responseCode clientError 3
  | .notFound => responseCode clientError 4
  | .methodNotAllowed => responseCode clientError 5
  | .notAcceptable => responseCode clientError 6
  | .preConditionFailed => responseCode clientError 12
  | .requestEntityTooLarge => responseCode clientError 13
  | .unsupportedContentFormat => responseCode clientError 15
  | .internalServerError => responseCode serverError 0
  | .notImplemented => responseCode serverError 1
  | .serviceUnavailable => responseCode serverError 3
  | .gatewayTimeout => responseCode serverError 4
  | .proxyingNotSupported => responseCode serverError 5

end CodeName

/-- `RequestMethodEnum` — src/coap/header.h:133-139. -/
inductive MethodName
  | get | post | put | delete
deriving DecidableEq, Repr

/-- The values of the names — src/coap/header.h:135-138. -/
def MethodName.value : MethodName → Nat
  | .get => 1
  | .post => 2
  | .put => 3
  | .delete => 4

namespace Header

/-- `Header::response_code(Code::Codes)` — src/coap/header.h:237-240: the value becomes a `uint8_t`. -/
def setResponseCode (h : Header) (n : CodeName) : Header := h.setCode (UInt8.ofNat n.value)

/-- `Header::response_code()` — src/coap/header.h:230-235: the number as a value of the enumeration; the warning is left out. -/
def responseCode (h : Header) : Nat := h.code.toNat

/-- `Header::request_method()` — src/coap/header.h:242-245. -/
def requestMethod (h : Header) : Nat := h.code.toNat

/-- `Header::Header(TypeEnum, Code::Codes)` with a name — src/coap/header.h:330-336. -/
def named (t : UInt8) (n : CodeName) : Header := mk2 t (UInt8.ofNat n.value)

end Header

/-- `to_string(Header::TypeEnum)` — src/coap/header.h:429-439; `none` is the null pointer. -/
def typeText (t : Nat) : Option String :=
  match t with
  | 0 => some "Confirmable"
  | 1 => some "NonConfirmable"
  | 2 => some "Acknowledgement"
  | 3 => some "Reset"
  | _ => none

end Verif.Model
