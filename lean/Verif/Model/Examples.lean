import Verif.Model.Core
import Verif.Model.NetBufEncoder
import Verif.Model.Observable
import Verif.Model.PullDecoder
import Verif.Model.Server

/-!
# Model of the example servers on the pull-style decoder

`test/template/simple-ping-responder.hpp`, `simple-uri-responder.hpp`, `observable-raw-responder.hpp` and the server of
`test/posix/discoverable`.  The loops over the options do not touch the decoder themselves, so they run over the list of
what the iterator shows.  The two responders that are called through `service` of the data pump (a library that is not
part of the repository) get a context that already holds header and token; the model reads them with `header()` and
`token()` as the other two do.  A new netbuf has room for `room` bytes.
-/
namespace Verif.Model
open Header Observable

/-- Ways in which an example server does not return normally —
test/template/simple-uri-responder.hpp:9-55, test/template/observable-raw-responder.hpp:70-118, test/posix/discoverable/main.cpp:64-172. -/
inductive XFault
  /-- more text than the fixed string holds -/
  | text
  /-- `core_evaluator` or the length of the listing goes wrong, or the listing does not fit -/
  | listing
  | dec (e : Fault)
  | obs (e : OFault)
deriving DecidableEq, Repr

/-- `header_and_token` of the decoder — src/coap/decoder/netbuf.h:226-234, and
test/template/simple-ping-responder.hpp:46-49: the context with what was read. -/
def incoming (paths : List Uri.Entry) (junkToken : List UInt8) (r : Pull.Reading) : Except Fault SCtx :=
  ((SCtx.init paths junkToken).setHeader r.header).setToken r.token

/-- `header_and_token` of the encoder — src/coap/encoder.h:286-297.  The result of `header` is not looked at. -/
def NEnc.headerAndToken (s : NEnc) (junk : Header) (x : SCtx) (code : UInt8) : Except Fault (NEnc × Bool) :=
  match x.getToken with
  | .error e => .error e
  | .ok t => .ok ((s.header (createResponse junk x.hdr code)).1.token t)

/-- `simple_ping_responder` — test/template/simple-ping-responder.hpp:12-97: the bytes sent.  `walk` is what the
responder does with the options: nothing, or a walk with the iterator (lines 51-61). -/
def pingReply (room : Nat) (junk : Dec) (junkToken : List UInt8) (junkHeader : Header)
    (walk : Pull → Except Fault (List (UInt16 × List UInt8) × Pull)) (bytes : List UInt8) : Except Fault (List UInt8) :=
  match Pull.readWith walk (Pull.make junk bytes) with
  | .error e => .error e
  | .ok r =>
    match incoming [] junkToken r with
    | .error e => .error e
    | .ok x =>
      match (NEnc.init room).headerAndToken junkHeader x codeContent with
      | .error e => .error e
      | .ok (s, _) => .ok s.out

/-- `uri += it.string(); uri += '/';` — test/template/simple-uri-responder.hpp:27-28, test/template/observable-raw-responder.hpp:91-92.
The string holds `cap` characters; what it does beyond is up to the library and is modelled as a fault. -/
def addSegment (cap : Nat) (uri seg : List UInt8) : Except XFault (List UInt8) :=
  if (uri ++ seg ++ [47]).length ≤ cap then .ok (uri ++ seg ++ [47]) else .error .text

/-- The loop over the options — test/template/simple-uri-responder.hpp:21-38. -/
def uriLoop (cap : Nat) : List UInt8 → List (UInt16 × List UInt8) → Except XFault (List UInt8)
  | uri, [] => .ok uri
  | uri, (number, value) :: os =>
    if number == 11 then
      match addSegment cap uri value with
      | .error e => .error e
      | .ok uri => uriLoop cap uri os
    else uriLoop cap uri os

/-- What the responders send: header, token and the text as payload —
test/template/simple-uri-responder.hpp:46-54, test/template/observable-raw-responder.hpp:107-117. -/
def answer (room : Nat) (junkHeader : Header) (x : SCtx) (code : UInt8) (text : List UInt8) : Except XFault (List UInt8) :=
  match (NEnc.init room).headerAndToken junkHeader x code with
  | .error e => .error (.dec e)
  | .ok (s, _) => .ok (s.payload text).1.out

/-- `simple_uri_responder` — test/template/simple-uri-responder.hpp:9-55; "test/" is 116 101 115 116 47, 0x84 is 4.04
(src/coap/header.h:107). -/
def uriReply (cap room fuel : Nat) (junk : Dec) (junkToken : List UInt8) (junkHeader : Header) (bytes : List UInt8) :
    Except XFault (List UInt8) :=
  match Pull.readWith (Pull.iterAll fuel) (Pull.make junk bytes) with
  | .error e => .error (.dec e)
  | .ok r =>
    match incoming [] junkToken r with
    | .error e => .error (.dec e)
    | .ok x =>
      match uriLoop cap [] r.options with
      | .error e => .error e
      | .ok uri => answer room junkHeader x (if uri == [116, 101, 115, 116, 47] then codeValid else 0x84) uri

/-- `option_iterator::uint8` — src/coap/decoder/netbuf.h:565-578. -/
def uint8Of (value : List UInt8) : UInt8 := value.headD 0

/-- The loop over the options — test/template/observable-raw-responder.hpp:84-103: registrar, path text and response
code. -/
def observeLoop {A : Type} (cap regCap : Nat) (addr : A) (token : List UInt8) :
    Registrar A → List UInt8 → UInt8 → List (UInt16 × List UInt8) → Except XFault (Registrar A × List UInt8 × UInt8)
  | reg, uri, code, [] => .ok (reg, uri, code)
  | reg, uri, code, (number, value) :: os =>
    if number == 11 then
      match addSegment cap uri value with
      | .error e => .error e
      | .ok uri => observeLoop cap regCap addr token reg uri code os
    else if number == 6 then
      match reg.evaluate regCap addr token (uint8Of value) with
      | .error e => .error (.obs e)
      | .ok (reg, code) => observeLoop cap regCap addr token reg uri code os
    else observeLoop cap regCap addr token reg uri code os

/-- `simple_observable_responder` — test/template/observable-raw-responder.hpp:70-118: the registrar afterwards and
the bytes sent. -/
def observeReply {A : Type} (cap regCap room fuel : Nat) (junk : Dec) (junkToken : List UInt8) (junkHeader : Header)
    (reg : Registrar A) (addr : A) (bytes : List UInt8) : Except XFault (Registrar A × List UInt8) :=
  match Pull.readWith (Pull.iterAll fuel) (Pull.make junk bytes) with
  | .error e => .error (.dec e)
  | .ok r =>
    match incoming [] junkToken r with
    | .error e => .error (.dec e)
    | .ok x =>
      match x.getToken with
      | .error e => .error (.dec e)
      | .ok token =>
        match observeLoop cap regCap addr token reg [] 0x84 r.options with
        | .error e => .error e
        | .ok (reg, uri, code) =>
          match answer room junkHeader x code uri with
          | .error e => .error e
          | .ok out => .ok (reg, out)

/-- The loop over the options — test/posix/discoverable/main.cpp:87-103. -/
def discoverOptions (m : Uri.Matcher) : List (UInt16 × List UInt8) → Uri.Matcher
  | [] => m
  | (number, value) :: os => discoverOptions (if number == 11 then (m.find (SCtx.str value)).1 else m) os

/-- The server of test/posix/discoverable/main.cpp:64-172 for one datagram, for any tables and any id of the listing:
the bytes sent. -/
def discoverReply (room fuel : Nat) (paths : List Uri.Entry) (coredata : List Uri.CoREData) (title : Int → Option (List Char))
    (idCore : Int) (junk : Dec) (junkToken : List UInt8) (junkHeader : Header) (bytes : List UInt8) :
    Except XFault (List UInt8) :=
  match Pull.readWith (Pull.iterAll fuel) (Pull.make junk bytes) with
  | .error e => .error (.dec e)
  | .ok r =>
    match incoming paths junkToken r with
    | .error e => .error (.dec e)
    | .ok x =>
      let found := (discoverOptions x.uri r.options).lastFound
      match (NEnc.init room).headerAndToken junkHeader x (if found != Uri.none_ then codeContent else 0x84) with
      | .error e => .error (.dec e)
      | .ok (s, _) =>
        let s := s.payloadHeader.1
        if found == idCore then
          match Uri.discover coredata title paths with
          | none => .error .listing
          | some text =>
            if text.length + 1 ≤ s.room then .ok (s.out ++ text.map fun c => UInt8.ofNat c.toNat) else .error .listing
        else .ok s.out

end Verif.Model
