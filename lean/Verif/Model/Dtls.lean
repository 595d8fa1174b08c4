/-!
# Model of `src/platform/mbedtls/dtls-datapump.cpp` and `src/platform/mbedtls/dtls.hpp`: the DTLS servers

The TLS library is not part of the repository.  It is an arbitrary function from the calls made so far, with their answers, to the
answer to the next call, so that a statement for every library is a statement for every peer, every network and every timing.
The initialisation calls without a result (`mbedtls_…_init`, `mbedtls_ssl_conf_…`, `mbedtls_ssl_set_bio`) and the text output are left out.
-/
namespace Verif.Model

/-- The calls into the TLS library whose answer, or whose effect on the session, matters —
src/platform/mbedtls/dtls-datapump.cpp:168-523, src/platform/mbedtls/dtls.hpp:134-453. -/
inductive TlsCall where
  | crtServer | crtAuthority | keyParse | bind | seed | configDefaults | ownCert | cookieSetup | sslSetup
  | freeClient | sessionReset | accept | transportId | handshake
  | read (len : Nat) | write (data : List UInt8) | closeNotify | shutdown
deriving DecidableEq, Repr

/-- The answer: the number returned and, for a read, the bytes put into the buffer — src/platform/mbedtls/dtls-datapump.cpp:168-487. -/
structure TlsAnswer where
  code : Int
  data : List UInt8 := []
deriving DecidableEq, Repr

/-- The calls made so far with their answers — src/platform/mbedtls/dtls-datapump.cpp:168-487. -/
abbrev TlsTrace := List (TlsCall × TlsAnswer)
/-- The TLS library as a whole (outside the repository) — called at src/platform/mbedtls/dtls-datapump.cpp:168-487. -/
abbrev TlsLib := TlsTrace → TlsCall → TlsAnswer

/-- The error codes named in src/platform/mbedtls/dtls-datapump.cpp:391-394 and 427-431, with the values of mbedtls 2 (`mbedtls/ssl.h`, not
in the repository).  Only that they are negative and differ is used. -/
def sslWantRead : Int := -0x6900
/-- `MBEDTLS_ERR_SSL_WANT_WRITE` — src/platform/mbedtls/dtls-datapump.cpp:392. -/
def sslWantWrite : Int := -0x6880
/-- `MBEDTLS_ERR_SSL_TIMEOUT` — src/platform/mbedtls/dtls-datapump.cpp:427. -/
def sslTimeout : Int := -0x6800
/-- `MBEDTLS_ERR_SSL_HELLO_VERIFY_REQUIRED` — src/platform/mbedtls/dtls-datapump.cpp:394. -/
def sslHelloVerify : Int := -0x6A80
/-- `MBEDTLS_ERR_SSL_PEER_CLOSE_NOTIFY` — src/platform/mbedtls/dtls-datapump.cpp:431. -/
def sslPeerClose : Int := -0x7880

/-- One call — src/platform/mbedtls/dtls-datapump.cpp:168-487. -/
def tlsCall (L : TlsLib) (c : TlsCall) (tr : TlsTrace) : TlsTrace × TlsAnswer := (tr ++ [(c, L tr c)], L tr c)

/-- `do ret = …; while(ret == … )` — src/platform/mbedtls/dtls-datapump.cpp:390-392, 419-421, 461-463, 481-482.  `none`: not over after
`fuel` calls. -/
def tlsSpin (L : TlsLib) (again : Int → Bool) (c : TlsCall) : Nat → TlsTrace → Option (TlsTrace × TlsAnswer)
  | 0, _ => none
  | fuel + 1, tr =>
    let r := tlsCall L c tr
    if again r.2.code then tlsSpin L again c fuel r.1 else some r

/-- `ret == MBEDTLS_ERR_SSL_WANT_READ || ret == MBEDTLS_ERR_SSL_WANT_WRITE` —
src/platform/mbedtls/dtls-datapump.cpp:391-392, 420-421, 462-463. -/
def wantsMore (ret : Int) : Bool := ret == sslWantRead || ret == sslWantWrite

/-- `BUFSIZE2` and `buf` — src/platform/mbedtls/dtls-datapump.cpp:125,166: cleared (415) and then written by the library. -/
def dtlsBufSize : Nat := 8192
/-- What the buffer holds after a read — src/platform/mbedtls/dtls-datapump.cpp:415-421. -/
def dtlsBuffer (data : List UInt8) : List UInt8 := data ++ List.replicate (dtlsBufSize - data.length) 0

/-- Closing — src/platform/mbedtls/dtls-datapump.cpp:477-487. -/
def dtlsClose (L : TlsLib) (fuel : Nat) (tr : TlsTrace) : Option (TlsTrace × Bool × Int) :=
  match tlsSpin L (fun r => r == sslWantWrite) .closeNotify fuel tr with
  | none => none
  | some (tr, _) => some (tr, true, 0)

/-- From the read on — src/platform/mbedtls/dtls-datapump.cpp:408-487. -/
def dtlsServe (L : TlsLib) (fuel : Nat) (tr : TlsTrace) : Option (TlsTrace × Bool × Int) :=
  match tlsSpin L wantsMore (.read (dtlsBufSize - 1)) fuel tr with
  | none => none
  | some (tr, a) =>
    if a.code ≤ 0 then
      if a.code = sslTimeout then some (tr, true, a.code)
      else if a.code = sslPeerClose then dtlsClose L fuel tr
      else some (tr, true, a.code)
    else
      match tlsSpin L wantsMore (.write ((dtlsBuffer a.data).take a.code.toNat)) fuel tr with
      | none => none
      | some (tr, w) =>
        if w.code < 0 then some (tr, false, w.code)
        else dtlsClose L fuel tr

/-- `Dtls::loop` — src/platform/mbedtls/dtls-datapump.cpp:329-488: one client from the first datagram to the closing.  What is returned
and what is left in `*_ret`. -/
def dtlsLoop (L : TlsLib) (fuel : Nat) (tr : TlsTrace) : Option (TlsTrace × Bool × Int) :=
  let tr := (tlsCall L .freeClient tr).1
  let tr := (tlsCall L .sessionReset tr).1
  let a := tlsCall L .accept tr
  if a.2.code ≠ 0 then some (a.1, false, a.2.code)
  else
    let i := tlsCall L .transportId a.1
    if i.2.code ≠ 0 then some (i.1, false, i.2.code)
    else
      match tlsSpin L wantsMore .handshake fuel i.1 with
      | none => none
      | some (tr, h) =>
        if h.code = sslHelloVerify then some (tr, true, 0)
        else if h.code ≠ 0 then some (tr, true, h.code)
        else dtlsServe L fuel tr

/-- A sequence of calls left at the first answer other than 0: the pattern of the two `setup` and of `load_certs` —
src/platform/mbedtls/dtls-datapump.cpp:168-321, src/platform/mbedtls/dtls.hpp:134-299. -/
def tlsSteps (L : TlsLib) : List TlsCall → TlsTrace → TlsTrace × Int
  | [], tr => (tr, 0)
  | c :: cs, tr =>
    let r := tlsCall L c tr
    if r.2.code ≠ 0 then (r.1, r.2.code) else tlsSteps L cs r.1

/-- `DtlsServer::load_certs` — src/platform/mbedtls/dtls.hpp:134-182.  The authority's certificate is parsed twice. -/
def dtlsCerts : List TlsCall := [.crtServer, .crtAuthority, .crtAuthority, .keyParse]
/-- `DtlsServer::setup` — src/platform/mbedtls/dtls.hpp:209-299. -/
def dtlsServerSetup : List TlsCall := [.bind, .seed, .configDefaults, .ownCert, .cookieSetup, .sslSetup]
/-- `Dtls::setup` — src/platform/mbedtls/dtls-datapump.cpp:168-321. -/
def dtlsSetup (L : TlsLib) (tr : TlsTrace) : TlsTrace × Int := tlsSteps L (dtlsCerts ++ dtlsServerSetup) tr

/-- The loop of `coap_daemon` — test/rtos/esp8266/dtls-datapump/main/mbedtls+freertos-datapump.cpp:41-63, `DIAGNOSTIC_MODE` defined (24).
`rounds` bounds how often the loop is passed; `none` says that it is still going on (or that a round is). -/
def dtlsDaemonLoop (L : TlsLib) (fuel : Nat) : Nat → TlsTrace → Int → Option (TlsTrace × Int)
  | 0, _, _ => none
  | rounds + 1, tr, ret =>
    if ret ≠ 0 then some (tr, ret)
    else match dtlsLoop L fuel tr with
      | none => none
      | some (tr, continue_, ret) =>
        if !continue_ || ret != 0 then
          let tr := (tlsCall L .shutdown tr).1
          let s := dtlsSetup L tr
          dtlsDaemonLoop L fuel rounds s.1 s.2
        else dtlsDaemonLoop L fuel rounds tr ret

/-- `coap_daemon` — test/rtos/esp8266/dtls-datapump/main/mbedtls+freertos-datapump.cpp:26-72; it ends in an endless loop, taken as its end. -/
def dtlsDaemon (L : TlsLib) (fuel rounds : Nat) : Option (TlsTrace × Int) :=
  let s := dtlsSetup L []
  match dtlsDaemonLoop L fuel rounds s.1 s.2 with
  | none => none
  | some (tr, ret) => some ((tlsCall L .shutdown tr).1, ret)

/-- `DtlsServer::handshake(context, _ret)` — src/platform/mbedtls/dtls.hpp:302-375.  The output of the previous error (310), which on the
first pass from `handshake()` reads a variable nobody has set, is left out. -/
def dtlsAttempt (L : TlsLib) (fuel : Nat) (tr : TlsTrace) : Option (TlsTrace × Bool × Int) :=
  let tr := (tlsCall L .freeClient tr).1
  let tr := (tlsCall L .sessionReset tr).1
  let a := tlsCall L .accept tr
  if a.2.code ≠ 0 then some (a.1, false, a.2.code)
  else
    let i := tlsCall L .transportId a.1
    if i.2.code ≠ 0 then some (i.1, false, i.2.code)
    else
      match tlsSpin L wantsMore .handshake fuel i.1 with
      | none => none
      | some (tr, h) =>
        if h.code = sslHelloVerify then some (tr, true, 0)
        else if h.code ≠ 0 then some (tr, false, h.code)
        else some (tr, true, h.code)

/-- `DtlsServer::handshake()` — src/platform/mbedtls/dtls.hpp:378-392. -/
def dtlsHandshake (L : TlsLib) (fuel : Nat) : Nat → TlsTrace → Option TlsTrace
  | 0, _ => none
  | rounds + 1, tr =>
    match dtlsAttempt L fuel tr with
    | none => none
    | some (tr, ok, ret) => if ok && ret == 0 then dtlsHandshake L fuel rounds tr else some tr

/-- `DtlsServer::read` — src/platform/mbedtls/dtls.hpp:402-438, into a buffer holding `buf`: what is returned, and the buffer afterwards. -/
def dtlsRead (L : TlsLib) (fuel : Nat) (buf : List UInt8) (tr : TlsTrace) : Option (TlsTrace × Bool × List UInt8) :=
  match tlsSpin L wantsMore (.read buf.length) fuel tr with
  | none => none
  | some (tr, a) =>
    let buf := a.data ++ buf.drop a.data.length
    if a.code ≤ 0 then
      if a.code = sslTimeout then some (tr, true, buf)
      else if a.code = sslPeerClose then some (tr, false, buf)
      else some (tr, true, buf)
    else some (tr, true, buf)

/-- `DtlsServer::write` — src/platform/mbedtls/dtls.hpp:394-398: empty. -/
def dtlsWrite (_data : List UInt8) (tr : TlsTrace) : TlsTrace := tr

/-- `DtlsServer::close` — src/platform/mbedtls/dtls.hpp:442-453. -/
def dtlsServerClose (L : TlsLib) (fuel : Nat) (tr : TlsTrace) : Option TlsTrace :=
  match tlsSpin L (fun r => r == sslWantWrite) .closeNotify fuel tr with
  | none => none
  | some (tr, _) => some tr

end Verif.Model
