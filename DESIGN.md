# Formal model of mc-coap: design

Everything here is about a Lean 4 model written by reading `/repo/src`. The C++ code is not
compiled or run. Each model definition cites the file and lines it transcribes.

## Method

* **Model** (`lean/Verif/Model/*.lean`): small total computable functions that follow the C++
  control flow, one per C++ function, on `UInt8`/`UInt16`/`UInt32` (wrapping) where C++ uses
  fixed-width integers, and on `Nat` for `size_t`. State machines are `step` functions; loops take
  fuel, and the fuel actually used is proved sufficient. Undefined behaviour (out-of-bounds access,
  endless loops) is a distinct outcome, never silently totalised.
* **Spec** (`lean/Verif/Spec/*.lean`): short independent definitions: RFC 7252 wire format on `Nat`,
  big-endian value of a byte string, RFC 7049 headers, the abstract retry queue, and so on. They do
  not use model functions.
* **Proofs** (`lean/Verif/Proofs/*.lean`): helper lemmas.
* **Properties** (`lean/Verif/Props/*.lean`): the theorems named in `MANIFEST.json`, each followed by
  an `example` showing a concrete non-trivial case meeting the hypotheses.
* When the code violates the property as stated in `properties.jsonl`, the negation is proved with a
  concrete witness, and a `_partial` theorem states the widest domain on which the property does hold.

## Trusted base

* Lean 4.33.0's kernel. Every theorem depends on at most `propext`, `Classical.choice`, `Quot.sound`
  (checked by `vcheck`). No axioms of our own, no `sorry`, no compiler-trusting tactic.
* The reading of the C++ source. Every definition under `Model/` cites file and lines.
* `ASSERT_*` macros come from a library that is not in the checkout; they are taken to log only and
  not to change control flow.
* `estd`, `embr` and `moducom-memory` are not in the checkout. What is assumed of them:
  * `estd::span`, `array`, `vector`, `layer1::vector` are plain sequences without bounds checks;
    going past the end (also past the fixed capacity) is a fault outcome of the model;
  * an output stream buffer accepts a byte exactly as long as it has room (`sputc`/`sputn`);
  * an input stream buffer hands out its bytes in order; `in_avail` is the rest of the segment and
    0 or -1 at the end (a parameter); `underflow` goes on to the next segment and does nothing while bytes
    of the current one are left; a network buffer writer offers a window and moves on to the next one when asked;
  * `priority_queue` with `greater` keeps a least element on top (`Model.Retry.PQ` states this as a
    contract that the theorems quantify over; `Proofs.Retry` gives an instance).
* Layout assumptions are stated where they are used (union of token and option decoder: the bytes left
  over from the token are an arbitrary parameter, so theorems hold whatever they are).
* Where plain `char` matters, signedness is a parameter and theorems say for which one they hold.

## What is modelled

| model file | code |
|------------|------|
| `Model/Header` | `coap/header.h`: header fields, constructors, `process_request`, `process_response`, `create_response`; `mc/experimental.cpp: process_reset` |
| `Model/UInt` | `coap/uint.h`, `coap/token.cpp` (generator), `coap/blockwise.h` |
| `Model/OptionDecoder`, `Model/Decoder` | `coap/option-decoder.cpp`, `coap/decoder/option.h`, `coap/decoder.cpp`, `coap/decoder.h`, `coap/decoder/simple.h`, `decode_and_notify` of `coap/decoder/subject.hpp` |
| `Model/Legacy` | `coap/decoder/subject.hpp: dispatch_iterate`, `dispatch_option`, `observer_on_option`, `dispatch_token`; `coap/decoder/subject.h: dispatch` |
| `Model/StreamDecoder` | `coap/decoder/streambuf.hpp`, `subject-core.hpp` |
| `Model/OptionEncoder`, `Model/StreamEncoder`, `Model/NetBufEncoder` | `coap-encoder.cpp`, `coap/encoder/streambuf.h`, `coap/encoder.h`, `coap/encoder.hpp` |
| `Model/Retry` | `exp/retry.h` |
| `Model/RetryLoop` | `exp/retry.h`: `RetryObserver` told of every datagram sent, retransmissions going through the outgoing queue, `service_ack` with a datapump. The datapump (embr) is not in the checkout: first in first out and one event per datagram are assumed, as lines 640-645 say |
| `Model/RetryClock` | `exp/retry.h` with a time type of the policy that is an unsigned integer and wraps |
| `Model/DtlsTimer` | `platform/mbedtls/esp8266-timing.cpp` |
| `Model/Dtls` | `platform/mbedtls/dtls-datapump.cpp`, `platform/mbedtls/dtls.hpp`, the loop of `test/rtos/esp8266/dtls-datapump`. The TLS library is an arbitrary function from the calls so far to the next answer; calls without a result and text output are left out |
| `Model/OtherPumps` | `platform/lwip/lwip-datapump.*` and `platform/arduino/arduino-eth-datapump.cpp`; the network is its answers; the pump's queues (library code) are taken as first in, first out and unbounded |
| `Model/StoredUInt` | `coap/uint.h: layer2::UInt`; the vector (library code) is bytes and a size, `resize` changes only the size |
| `Model/ObserveEmit` | `test/template/observable-raw-responder.hpp` (`emit_observe`, `evaluate_emit_observe`), `test/posix/observable-raw/main.cpp`; `snprintf` as the C standard describes it; both orders of evaluation; `for_each` from `Model/Observable` |
| `Model/ObserveTicks` | `test/pio/esp8266/observable-raw/src/lwip+freertos-datapump.cpp`: when its daemon notifies; the counter of ticks has 32 bits |
| `Model/OptionGenerate` | `src/coap-encoder.h`: `OptionEncoder::generate` and the loops that use it or `generate_iterate` over whole options |
| `Model/RequestContext` | `src/coap/context.h`: the context that refers to the token, the observers of `src/coap/decoder/observer/util.h:52-71` that fill both contexts, and the bytes a reference into the union of `src/coap/decoder.h:131-136` shows (first three exact, see the comment). `SimpleBufferContext` (`context.h:189-211`) has no way to be given a buffer and `TokenAndHeaderContext<…, true>` is never defined, so it cannot be used and is not modelled |
| `Model/Codes` | the named codes and methods of `src/coap/header.h`, `response_code`, `request_method`, the constructor with a name, `to_string` of a type |
| `Model/StreamOps` | the stream operators of `src/coap/encoder/streambuf.h` and bytes put through its `ostream`; the state bits of the `ostream` (library code) are not modelled |
| `Model/CborHeads` | `EncoderBase` with `layer1::Encoder` and `layer3::Encoder` (`cbor/encoder.h`) and the use their comments describe |
| `Model/CborWalk` | the loop of `test/template/simple-cbor-responder.hpp`; memory behind the payload is explicit and may be unreadable. The rest of that responder does not compile at this commit (it calls a function that is compiled out and one that does not exist) and is not modelled |
| `Model/UriTables` | the two `match` functions for `UriPathMap2` and for the table of tables, and the lookup of the repository's test repeated for every segment; counts are the `int`s handed over, a read behind a table is an outcome of its own |
| `Model/TypedOptions` | `option_iterator::uint`, `uint8`, `uint16`, `uint32` of `src/coap/decoder/netbuf.h` and a caller's loop with them, with the iterator and without |
| `Model/SocketsReliable` | `SocketsDatapumpHelper` of `src/platform/posix/sockets-datapump.h` built with `FEATURE_MCCOAP_RELIABLE`: loop, `service_ack`, `service_retry`, `enqueue` |
| `Model/Buffers` | `new` and `delete` of network buffers in the socket and lwIP loops, `process_messageobserver`, `process_messageobserver2`, two example servers and notifications; contents are not followed |
| `Model/RetryBuffers` | who holds and deletes the buffer of a message handed to `Retry` and to the sockets pump (pointers in both queues); the answer of the library to `on_message_transmitted` is any |
| `Model/Network` | no code of its own: the client of `Model/Exchange` with the decoder, the server of `Model/Responder`, and a network in between that delivers any datagram sent so far, at any time, any number of times or never |
| `Model/NetworkMany` | no code of its own: any number of such clients, each with an address, and one server that answers to the sender |
| `Model/ObserveProgram` | the observe example as a program: datagrams and clock readings in, datagrams out; made of `observeReply` and `for_each` with `emit_observe` |
| `Model/Exchange` | `exp/retry.h` on the bytes of messages: header and token read with `NetBufDecoder` |
| `Model/Route` | `coap-uripath-dispatcher.h` (`SingleUriPathObserver`, `uri_plus_factory_dispatcher`, `uri_plus_observer_dispatcher`) inside `FactoryDispatcherHandler` (`coap-dispatcher.h(pp)`); lifetimes on `objstack` are not modelled |
| `Model/DispatchContext` | contexts inside `FactoryDispatcherHandler` (`coap-dispatcher.h(pp)`): `ContextDispatcherHandler` and observers made by `uri_plus_observer_dispatcher`; a chosen handler's own memory on `objstack` is assumed to survive (the stack library is not in the checkout) |
| `Model/AggregateUri` | `AggregateUriPathObserver` (`coap-uripath-dispatcher.h(pp)`); factories that give a null observer and the memory behind the handlers are not modelled |
| `Model/Diagnostic` | `exp/diagnostic-decoder-observer.h`, `get_description` for option numbers (`coap.cpp`), `_UriBuilderObserver` (`decoder/observer/util.h`); the formatting done by `printf` and texts beyond the capacity of the string library are not modelled |
| `Model/Pump` | `process_messageobserver` and its helpers (`platform/generic/datapump-messageobserver.hpp`); the pump's own queue (library code outside the checkout) is taken as first in, first out; the context holding the address, which is built and then handed to nobody, is not modelled |
| `Model/Sockets` | `nonblocking_datapump_loop` and `SocketsDatapumpHelper` (`platform/posix/sockets-datapump.*`) with the buffer of `malloc_netbuf.h`; the socket is its answers; the pump's queues (library code) are taken as first in, first out and unbounded; opening the socket, log lines and the code under `FEATURE_MCCOAP_RELIABLE` (off) are not modelled |
| `Model/Responder` | `VersionObserver` and `build_version_response` (`coap/platform/esp-idf/observer.h`) among the observers of `Model/Server`, and `option_int` of the stream encoder with `layer2::UInt<4>::set`; the version text is a parameter; `resize` of the library's vector is taken to keep the bytes |
| `Model/Core` | `core_observer` with `title_tacker` and `node_core_event::title` (`exp/uripath-repeater.h`), and the loop of the example server `test/posix/discoverable`; the stream has enough room; the surrounding message is not modelled here |
| `Model/Examples` | the example servers on the pull-style decoder: `simple-ping-responder.hpp`, `simple-uri-responder.hpp`, `observable-raw-responder.hpp` (`test/template`) and `test/posix/discoverable/main.cpp`, with `header_and_token` of decoder and encoder; the data pump around them and the fixed-size string are libraries outside the repository: one datagram is one buffer, overlong text is a fault |
| `Model/ObserveHandler` | `ObservableOptionObserverBase` with its registrar (`src/coap/observable.h`, `observable.hpp`) on the calls of the older dispatch; `test/template/simple-cbor-responder.hpp` is not modelled: it calls functions this commit does not have |
| `Model/Echo` | the ESP32 servers `echo`, `echo-subject` and `boilerplate-subject` (`test/rtos/esp32`) on the stream decoder, with `do_notify` and `reply` of `src/coap/platform/lwip/context.h`; lwIP itself and the network stack are outside the repository |
| `Model/AggregateMessage` | `src/exp/message-observer.h` (`AggregateMessageObserver`) under the older dispatch, `src/exp/factory.h` (`FactoryAggregator`); of the object stack only how much is taken is counted, the stack library is not in the checkout |
| `Model/UriPath` | `exp/uripathmap.h`, `exp/uripath-repeater.h` |
| `Model/Server` | `coap/context.h`, `coap/encoder/factory.h`, `coap/decoder/observer/util.h` |
| `Model/Dispatch` | `coap-dispatcher.h/.hpp`, `coap-uripath-dispatcher.h`, `mc/experimental-factory.h` |
| `Model/Observable` | `coap/observable.h`, `coap/observable.hpp` |
| `Model/Cbor` | `cbor/encoder.h`, `cbor/decoder.h`, `cbor/decoder.cpp`, `cbor/streambuf.h` parts |
| `Model/CborDoc` | `cbor/encoder.h: NetBufEncoder` call by call, `cbor/decoder.h: StreamDecoder`, `SimpleDataHelper` as a user drives them |
| `Model/PullDecoder` | `coap/decoder/netbuf.h: DecoderWithContext`, `NetBufDecoder`, `option_iterator` (over one buffer) |
| `Model/CborOld` | `cbor.h: CBOR::Decoder`, `cbor/cbor.cpp` |
| `Model/OptionMeta` | `coap/decoder/option.h: get_format`, `exp/option-trait.h` |
| `Model/NetBuf` | `exp/misc.hpp: coap_netbuf_copy` over chunk lists, `platform/generic/malloc_netbuf.h`, the bytes put together by `coap/observable.h: ObservableMetaSession` |
| `Model/ManagedBuffer` | `mc/experimental.cpp: v2::ManagedBuffer` |

Not compiled, so not modelled: the code behind `CLEANUP_TRANSMISSION_CPP` in `coap_transmission.h/.cpp` and everything
under `#ifdef UNUSED` (the older encoders in `mc/experimental.h` and `coap-encoder.h`).

Not modelled: FreeRTOS tasks and `test/pio/simple_receiver.esp8266` (its encoder is compiled out), `test/simple_server`
and `test/posix/request-con` (they do not compile at this commit or only print), the insides of lwIP, mbedTLS and the
socket layer (what is assumed of them stands in the table above), where objects live (`objstack` in the dispatcher; how
much is taken is counted in `Model/AggregateMessage`, buffers taken and given back in `Model/Buffers` and
`Model/RetryBuffers`), contexts that keep the token outside the object, `SimpleBufferContext` (used nowhere), threads, and
logging. The observe registrar's static message id is taken per registrar. Encoders are not protected against options
written after the payload, and the model does not add such protection.

## Independent specifications

`Spec/Wire` (RFC 7252 option headers and messages on `Nat`), `Spec/Scan` (a relational reader of option
bytes: what RFC 7252 framing says is in a byte string, used for arbitrary, also malformed input),
`Spec/Read` (the same with values and the mark for options that are cut off),
`Spec/Cuts` (which part of a payload lies in the buffer where it starts),
`Spec/Cbor` (RFC 7049 heads, items, sequences of items), `Spec/Retry` (transmission history), `Spec/UriPath` (denotation of a path in a
table), `Spec/Server`, `Spec/Observe` (who is due a notification), `Spec/OptionMeta` (RFC option table),
`Spec/Legacy` (the calls owed for a message, joining of parts), `Spec/Pull` (what the option iterator shows),
`Spec/ReadBack` (how a message is put together from a report), `Spec/Blockwise` (blocks of a body, putting them together), and one file for most of the other models.
They use types of the model (events, calls, tables) and none of its functions, except `Spec/Memory`, which runs the decoder twice
and compares.

## Checks of the model against the repository's tests

`Conformance/*` runs the model on the inputs of the repository's own unit tests (test/unit-tests, test/unity) and
checks every value those tests require of the modelled code.  These are tests of the model, not proofs, and no claim
rests on them.  All agree.  One section that is compiled out (`netbuf-test.cpp`, "With option, with payload")
requires something that does not hold at this commit; that is the fault recorded under C50.

`Conformance/Instances*` applies theorems with many hypotheses to concrete messages, servers and runs.  Each application
shows that the hypotheses can hold together; no claim rests on it either.

## Per property

| id | status | how it is proved |
|----|--------|------------------|
| C01-C05 | proved | finite case check on byte 0, algebra on the message id (`Props/Header`) |
| C06-C09 | proved | induction on bytes against the big-endian value (`Props/UInt`) |
| C10 | proved | injectivity of the minimal encoding plus counter arithmetic |
| C11 | partial | from the uint theorems; number 0 and empty values are proved to access outside the buffer; which block numbers come back as an equivalence (`block_roundtrip_iff`) |
| C12 | proved | symbolic execution of the byte machine for all nine forms (`Proofs/OptionDecoder`) |
| C13 | partial | simulation against `Spec/Wire`, induction over the option list; one stale-state case refuted; `message_delivered_iff` is the exact condition |
| C14 | partial | invariant `DInv` over all chunkings and steps; token length 9..15 refuted; exactly when the decoder leaves its memory: `decoder_fault_iff` |
| C15 | proved | a measure that drops at every step; truncated headers and tokens never complete |
| C16 | partial | induction over the buffer list (also empty buffers), composing runs of the byte machine; the report for every cut, with the reported part of every option value, is given exactly against `Spec/Cuts` (`every_cut_exact`), and from it equivalences for when the cut does not matter; the same for arbitrary bytes behind header and token, against `Spec/CutsAny` (`any_cut_exact`, and `any_buffers_exact` with empty buffers everywhere), with the option numbers the same for every cut; what can be read back from the report in any buffers is given exactly (`cut_read_back`); cut payloads and empty last buffers refuted |
| C17 | partial | property refuted; the full report for arbitrary bytes is proved by induction on the bytes against `Spec/Read`, and from it an equivalence for what can be told apart |
| C18 | proved | invariant on the running number; reported numbers are the sums modulo 65536 |
| C19 | partial | property refuted for every input; for any bytes the loop gives exactly the first part of what stepping gives; exact number of reports owed for every well-formed message |
| C20 | partial | symbolic execution; the exact set of good (delta, length) pairs as an equivalence |
| C21 | proved | step bound by the capacity of the stream |
| C22 | partial | composition of C13 with the encoder; exact extent as an equivalence, for the stream and the buffer encoder |
| C23 | proved | prefix argument on the stream |
| C24 | proved | invariant of the resumable encoder over every list of windows |
| C25 | partial | induction over the options, exact extent; options without value refuted |
| C26 | proved | invariant of the encoder state |
| C27 | partial | simulation with the buffer decoder on one segment; for any cut into segments, each step is a run of the byte machine over all bytes that are left (`Proofs/StreamSegments`), and the report is given exactly (`stream_segments_exact_partial`); with `in_avail()` -1 at the end exactly the messages ending in an option without value are read past the end (`stream_completes_iff`), and for arbitrary bytes exactly those that end within an option (`endsOpen`, `stream_any_completes_iff`), with the exact report (`stream_any_exact_partial`); for every sequence of bytes, header and token are the characters the decoder sees (`takeChars` in `Spec/Chars`, `stream_bytes_complete_iff`); 0xFF with signed characters refuted |
| C28, C30, C31 | proved | invariants over event histories, for every queue meeting the heap contract |
| C29 | partial | the bound holds; "exactly four" refuted, exactly three proved |
| C32, C33, C45 | proved | list induction against path denotation; witnesses for the order and depth conditions |
| C34 | partial | characterisation of both comparisons; short segments and signed characters refuted |
| C35 | proved | list induction |
| C36 | partial | induction over event histories; completion, more than ten factories refuted; who is chosen, exactly: `last_asker_chosen_iff` |
| C37 | partial | induction over registrar histories; sequence numbers from 2^24 and 2^31 refuted |
| C38 | partial | refuted for every history; what holds is stated; exactly when the number of notifications is right: `notified_right_iff` (Props/ObservableIff) |
| C39, C42 | proved | symbolic execution composed with C13 |
| C40, C41 | partial | symbolic execution; excluded values refuted one by one; which calls write outside the buffer as an equivalence; announced lengths of 2^31 and more proved to take the decoder back; which integers come back: `cbor_round_trip_iff` |
| C43 | partial | case analysis over all 16-bit numbers; six numbers refuted |
| C44 | partial | induction over written segments; third segment refuted for all inputs |
| C46 | partial | the bound holds; ping-pong between servers refuted For arbitrary bytes: `auto_replies_breed_any` (Props/BreedAny).; exactly when the reply is in place: `auto_reply_right_iff` (Props/DtlsIff) |
| C47 | partial | what is still owed is an invariant of the loop, induction over buffers; exact calls when a buffer ends inside an option value (`legacy_cut_value`); exact calls for arbitrary bytes in any cut (`legacy_any_exact`, against the reading `Spec.toldAny`) and after each buffer (`legacy_prompt`); messages without payload and second messages refuted |
| C48 | partial | induction over the calls and over the items; 24-character strings and array elements from 24 refuted for all inputs; a five-byte head after which the walk never ends; which documents are written right, exactly: `cbor_document_written_iff`, by counting bytes: a call that cannot be written leaves fewer bytes than the items need |
| C49 | partial | symbolic execution per head form, an invariant for the observer loop; two-byte heads, long and indefinite arguments, short input and observer calls refuted for all inputs; which strings make it read behind the end: `old_string_past_end_iff` |
| C50 | partial | one lemma per stop of the decoder, induction over the options (three at a time for the iterator); the iterator refuted for all messages with options, short headers refuted |
| C51 | partial | induction on the rounds of the copy loop over arbitrary chunk lists on both sides, with the exact condition for returning; too small destinations (never returns), too large skips and tokens of another length refuted for all inputs; which buffers make it read behind the end: `copy_overread_iff` |
| C52 | partial | origin of every queue item (who was sent, with which message id and token) as an invariant of whole histories, composed with the pull decoder and with the server of C42; empty acknowledgements (for messages with a token) and resets refuted for all histories; exactly which messages end it: `answer_ends_iff` (Props/ExchangeIff) |
| C53 | partial | induction over the tree and over the calls gives one recursive description of all deliveries, composed with the older dispatch (exact calls for one buffer, `legacy_one_buffer`); exact names proved, unregistered paths, the missing end and a path cut between two buffers (`cut_path_first_part`, from the exact calls of `legacy_cut_value`) refuted for all inputs |
| C54 | partial | an invariant of the dispatcher before the first path segment, induction over options; the unselected case proved, the selected case refuted for all inputs: every factory works on a copy of the context that is gone after the call, and the dispatcher's own copy never changes; `context_gone_iff` is the exact condition for requests with a payload |
| C55 | partial | induction over the options, composed with the older dispatch (`legacy_one_buffer`); the first served message proved (values, payload, end), messages nobody serves proved for any state; header and token, deeper segments, every further message and a segment cut between two buffers (`aggregate_cut_second_part`, `aggregate_cut_first_part`) refuted for all inputs; any sequence of messages: `aggregate_sequence`, by induction over the sequence with what the messages before left behind, and `aggregate_sequence_undefined_iff` |
| C56 | partial | composition of the decoder theorem (C13) with the option formats (C43) and integer decoding (C08); the lines for every cut into buffers from the exact report of C16; memory safety as an equivalence for any events; texts of 128 and more bytes (a write past the array), options of unknown format, zero bytes and cut options refuted for all inputs; the lines and memory safety also for arbitrary bytes in any buffers, from `any_buffers_exact` |
| C57 | partial | induction over the options, composed with the decoder theorem for one buffer and for every cut (`every_cut_exact`: the exact text, and when it is right); the text is injective on segments without slash; slashes, cut segments and an empty buffer at the end refuted for all messages; the exact text (or overflow) also for arbitrary bytes in any buffers |
| C58 | partial | composition of the one-buffer theorem (C47) over the queue, by induction over the datagrams (`pump_sequence` gives exactly what is told of each datagram with a payload; `pump_first_any` what is told of a first datagram with arbitrary bytes); behind any first datagram the header of the next is never told (`pump_second_header_untold`, for arbitrary bytes `pump_second_header_untold_any`); `pump_sequence_any` for sequences of arbitrary bytes (Props/PumpAny); lost datagrams and lost chunks refuted for all inputs; exactly when everything is told: `pump_right_iff` |
| C59 | partial | induction over the program's actions (conservation: taken and waiting = arrived, sent and waiting = handed over), composed with C58; `socket_goes_on_iff` says exactly when a turn ends the process; the empty datagram, the refused send and the long datagram refuted for all states For arbitrary bytes: `socket_to_observer_any`, `socket_long_to_observer` (Props/SocketsAny). |
| C60 | partial | the events of a message (C13, C42) drive the observers; the bytes of the reply for every amount of room; the method, the type, a reply that does not fit and an empty text refuted for all messages; exactly when the answer is right: `version_right_iff` (Props/RepliesIff) |
| C61 | partial | strong induction over the number, composed with C08 and the option writer of C22; negative numbers refuted: the call never returns; which numbers make the call return: `option_int_returns_iff` |
| C62 | partial | a reader of link-format is specified character by character (`Spec/LinkFormat`); it is run over the printed text by induction over the table, composed with C45, and the targets with C33; the library's own observer, quotes in values and an empty listing refuted for all tables; `discovery_read_iff`: with something to list, the client reads the resources if and only if no path contains `>` and no value a quote or a backslash. What a reader has seen stays (`LinkSeen`), so the first link that is not clean is read wrongly whatever follows. `core_observer_never_read`: the text of the library's observer is never read as the resources, for all names and values.; From the listing to the answer of a server of C69 (`listed_resource_answered_partial`, `Props/ListedAnswered.lean`). |
| C63 | partial | `Model/Examples` composed with C50 and C03: the exact bytes of the answer to every message; answers to acknowledgements and resets, and the endless exchange, refuted for all messages; exactly when it is right: `ping_right_iff` |
| C64 | partial | the exact bytes of the answer in terms of what the iterator shows (C50); right exactly when the shown path is the path; refuted for `test` alone, for fewer than three options, for every path of two or more segments, and for every request without path; exactly when the path is right: `path_place_iff` (Props/ExamplesPlace) |
| C65 | partial | the loop over the options by induction, composed with C50: registrar and bytes; refuted for every request to end an observation, for an Observe option in second place, and for the form of the answer; exact registration by the place of the option, and when it is right (`Props/ExamplesPlace`) |
| C66 | partial | composed with C50, C33 and the listing of C62: the exact bytes; refuted for every listing at a path of two or more segments, for every request that begins with its path, and for every answer but the listing; the room the listing needs, to the byte (`discovery_room`); exactly at which places a path of one segment is served (`Props/ExamplesPlace`) |
| C67 | partial | `Model/ObserveHandler` by induction over the options, composed with C47: the exact registrations after every request with a payload and after arbitrary bytes in one buffer (`observe_handler_any`); refuted for every request without payload, for Observe 0 in its shortest form, for Observe 1, for repeated requests, for a request in two buffers (`observe_handler_cut_wrong`), for a handler used again, and for memory that holds "false"; exactly when the registrations are right (`Props/ObserveHandlerIff`); An empty buffer handed over inside the value of an Observe option makes the handler read a byte that is not there, whatever came before and whatever follows (`observe_handler_empty_buffer`). |
| C68 | partial | `Model/Echo`: the six decoder calls step by step, independent of the division into buffers: the exact bytes of the answer to every datagram with a complete header and token; refuted with signed characters for every cut-off token and header (memory is sent), for message ids ending in 0xFF, for every token length above 8, for replies, and, where `in_avail()` is -1 at the end, for exactly the datagrams without token that end with their first option header |
| C69 | partial | `Model/Echo` composed with C27, C39, C60 and C33: exactly one answer and its bytes, in any division into buffers, for the path as it is seen in the buffers (`asSeen` in `Spec/Cuts`); right when only the payload is cut; for any datagram whatever: the echo server in any segments (`echo_subject_any_partial`), the path table in one segment (`boilerplate_any_partial`) and, when header and token are seen as they are, in any segments (`boilerplate_any_segments_partial`); answers to acknowledgements and every path of one segment cut between buffers refuted |
| C70 | partial | `Model/AggregateMessage` composed with C47: equal to the observers told together for observers that keep nothing and need no payload; refuted for every message with a payload (payload never told, nothing remembered, memory never given back); calls and memory for arbitrary bytes (`aggregate_any_memory`); Exactly when observers in an aggregate do what they do by themselves, for every list of observers, every context and any calls: `aggregate_right_iff`, for one observer `aggregate_one_right_iff` (`Props/AggregateIff`). |
| C71 | partial | `Model/AggregateMessage`: exactly what is made, for all factories; one object if and only if exactly one factory can make it; two objects refuted by a witness |
| C72 | partial | `Model/RetryLoop`: everything that leaves was handed over, the number of datagrams is bounded by the ten places; the rest is refuted for every schedule: never given up, sent at each of nine rounds, ten places overflow after at most fourteen, one acknowledgement not enough; exactly when the bound holds: `loop_within_bound_iff` (Props/RetryLoopIff) |
| C73 | partial | `Model/RetryClock`: equal to the unbounded clock before the first wrap, at most three retransmissions always; refuted for every message sent less than its timeout before the end of a lap (all retransmissions at once) and for calls that find the clock below the due value (never); exactly which calls send the first retransmission: `clock_first_iff` |
| C74 | partial | `Model/DtlsTimer`: exact in whole ticks, one millisecond late, also across the wrap; that a delay has passed at its very end is refuted for every delay |
| C75 | partial | `Model/Dtls`: shapes of a round for every library, then induction over the rounds of the daemon; that the answer arrives whole is proved for libraries that take whole writes and refuted for all that do not; `dtls_daemon_restarts` (Props/DtlsRestart): restarts exactly after failures.; exactly when the answer arrives whole: `dtls_echo_whole_iff` (Props/DtlsIff) |
| C76 | partial | `Model/Dtls`: `read` answers false exactly on the closing, `close` sends the notice; refuted for every library: `handshake()` returns only after a failed attempt, a completed one is dropped at once; `read` cannot tell failure from data; `write` sends nothing; exactly when read is right: `dtls_read_right_iff` (Props/DtlsIff) |
| C77 | partial | `Model/OtherPumps`: induction over the run; for lwIP order, once, release and hand-over are proved for messages below 65536 bytes; a failed send loses the message and a longer one is cut (refuted); the Arduino pump sends only empty packets and hands over nothing (refuted for every run); exactly what is lost: `lwip_nothing_lost_iff` |
| C78 | partial | `Model/StoredUInt`: from the number lemmas of C01, induction over the numbers kept; the reader for one byte gives the old number after zero and the highest byte of a larger number, and a number too large is written outside (refuted); exactly when the one-byte reader is right: `stored_byte_iff` |
| C79 | partial | from the termination measure of C15: every walk ends; exactly the datagrams with at least nine bytes of an announced token of more than eight overflow; cut values by induction over the missing bytes: the exact list of made-up options (refuted), 32769 of them from seven bytes; values and payload shown are pieces of the datagram, since no call changes the buffer; `pull_any_safe_iff` |
| C80 | partial | the answer as a function of the bytes of the datagram (`Spec/ExamplesAny`), from C79 and the reading of header and token: exact echo when header and token are whole, and behind it only pieces of the datagram or the server's own text; refuted for all four servers for a cut token, a cut header and token lengths of nine to fifteen; exactly which datagrams the servers keep to: `ping_keeps_iff`, `examples_keep_iff` |
| C81 | partial | times by induction over the history (spacing, nothing missed); exact messages from C37; decimal text by induction over the number; refuted for buffers that just fit or are too small, and for a clock that is set back |
| C82 | partial | the end for all bytes by a decreasing measure; the lines by induction over the document, with the loop shown to go where the streaming decoder goes; refuted: every document makes the loop read one byte too far, most make it print it, cut strings show memory, lengths are cut to 16 bits, heads of eight bytes overflow; exactly which documents are shown right: `cbor_walk_shows_iff` |
| C83 | proved | one segment by induction over the tables against the one table with all children, paths by induction; also proved: counts that are negative or too large read behind the table for every segment that is not there, and a second table for a parent is never used |
| C84 | partial | by C50 and C08 for the functions without the iterator, with widths of at least 16 bits; 8 bits give the first byte; refuted for the iterator: the first of several options is always read as zero; exactly which 8-bit reads are right: `numbers_read8_iff`; exactly when the iterator is right: `iterator_numbers_iff` |
| C85 | partial | equality with the plain helper as long as no long token arrives; refuted: a confirmable message is sent once and never again, and a datagram with a token longer than 8 bytes writes behind a buffer; exactly which runs survive: `reliable_runs_iff` (Props/SocketsReliableIff) |
| C86 | partial | invariant by induction over all runs; refuted for `process_messageobserver`, which leaks one buffer for every message; exact condition: `buffers_accounted_iff` |
| C87 | partial | exact answer for every datagram that contains its header and a token of at most 8 bytes, read off the bytes by the independent reader of `Spec/Read`; refuted: exactly the other datagrams are not survived (`datagram_survived_iff`, `stream_survived_iff`; for every kind of stream `stream_server_survives_iff`), cut paths are served, message ids ending in 0xFF answered wrongly over streams of signed characters |
| C88 | partial | invariant over all histories (everything told is an answer), from C87, C13, C92 and C52; repetition while unanswered from C29; refuted: neither side notices repetitions; any number of clients by refinement: each is in the situation of a client that has the server for itself (`many_clients`) |
| C89 | partial | invariant over all histories: the registrar is the list of requests with an Observe option, each with the rounds since; notifications decoded by C13; the message ids counted through by induction over the events; refuted: requests to end and repeated requests add a registration, the eleventh overflows; exactly when the number of notifications is right: `observe_program_right_iff` (Props/ObserveProgramIff) |
| C90 | partial | two-run simulation: agreement on every field before it is read, kept by every step of header, token and option decoder for arbitrary bytes, buffers and calls; exact: seen iff the leftovers differ in whether the option state reads `Payload`, which a tokenless header-only message shows |
| C91 | partial | the run in the given room compared with the run in any larger room (header runs composed with `NRun.append`/`NRun.finished`, value appended); text option of the stream encoder and value option of the buffer encoder in both directions, value option of the stream encoder for failure only |
| C92 | proved | a reader of reports (`Spec.ReadBack`) is a left inverse of `delivery`; sequences by induction over the buffers, the decoder ending each in `done`; the phantom empty payload of a header-only message (C13) reads back as no payload, so no case is left out. Buffers the decoder does not come through (C14, C15) end the sequence and are excluded by the hypothesis that it returned |
| C93 | partial | the run on a counter of 32 bits equals a pace on unbounded time (induction over the rounds, the distance to the last notification staying below a lap); the limit is 1001 times the square of the tick in milliseconds, so the property holds for ticks of one millisecond only |
| C94 | partial | runs of the header part (`Emits`, C20) composed with an induction over the value; exact ranges as equivalences for both loops; refuted for an empty value (`generate` never returns) and for values of more than 256 bytes (the position counter has eight bits: the first 256 bytes are repeated for ever), for every encoder state and number of rounds |
| C95 | partial | invariant over all runs of a decoder with both contexts (`Follow`, any bytes, buffers and messages); the specification `latest` reads header and token off the events; proved for the copying context and for references into separate storage; refuted for references into the shared storage (every option or payload event shows three zeros), for kept references, and for the copying context between header and token of a second message |
| C96 | partial | case analysis over the whole enumeration, all 256 values of the byte in question, all headers; registry written out in `Spec/Codes`; Bad Gateway has no name and an empty message counts as a request; only these exceptions: `code_named_iff`, `counts_as_request_iff` |
| C97 | partial | simulation between a stream with little and one with more room, over every sequence of operators (`Behind`); equality with the options written whole by induction over options and pieces; decoding by C22, with the exceptions of C22 |
| C98 | partial | induction over the calls, each by the lemma on heads of C40, then the reader of C48; refuted for every negative integer, for 24, and for 64-bit numbers, which are written outside the encoder exactly from 2^32 on |
| C99 | partial | `Spec/Blockwise`: blocks of a body and a receiver that puts them together, by induction over the number of blocks; a message with a block by C11 and C22; the receiving side for any sender by C13, as an equivalence (`block_received_iff`); refuted: the first block of every body is written in front of its place, and the only block of a small body is read outside |
| C100 | partial | invariant over all runs with any answers of the library about deleting; proved: safe if what is needed is kept, and then exactly what is allocated (`resend_buffers_exact`, `resend_buffers_exact_iff`), such answers exist for every program (`right_answers_exist`); refuted: an acknowledged buffer is lost whatever is answered (`acknowledged_buffer_lost`), one deleted while tracked is used after that (`deleted_resend_undefined`), one always kept is never freed (`kept_buffers_lost`) |
| C101 | partial | a relay is the modelled decoder, the message put together from its events (`readBack`, separate specification) and the modelled stream encoder (`Spec/Relay.lean`); proved by induction on the chain: any number of relays hand on every message whose options the encoder writes rightly, from any legal encoding, and all chains give the same bytes (`relays_hand_on_partial`); exactly when a relay is right (`relay_right_iff_partial`); refuted for a value of thirteen bytes (`relay_right_fails`, the defect of C20) |
| C102 | partial | the client is a small specification of RFC 7641 section 3.4 (`Spec/ObserveOrder.lean`, the rule about 128 seconds left out); the notifications come from the modelled registrar of C37.  What each registration gets in each round (`registration_sent`); by induction on what arrives, in any order and with losses and repetitions, the client ends with the newest (`client_keeps_newest_partial`, numbers below 2^24 and less than 2^23 apart); refuted from the 2^24-th notification on (`client_stuck`) and for a client that asks again (`asked_again_exact`); with a client that reads by this library's decoder (`client_reads_newest_partial`) |
| C103 | partial | no new model: the servers of C42, C60 and C69 get requests that differ only in options outside a list of registered numbers (`Spec/UnknownOptions.lean`, the relation is inductive: unknown elective options in any number and at any places).  Same bytes in answer (`elective_ignored_partial`, `elective_ignored_stream_partial`, with the exclusions of those claims); refuted for critical options, which are never looked at — every such request to a known node gets 2.05, never 4.02 (`critical_answered`); refuted for elective options with the path example, where one more option before the path always spoils a right answer (`elective_changes_path`, from `path_place_iff`) |
| C104 | partial | no new model; what is due is in `Spec/PutAside.lean`.  For every message of another version and every empty one, exactly when the 4.04 server does what is due: another version and a registered path (`put_aside_right_iff`, `other_version_silent_partial`); every empty message gets 4.04 (`empty_message_404`); the boilerplate server and the ping example answer all of them (`put_aside_answered`, `ping_example_put_aside`); for arbitrary datagrams of another version, `other_version_datagram_iff`; the echo server, `echo_put_aside` |
| C105 | partial | no new model; lengths of the answers to arbitrary datagrams.  The server with automatic replies never sends more than it got (`auto_replies_not_longer`, no condition on the datagram); neither do the ping example and the echo server for datagrams with complete header and token (`ping_not_longer_partial`, `echo_not_longer_partial`); refuted for datagrams cut in header or token, which are filled up from memory (`ping_longer_iff`, `echo_short_longer`); the version resource exactly (`version_longer_iff`).  Path and observe examples: for well-formed messages at most one byte longer (`path_not_longer_partial`, `observe_not_longer_partial`, by comparing the bytes options need with the text made of those the iterator shows), and that byte occurs (`path_bare_longer`); the discovery example exactly (`discovery_length`); all three send more than they got when the datagram is cut in header or token (`examples_cut_longer`).  Missing: datagrams to the last three whose options are malformed |
| C106 | partial | two runs with different memory, from the exact answers to arbitrary datagrams (C80, C87, C68).  Automatic replies and version resource: no condition on the datagram (`auto_replies_no_leak`, `version_no_leak`), with the stream decoder within the limits of C87 (`stream_no_leak_partial`); echo server where header and token are complete (`echo_no_leak_partial`); refuted for the ping example, exactly for the datagrams that end inside the token they announce (`ping_leak_iff`), and for the echo server with signed characters (`echo_leaks`).  Path, observe and discovery examples: `examples_no_leak_partial`, by a two-run relation on the pull-style decoder that is carried through every call it makes (`pull_options_no_leak`: same options; `pull_no_leak_partial`: also same rest and final state); `examples_leak_iff` says that they leak exactly for the datagrams that end inside the header or the token they announce, `examples_leak_exact` does so for every datagram whatever (announced lengths above 8 end in one fault with every memory, `examples_short_long_token`); `ping_walking_leak_iff` and `echo_short_leaks` add the datagrams without a whole header for the other two.  Partial because the property fails for the examples on the datagrams named |

Every property can be expressed in the model; none is `not_applicable`.

## Places where the code does not do what a user would expect

All of these are theorems (or follow from the cited ones), for the model of the pinned commit.

Decoder
* Token length nibbles 9..15 overflow the token buffer (`decoder_token_overflow`).
* A buffer that ends inside header or token never completes (`truncated_never_completes`).
* A payload that starts in one buffer and goes on in the next loses all bytes after the first of these buffers; an
  empty buffer right behind the marker loses the whole payload (`every_cut_reported`, `cut_effect`).
* An empty last buffer repeats the last option with an empty value; without options, three empty buffers (two with a
  token) and a last empty one make up an option 0 (`every_cut_reported`, `phantoms`).
* The one-call loop never fires completion (`process_never_completes`).
* Truncated options and reserved nibbles are accepted silently (`truncated_option_accepted`, `reserved_nibble_accepted`).
* A payload cut between buffers loses bytes; an empty last buffer makes up an option (`split_payload_lost`, `split_empty_last_phantom_option`); of a value cut between buffers only the first part is reported (`cut_option_is_prefix`).
* A reused decoder may report a payload that is not there (`stale_option_state_phantom_payload`).
* Option numbers wrap at 65536 (`option_numbers_wrap`).
* The older dispatch never completes a message without payload and loses its trailing header, token or empty option (`legacy_no_payload_incomplete`, `legacy_header_only_unnoticed`); after a message with payload the next call consumes nothing and completion is reported twice (`legacy_next_message_stuck`).
* The option iterator of the pull-style decoder skips every second of three options, empties the first of three, misses a single option that ends the message and may stop before the payload state (`iterator_right_iff`, `iterator_skips_second`, `iterator_misses_single_option`, `iterator_hides_payload`); its `header()` completes a short header from memory (`pull_short_header`).

Encoders
* Deltas 242..268 and lengths of 13 and more give wrong headers (`option_header_exact_iff`, `long_value_header_wrong`); deltas from 65266 fill the whole stream (`delta_out_of_range_fills`).
* A value that does not fit is cut without report (`option_value_cut_unreported`).
* After an option without value the buffer encoder loses the next one or never returns (`empty_option_lost`, `option_after_empty_hangs`); exact room is reported as unfinished (`exact_room_reported_unfinished`).

Network buffers
* Copying into a buffer that is too small never returns; skipping more than the first chunk reads behind it (`copy_hangs`, `copy_returns_iff`). A message sent on with a token of another length is damaged (`reissue_wrong_length`).

Stream decoder
* With signed characters 0xFF in header or token is dropped (`stream_drops_ff`, `stream_header_lost`); with unsigned ones a truncated header is padded (`stream_pads_truncated`); reading at the end runs over (`stream_end_overread`).

Retry
* Three retransmissions rather than four (`never_four_retransmissions`).
* The retry manager never frees a buffer: a message acknowledged between two transmissions loses its buffer whatever the pump's library answers (`acknowledged_buffer_lost`); if the pump deletes buffers after sending, the next resending, and any acknowledgement at all, uses freed memory (`deleted_resend_undefined`); if it never does, every buffer is lost (`kept_buffers_lost`).
* Empty acknowledgements of messages with a token, and resets, do not end retransmission (`empty_ack_ignored_partial`).

Dispatch and server
* Segments shorter than the prefix are accepted (`uri_short_segment_accepted`); non-ASCII prefixes never match with signed characters (`non_ascii_prefix_never`); a rejected handler still gets the payload (`uri_handler_rejected_payload`).
* Completion does not reach the chosen handler (`completion_misses_chosen`); the last asker wins (`last_asker_chosen`); more than ten factories overflow (`too_many_factories`).
* Behind nested dispatchers, paths that are a beginning of a name or begin with one are served too (`unregistered_path_served`), nobody is told the header, token or end (`observers_miss_ends`), and a path cut between buffers may reach another observer (`cut_path_misrouted`; for all messages and names `cut_path_first_part`, `cut_path_other_observer`).
* The reply is always an acknowledgement and is cut without report (`reply_cut_off`); not-found replies are themselves answered (`auto_replies_answered`).
* The stateful matcher needs parents before children, the listing depth-first order and at most ten levels (`uri_order_needed`, `core_listing_order_needed`, `core_listing_depth_needed`).

Observe
* Deregistration does nothing (`deregistration_ignored`); four-byte sequence numbers from 2^24, no return at 2^31 (`observe_value_too_long`, `sequence_hang`).

CBOR
* 24 and -25 are written as an incomplete item (`cbor_24_invalid`); -1..-24 are read as other numbers (`cbor_small_negative_fails`); the second encoder is off by one for negatives (`cbor_base_negative_off_by_one`); eight-byte heads overflow the buffer (`cbor_long_argument_overflow`); skipping a final string reads past the end (`cbor_reads_past_end`).
* Strings of 24 characters and array elements of 24 and more are written wrongly (`cbor_24_string_invalid`, `cbor_24_string_misread`, `cbor_items_element_invalid`).
* The pointer-based reader takes every argument in a two-byte head for 24 (`old_int_two_bytes_wrong`, `old_int_round_trip_fails`, `old_string_two_bytes_wrong`), overflows on eight-byte arguments (`old_long_argument_overflow`), reads outside its array for indefinite lengths (`old_indefinite_overread`), ignores the given length (`old_reads_past_end`), and its observer is never called (`old_observer_never_called`).

Other
* Block number 0 writes before the buffer, an empty block value reads before it (`block_zero_undefined`, `block_decode_empty_undefined`); so no body can be sent in blocks with the library alone (`block_first_undefined`).
* Six defined options have unknown format (`format_gaps`).
* The managed buffer goes wrong from the third segment, overflows at the eleventh boundary, and its reset ignores its argument (`managed_third_wrong`, `managed_eleventh_boundary`, `managed_reset_keeps`).
* `FactoryDispatcherHandler` copies its context and gives each factory a local copy per call (`coap-dispatcher.hpp:99`): what `ContextDispatcherHandler` stores is lost, and an observer made by `uri_plus_observer_dispatcher` keeps a pointer to an object that is gone (C54).
* `AggregateUriPathObserver` destroys its handler at the end of a message but keeps calling it; without a payload there is no end, and the next message goes to the same handler whatever its path; a later segment can select a handler although the first fits no name (`aggregate_second_undefined`, `aggregate_handler_kept`, `aggregate_deeper_segment`, C55).
* The diagnostic observer writes a zero behind its array for every text option of 128 or more bytes (`diagnostic_long_text`), shows nothing of six options and cuts texts at a zero byte (`diagnostic_gaps`, `diagnostic_zero_byte`).
* The path as text does not tell `a/b` from `a`, `b`, and lacks what follows a cut in a segment (`path_text_slash`, `uri_text_cut`).
* Of datagrams with a payload taken from the data pump every other one is consumed without a call, and the next begins with another completion (`pump_sequence`); chunks after the first are never read (`pump_chunks_not_told`).
* An empty UDP datagram from anyone ends the process running the socket loop (`socket_empty_datagram_ends`), as does a refused send (`socket_refused_send_ends`); a datagram over 4096 bytes is queued cut and becomes another well-formed message (`socket_long_datagram_altered`).
* The version resource answers every method and every message type, even a response, with an acknowledgement 2.05 (`version_any_method`); a reply that does not fit is sent cut (`version_cut_or_bare`); writing a negative integer option never returns (`option_int_negative_hangs`).
* No server looks at critical options it does not know: such a request gets 2.05 like any other, never 4.02 (`critical_answered`); in the path example even an elective one before the path spoils the answer (`elective_changes_path`).
* No server looks at the version, and none sends a reset: a CoAP ping gets 4.04 or 2.05, so do empty acknowledgements and resets (`empty_message_404`, `ping_example_put_aside`); messages of another version are answered in that version (`put_aside_answered`).
* The library's resource listing is never link-format once it lists anything (`core_observer_unreadable`: line ends instead of commas); quotes in values are not escaped (`discovery_quotes_confused`); the example server's listing has no valid length when there is nothing to list (`discovery_nothing`).
* The example servers inherit the faults of the option iterator and add their own: the ping example answers acknowledgements and resets, and its own answers (`ping_answers_everything`, `ping_never_rests`); the path example does not recognise `test` (`path_test_missed`), nor any path of two or more segments (`path_deep_wrong`), and sends a payload marker without payload (`path_empty_malformed`); the observe example registers a client that asks to end its observation (`observe_end_registers`) and overlooks an Observe option in second place (`observe_second_overlooked`); the discovery example never serves a listing at a path such as `/.well-known/core` (`discovery_never_listed`) and everything else it sends is malformed (`discovery_others_malformed`).
* The observation handler of the older dispatch never registers a request without a payload (`observe_handler_get_ignored`) nor one with Observe 0 in its shortest form (`observe_handler_empty_unseen`); it registers a client that asks to end its observation (`observe_handler_end_registers`), registers twice (`observe_handler_registers_again`) and registers requests without Observe after one with it (`observe_handler_stays_awake`); whether it registers at all is decided by memory no constructor sets (`observe_handler_memory_decides`).
* The echo server sends memory to whoever asks: a datagram that announces a token it does not contain is answered with the bytes the decoder's buffer happened to hold (`echo_discloses`), and one cut off in the header likewise (`echo_from_memory`); a token length above 8 writes past the buffer (`echo_overflows`); a message id ending in 0xFF is answered with another id (`echo_wrong_id`); all for signed characters except the overflow, which is independent of it. Echo servers answer each other without end (`echo_never_rests`, `echo_subject_answers_acks`), and a path cut between two buffers is not recognised (`boilerplate_cut_path`).
* An aggregate of message observers makes a new object for every call and never gives its memory back: observers remember nothing (`aggregate_forgets`), are not told of payload and completion (`aggregate_loses_payload`), and any object stack is used up by enough messages (`aggregate_exhausts`). An aggregate of factories makes an object with every factory that can, the last first (`aggregator_makes`, `aggregator_both`).
* A retry observer told of every datagram the transport sends tracks each retransmission as a new message (`loop_sends_every_round`, `loop_never_given_up`): one acknowledgement retires one of the copies only (`loop_sent_after_acknowledgement`), and the ten places are exceeded by one message that is not acknowledged (`loop_overflows`).
* With a clock that wraps, a message sent less than its timeout before the end of a lap has all its retransmissions sent by the next three calls and is then given up (`clock_wrap_burst`); a call that finds the clock started again leaves overdue messages alone (`clock_wrap_late`).
* `DtlsServer::handshake()` cannot hand over a session: it goes on after success and returns only after failure (`dtls_handshake_returns_failed`, `dtls_handshake_never`, `dtls_handshake_dropped`).
* The DTLS echo server loses the rest of an answer the library takes in part (`dtls_short_write_lost`); `DtlsServer::read` returns the same for a failure and for data (`dtls_read_ambiguous`); the DTLS timer is one millisecond late (`timer_boundary`).
* The lwIP pump drops a message whose sending fails (`lwip_send_error_loses`) and cuts one of 65536 bytes or more (`lwip_long_cut`); the Arduino pump sends one empty packet per call to the first address queued, for ever (`arduino_sends_empty_packets`).
* `do_register` adds a second registration for the same client and token, where RFC 7641 section 4.1 has it take the place of
  the first; the numbers of the second begin anew, so the client takes its notifications for old ones (`asked_again_exact`).
* `layer2::UInt::get_uint8_t` reads the storage even when zero is kept, so it gives back the number kept before (`stored_zero_stale`), and gives the highest byte of a number of two bytes (`stored_byte_highest`); `set` writes outside the storage exactly for numbers that do not fit (`stored_overflow`).
* A datagram that ends inside the value of its last option makes the pull-style decoder show that option again and again: once for every two bytes announced and missing with `option_next` (`cut_option_made_up`), once for every three with the iterator (`iterator_cut_made_up`); seven bytes are enough for 32769 options (`seven_bytes_many_options`).  Fewer than four bytes show one option with whatever number memory held (`pull_short_made_up`).
* A datagram that ends inside its token, or inside its header, is answered by all four example servers, and the missing bytes of token and header are sent from uninitialised memory (`ping_cut_token_leak`, `examples_cut_token_leak`, `ping_short_header_leak`): `token()` of the decoder reports that the token is not complete, nobody looks, and the token sent has the length the header announces.  Token lengths of nine to fifteen read or write behind the eight bytes (`ping_long_token_faults`).
* `emit_observe` of the observe example advances by the length `snprintf` would have liked to write: with room for exactly the text the last digit is sent as a zero byte, or written behind the buffer, depending on the order in which the compiler evaluates the arguments (`emit_last_digit_lost`); with less room memory behind the buffer is sent (`emit_behind_buffer`).  It uses the time of day: when that is set back, nobody is notified until it has caught up (`clock_set_back_silent`).
* The loop of the CBOR example reads the byte behind the payload for every document (`cbor_walk_reads_behind`), takes it for an item unless the last item is a number (`cbor_walk_phantom`), shows memory for a cut string (`cbor_walk_leak`), uses only 16 bits of a length (`cbor_walk_length_wraps`) and writes behind the decoder's buffer for heads of eight bytes and reserved values (`cbor_walk_overflow`).
* The repository's own test hands the size of the table of tables in bytes to `match` as the number of entries; for every node without a table that reads behind the array (`tables_relation_count`).
* Numeric options read through the option iterator: the first of several is zero whatever was sent (`iterator_first_zero`, a consequence of the iterator's place in the message, C50); `uint8` gives the first byte of a longer value, not the last (`numbers_read8_partial`).
* The reliable build of the socket helper never repeats anything: the line that would track the message is commented out (`reliable_is_plain_partial`, `reliable_sent_once`); looking for acknowledgements makes it vulnerable to long tokens (`reliable_long_token`).
* `process_messageobserver` deletes the buffer it has read, allocates another one and forgets it: one buffer is lost for every message (`observer_leaks`, `observer_leaks_n`).
* A server with automatic replies does not survive a datagram that ends before its token: with the buffer decoder, or a stream decoder for signed characters, it loops for ever (`cut_datagram_hangs`), one byte is enough; with unsigned characters it answers as if bytes 0xFF followed (`stream_cut_answered`), and an empty datagram overruns the token buffer (`stream_long_token_datagram`).
* A datagram that ends inside its last path name is served as a request for the shortened path (`cut_path_answered`); an option number 65536 too large counts as Uri-Path (`any_datagram_served_partial` with `pathIn`).
* Neither client nor server notices repeated datagrams: a request is processed, and an answer told, as often as it arrives (`copies_answered_again`, `copies_told_again`).
* In the observe example a request to end an observation, or the same request again, makes the client get every notification twice, with different numbers (`observe_again_adds`); the eleventh request with an Observe option writes behind the registrations (`observe_program_overflows`).
* Leftovers in memory show in exactly one way: a message that is only a header is reported with an empty payload if the word of the option state still reads `Payload` (`memory_shows_iff`, `leftover_payload`); a decoder used before for a message with a payload does this (`reused_decoder_makes_up_payload`).
* Writing an option reports the wrong result in three ways: the stream encoder ignores whether the value fitted (`option_value_cut_unreported`), reports success for an empty text whose header did not fit (`empty_text_unreported`), and the buffer encoder reports failure for an option without value that exactly fills the room (`exact_room_reported_unfinished`).
* The ESP8266 observe example divides by the length of a tick where it should multiply: with the usual 100 ticks a second it notifies every 100 seconds instead of every second (`ticks_too_slow`), with more than 1000 ticks a second it divides by zero (`ticks_zero_period`).
* The option encoder used by itself as in the unit tests never ends for an option with an empty value (`alone_empty_endless`) and repeats the first 256 bytes of a longer value for ever (`alone_long_endless`, `alone_long_repeats`).
* A request context that refers to the token (`inline_token = false`) shows zeros for the first three token bytes to every handler of an option or payload, because the option decoder is built over the token (`reference_context_zeroed`, `reference_context_right_only`). A copying context that is used again shows the new header with the old token until the new token arrives (`inline_context_stale`), and a message of version 0 counts as having no header (`context_has_header_iff`).
* An empty message (code 0.00) counts as a request (`empty_counts_as_request`), and 5.02 Bad Gateway has no name (`bad_gateway_unnamed`).

## Wrong programs

`seeded/LOG.jsonl` records edits made to a scratch copy of the model, each standing for a realistic bug:
which theorems failed, and which were tightened because they did not.
