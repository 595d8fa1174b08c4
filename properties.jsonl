{"id": "C01", "title": "Header field setters and getters are independent", "statement": "After setting the type, code, message id or token length (0..15) of a CoAP header, reading that field returns exactly the value written, and every other field (version, type, token length, code, message id) reads as before.", "quantifier": "every 4-byte header content and every in-range value of each field", "why_tests_cant": "2^32 header contents times every field value; a test samples a few.", "anchors": ["src/coap/header.h: Header::type, Header::code, Header::message_id, Header::token_length, Header::version"]}
{"id": "C02", "title": "A fresh header is a valid version-1 header with the requested type and code", "statement": "Constructing a header with a type (and optionally a code) yields version 1, token length 0, message id 0, that type and that code, and serialises to the four RFC 7252 bytes.", "quantifier": "every type and every code byte", "why_tests_cant": "all type/code pairs must hold, including unusual codes.", "anchors": ["src/coap/header.h: Header::Header"]}
{"id": "C03", "title": "Response headers echo the request", "statement": "Building a response header from a request header copies the message id, the token length and the version; a confirmable request gives an acknowledgement, a non-confirmable request gives a non-confirmable response; the response code is exactly the one asked for.", "quantifier": "every request header content, every previous content of the output header, and every response code", "why_tests_cant": "the output header starts uninitialised, so the claim ranges over all prior garbage contents as well as all requests.", "anchors": ["src/coap/header.h: process_request, create_response"]}
{"id": "C04", "title": "Only confirmable messages are acknowledged", "statement": "Deriving an acknowledgement from an incoming response succeeds exactly when the incoming message is confirmable; on success the output carries its message id and token length with type ACK; otherwise the output header is left untouched.", "quantifier": "every incoming header and every prior output header", "why_tests_cant": "ranges over all 2^32 headers and all prior outputs.", "anchors": ["src/coap/header.h: process_response"]}
{"id": "C05", "title": "Request/response classification", "statement": "A header is classified as a request exactly when its code class (top three bits) is 0, otherwise as a response; class and detail together determine the code and are always within 0..7 and 0..31.", "quantifier": "every code byte and every header", "why_tests_cant": "must hold for the reserved classes as well.", "anchors": ["src/coap/header.h: Header::is_request, Header::is_response, Header::Code::code_class, Header::Code::detail"]}
{"id": "C06", "title": "Unsigned option integers round-trip", "statement": "Encoding any unsigned integer as a CoAP uint and decoding the produced bytes into an integer type at least as wide returns the same value.", "quantifier": "every unsigned value of every width", "why_tests_cant": "unbounded value range.", "anchors": ["src/coap/uint.h: UInt::set, UInt::get, assess_bytes_used"]}
{"id": "C07", "title": "Unsigned option integers use the shortest form", "statement": "The CoAP uint encoding of a value is the big-endian representation with no leading zero byte: zero takes no bytes, and no shorter byte string represents the same value.", "quantifier": "every unsigned value and every alternative byte string", "why_tests_cant": "minimality quantifies over all shorter strings.", "anchors": ["src/coap/uint.h: UInt::set, assess_bytes_used"]}
{"id": "C08", "title": "Decoding a uint gives its big-endian value modulo the target width", "statement": "Decoding any byte string into an N-bit unsigned type (N at least 16) returns the big-endian value of the string modulo 2^N, so leading zero bytes never matter; the 8-bit decoder returns the value for strings of at most one byte.", "quantifier": "every byte string of every length and every width", "why_tests_cant": "unbounded byte strings.", "anchors": ["src/coap/uint.h: uint_get, UInt::get"]}
{"id": "C09", "title": "Fixed-size integer writers fill exactly the requested bytes", "statement": "Writing a value that fits into n bytes with the fixed-length or padded writer changes exactly the first n bytes of the destination, and reading n bytes back gives the value.", "quantifier": "every value, every size n, every prior buffer content", "why_tests_cant": "all sizes and all values; a missed pad byte only shows for particular sizes.", "anchors": ["src/coap/uint.h: UInt::set(input, output, len), UInt::set_padded"]}
{"id": "C10", "title": "Generated tokens are distinct", "statement": "A token generator never hands out the same token twice within 2^32 consecutive calls, and every token is at most 4 bytes long, hence a legal CoAP token.", "quantifier": "every starting counter and every pair of calls less than 2^32 apart", "why_tests_cant": "a test cannot make four billion calls from every start.", "anchors": ["src/coap/token.cpp: SimpleTokenGenerator::generate"]}
{"id": "C11", "title": "Block option round-trips", "statement": "Encoding a block number, more flag and size exponent as a Block1/Block2 value and decoding it gives the same number, flag and block size, and the value takes at most 3 bytes for block numbers below 2^20.", "quantifier": "every block number below 2^20, both flags, every size exponent 0..6", "why_tests_cant": "2^20 block numbers times flags and sizes; the first block (number 0) is the boundary.", "anchors": ["src/coap/blockwise.h: option_block_encode, option_block_decode_num, option_block_decode_m, option_block_decode_szx"]}
{"id": "C12", "title": "Option headers decode per RFC 7252", "statement": "Feeding the option decoder the RFC 7252 encoding of an option header, in any of the literal, 8-bit or 16-bit extended forms for delta and length, yields the option number (previous number plus delta) and the value length that were encoded, and consumes exactly the header bytes.", "quantifier": "every previous option number, every delta and length up to 65535 with total option number below 65536, every following byte string", "why_tests_cant": "nine form combinations times 2^32 values.", "anchors": ["src/coap/option-decoder.cpp: OptionDecoder::process_iterate", "src/coap/decoder/option.h: OptionDecoder::get_value, option_delta, option_length"]}
{"id": "C13", "title": "A well-formed message is delivered exactly", "statement": "Decoding any well-formed message presented as one final buffer, driving the decoder until it reports completion, delivers exactly: the header, the token, option-start, every option in order with its number and full value, option-completed, the payload if present, and completion - nothing lost, duplicated or altered.", "quantifier": "every header, every token of 0..8 bytes, every option list with non-decreasing numbers below 65536 and values up to 65535 bytes, every payload", "why_tests_cant": "unbounded option lists, values and payloads.", "anchors": ["src/coap/decoder.cpp: Decoder::process_iterate, Decoder::option", "src/coap/decoder/subject.hpp: decode_and_notify"]}
{"id": "C14", "title": "The decoder never touches memory outside its buffers", "statement": "Whatever bytes arrive and however they are split into buffers, the decoder reads only inside the presented buffer and writes only inside its own header, token and option storage.", "quantifier": "every byte string, every split into buffers, every number of steps", "why_tests_cant": "memory safety ranges over all hostile inputs and all chunkings.", "anchors": ["src/coap/decoder.cpp: Decoder::process_iterate", "src/coap/decoder/simple.h: RawDecoder", "src/coap/option-decoder.cpp"]}
{"id": "C15", "title": "Decoding a final buffer always terminates", "statement": "Repeatedly stepping the decoder over a final buffer that holds at least a header and its token (of the legal length of at most 8 bytes) reaches completion after a number of steps bounded by a constant plus a multiple of the buffer length, whatever the rest of the buffer holds; a buffer that ends inside the header or the token never reports completion.", "quantifier": "every byte string", "why_tests_cant": "non-termination needs a proof over all inputs, including truncated ones.", "anchors": ["src/coap/decoder.cpp: Decoder::process_iterate", "src/coap/option-decoder.cpp"]}
{"id": "C16", "title": "Decoding does not depend on how the message is split", "statement": "Delivering a well-formed message in several buffers (only the last one flagged final) reports the same header, token, option numbers, payload bytes and completion as delivering it in one buffer.", "quantifier": "every well-formed message and every way of splitting it", "why_tests_cant": "the number of splits is exponential in the length.", "anchors": ["src/coap/decoder.cpp: Decoder::process_iterate", "src/coap/option-decoder.cpp: OptionDecoder::process_iterate"]}
{"id": "C17", "title": "Malformed options are not reported as valid options", "statement": "If a final buffer ends in the middle of an option or uses a reserved nibble, the decoder does not deliver the message as if it were complete and well formed.", "quantifier": "every truncated or malformed byte string", "why_tests_cant": "all malformed inputs.", "anchors": ["src/coap/option-decoder.cpp: OptionDecoder::process_iterate", "src/coap/decoder.cpp: Decoder::process_iterate"]}
{"id": "C18", "title": "Reported option numbers never decrease", "statement": "Within one message the option numbers delivered by the decoder are non-decreasing as long as the running sum stays below 65536.", "quantifier": "every byte string, well formed or not, and every step", "why_tests_cant": "all inputs including malformed ones.", "anchors": ["src/coap/option-decoder.cpp: OptionDecoder::process_iterate", "src/coap/decoder.h: Decoder::option_number"]}
{"id": "C19", "title": "The convenience decode loop delivers completion", "statement": "Running the decoder's one-call processing loop over a whole message fires the completion event.", "quantifier": "every message", "why_tests_cant": "all messages, including header-only ones.", "anchors": ["src/coap/decoder.h: Decoder::process_experimental", "src/coap/decoder/subject.hpp: decode_and_notify"]}
{"id": "C20", "title": "Encoded option headers are valid RFC 7252", "statement": "For every option number not below the previous one and every value length, the option encoder emits exactly the RFC 7252 option header for that delta and length and then stops.", "quantifier": "every previous number, every delta up to 65535 and every length up to 65535", "why_tests_cant": "2^32 combinations with three encodings and their boundaries.", "anchors": ["src/coap-encoder.cpp: OptionEncoder::generate_iterate, generator_helper"]}
{"id": "C21", "title": "The option encoder always finishes", "statement": "Asking the stream encoder to write an option header returns after finitely many steps whatever the option number, length and remaining room.", "quantifier": "every option number, previous number, length and stream capacity", "why_tests_cant": "termination for all inputs.", "anchors": ["src/coap-encoder.cpp: generate_iterate", "src/coap/encoder/streambuf.h: StreambufEncoder::option"]}
{"id": "C22", "title": "Encode then decode gives back the message", "statement": "A message written through the stream encoder (header, token, options with non-decreasing numbers, optional payload) into a large enough buffer decodes to the same header, token, options and payload.", "quantifier": "every header, token, option list and payload the encoder accepts", "why_tests_cant": "unbounded messages; both directions must agree on every boundary.", "anchors": ["src/coap/encoder/streambuf.h", "src/coap-encoder.cpp", "src/coap/decoder.cpp"]}
{"id": "C23", "title": "A full output buffer is reported", "statement": "Writing an option header into a stream without enough room reports failure, and never writes more bytes than the room available; what was written is a prefix of the full encoding.", "quantifier": "every capacity and every option", "why_tests_cant": "all capacities.", "anchors": ["src/coap/encoder/streambuf.h: StreambufEncoder::option, write"]}
{"id": "C24", "title": "Interrupted option encoding resumes seamlessly", "statement": "When the buffer encoder runs out of room in an option header and is called again with more room, the concatenation of everything it wrote equals what an uninterrupted call would have written, for every way of splitting the room.", "quantifier": "every option and every sequence of buffer sizes", "why_tests_cant": "all interruption points (schedules).", "anchors": ["src/coap/encoder.hpp: NetBufEncoder::option_header", "src/coap-encoder.cpp: generate_iterate"]}
{"id": "C25", "title": "Successive options encode independently", "statement": "Writing any sequence of options with non-decreasing numbers through the buffer encoder emits the encoding of every option, including options with an empty value.", "quantifier": "every sequence of options", "why_tests_cant": "unbounded sequences; the interaction between an empty option and its successor is a history property.", "anchors": ["src/coap/encoder.hpp: NetBufEncoder::option_header, NetBufEncoder::option"]}
{"id": "C26", "title": "The payload marker is written at most once and only before payload", "statement": "Whatever sequence of payload writes is made through the buffer encoder, exactly one 0xFF marker precedes the first payload byte and none is written later.", "quantifier": "every sequence of payload writes and buffer capacities", "why_tests_cant": "histories.", "anchors": ["src/coap/encoder.h: payload_header, payload"]}
{"id": "C27", "title": "The stream decoder agrees with the buffer decoder", "statement": "Decoding a well-formed message through a stream delivers the same header, token, options and payload as decoding it from a buffer.", "quantifier": "every well-formed message", "why_tests_cant": "all messages, including those whose header or token contains any byte value.", "anchors": ["src/coap/decoder/streambuf.hpp: process_iterate_streambuf", "src/coap/decoder/subject-core.hpp"]}
{"id": "C28", "title": "Retransmissions are never early and back off exponentially", "statement": "A confirmable message waiting for acknowledgement is only retransmitted when its due time has been reached, and after the k-th retransmission the next due time is the service time plus its initial timeout doubled k times.", "quantifier": "every queue content, every sequence of enqueue, service and acknowledgement calls with any times", "why_tests_cant": "schedules and histories are unbounded.", "anchors": ["src/exp/retry.h: Retry::service_retry, Metadata::delta, enqueue"]}
{"id": "C29", "title": "A message is retransmitted at most four times", "statement": "No confirmable message is ever retransmitted more than MAX_RETRANSMIT (4) times, and one that is never acknowledged but serviced often enough is retransmitted exactly MAX_RETRANSMIT times.", "quantifier": "every history of calls", "why_tests_cant": "all histories.", "anchors": ["src/exp/retry.h: Retry::service_retry", "src/coap.h: COAP_MAX_RETRANSMIT"]}
{"id": "C30", "title": "An acknowledgement stops retransmission of exactly that message", "statement": "When an acknowledgement arrives whose address, message id and token match a tracked message, one matching message is dropped and will not be sent again; acknowledgements that match nothing, and messages that are not acknowledgements, change nothing; all other tracked messages keep their schedule.", "quantifier": "every queue content, every incoming message, every later history", "why_tests_cant": "histories and interleavings.", "anchors": ["src/exp/retry.h: match, ack_received, service_ack"]}
{"id": "C31", "title": "The most urgent message is served first and none starves", "statement": "Each service call acts on a tracked message with the smallest due time, and every tracked message is eventually retransmitted if servicing continues past its due time.", "quantifier": "every queue content and every service schedule", "why_tests_cant": "all schedules.", "anchors": ["src/exp/retry.h: front, service_retry, RetryQueue"]}
{"id": "C32", "title": "URI path lookup finds exactly the registered node", "statement": "A stateless lookup of a path segment under a parent returns the first registered entry with that segment and parent, and nothing if there is none.", "quantifier": "every table, segment and parent", "why_tests_cant": "all tables.", "anchors": ["src/exp/uripathmap.h: match", "src/exp/uripath-repeater.h: UriPathMatcherBase::find"]}
{"id": "C33", "title": "Stateful URI matching resolves whole paths", "statement": "Feeding the segments of a path one after another to the stateful matcher ends at the node the path denotes in the table, and reports no node when the path does not exist.", "quantifier": "every table ordered parents before children, every path", "why_tests_cant": "all tables and paths; histories of segments.", "anchors": ["src/exp/uripathmap.h: UriPathMatcher3::find, last_found"]}
{"id": "C34", "title": "Prefix dispatch matches only real prefixes", "statement": "A URI handler registered for a prefix is selected for an incoming Uri-Path segment only if the prefix really is a prefix of the segment.", "quantifier": "every segment and every prefix", "why_tests_cant": "all strings, including ones shorter than the prefix.", "anchors": ["src/coap-uripath-dispatcher.h: starts_with, UriPathDispatcherHandlerBase::on_option", "src/mc/experimental-factory.h: starts_with"]}
{"id": "C35", "title": "Factory dispatch picks the first matching factory", "statement": "Looking up a handler by key returns the factory of the first table entry whose key matches, and the not-found handler when none matches.", "quantifier": "every table and every key", "why_tests_cant": "all tables.", "anchors": ["src/mc/experimental-factory.h: find, FnFactory::create"]}
{"id": "C36", "title": "A chosen message handler gets the rest of the message alone", "statement": "Once the dispatcher has chosen a handler, every later event of that message goes to that handler only; handlers that declared they are never interested get no further events.", "quantifier": "every set of handlers, every sequence of their answers and every message", "why_tests_cant": "histories.", "anchors": ["src/coap-dispatcher.h", "src/coap-dispatcher.hpp: observer_helper_begin, observer_helper_end, on_option, on_payload"]}
{"id": "C37", "title": "Every registered observer is notified exactly once per round", "statement": "A notification round sends exactly one non-confirmable 2.05 message to each registered observer, in registration order, carrying that observer's address and token and an observe sequence number one greater than its previous one.", "quantifier": "every history of registrations and notification rounds", "why_tests_cant": "histories are unbounded.", "anchors": ["src/coap/observable.h: do_register, evaluate_observe_option", "src/coap/observable.hpp: for_each"]}
{"id": "C38", "title": "Deregistration stops notifications", "statement": "After an observer deregisters (observe option 1) it gets no further notifications.", "quantifier": "every history of registrations, deregistrations and rounds", "why_tests_cant": "histories.", "anchors": ["src/coap/observable.h: do_deregister, evaluate_observe_option"]}
{"id": "C39", "title": "Automatic replies echo message id and token", "statement": "A reply built for an incoming request carries the request's message id and token, the given code, and token length equal to the token written.", "quantifier": "every request header, token and code", "why_tests_cant": "all contents.", "anchors": ["src/coap/encoder/factory.h: build_reply", "src/coap/context.h: TokenAndHeaderContext"]}
{"id": "C40", "title": "CBOR integers round-trip", "statement": "Encoding an integer with the CBOR encoder and decoding the bytes gives the same integer, and the bytes are a valid RFC 7049 item.", "quantifier": "every signed 32-bit integer (and every unsigned one as a length)", "why_tests_cant": "2^32 values with several size classes and boundaries.", "anchors": ["src/cbor/encoder.h: major_type_and_integer, integer", "src/cbor/decoder.cpp: Decoder::process_iterate", "src/cbor/decoder.h: Decoder::integer"]}
{"id": "C41", "title": "CBOR decoding classifies every item header and stays in bounds", "statement": "Feeding any bytes to the CBOR decoder reports, for each item, the RFC 7049 major type and argument, consuming exactly the header bytes, and never writes outside its buffer.", "quantifier": "every byte string", "why_tests_cant": "hostile inputs.", "anchors": ["src/cbor/decoder.cpp: Decoder::process_iterate", "src/cbor/decoder.h", "src/cbor/cbor.cpp: CBOR::Decoder::process_iterate"]}
{"id": "C42", "title": "Unmatched requests get 404, matched ones do not", "statement": "The automatic not-found responder answers 4.04 exactly for messages whose URI path resolved to no known node.", "quantifier": "every table and every message", "why_tests_cant": "all tables and paths.", "anchors": ["src/coap/decoder/observer/util.h: UriParserObserver, Auto404Observer"]}
{"id": "C43", "title": "Option meta-data is consistent", "statement": "The reported value format of an option number is the one RFC 7252 assigns (uint, string, opaque or empty) for every option the library knows, and unknown for all others.", "quantifier": "every 16-bit option number", "why_tests_cant": "65536 numbers.", "anchors": ["src/coap/decoder/option.h: OptionDecoder::get_format", "src/exp/option-trait.h"]}
{"id": "C44", "title": "Segmented buffers return what was written", "statement": "Reading back a managed buffer boundary by boundary returns the segments that were written, in order.", "quantifier": "every sequence of writes, boundaries and reads", "why_tests_cant": "histories.", "anchors": ["src/mc/experimental.cpp: ManagedBuffer::boundary, current_ro, next"]}
{"id": "C45", "title": "The resource listing names every resource by its full path", "statement": "Listing a table of URI paths as CoRE links prints, in table order, one link for every node that has CoRE data, under the node's complete path from the root, and nothing for the others.", "quantifier": "every table written depth first with distinct node ids and at most ten levels, every set of CoRE data", "why_tests_cant": "all tables: the path comes from a stack that is unwound as the table is walked, so an entry's line depends on every entry before it.", "anchors": ["src/exp/uripath-repeater.h: core_evaluator::parent_handler, evaluate, UriPathMatcher2::notify"]}
{"id": "C46", "title": "Automatic replies do not breed", "statement": "A datagram leads to at most one automatic not-found reply of bounded size, and such a reply is only sent for a request: two servers never answer each other's replies.", "quantifier": "every datagram, well-formed or not, every table, and every number of rounds between two servers", "why_tests_cant": "all datagrams, and unbounded exchanges between two endpoints.", "anchors": ["src/coap/decoder/observer/util.h: Auto404Observer", "src/coap/encoder/factory.h: build_reply, make_encoder_reply"]}
{"id": "C47", "title": "The older dispatch reports each message once and in full, however it is cut", "statement": "Feeding a message to the older subject dispatch, in any number of buffers cut anywhere, calls the observer with the header, the token, every option with its number, length and complete value (possibly in parts), the payload, and exactly one completion at the end; the next message can then be fed to the same subject.", "quantifier": "every well-formed message, every legal encoding of its options, every way to cut it into buffers including empty ones, whatever the uninitialised members held", "why_tests_cant": "all messages times all cuts: the remaining length of a value is carried between calls, and where the loop stops depends on where the buffer ends.", "anchors": ["src/coap/decoder/subject.hpp: dispatch_iterate, observer_on_option, dispatch_option, dispatch_token", "src/coap/decoder/subject.h: DecoderSubjectBase::dispatch"]}
{"id": "C48", "title": "A CBOR document survives writing and reading", "statement": "Writing any sequence of integers, strings, byte arrays, item arrays, maps, booleans and nulls with the CBOR encoder appends exactly a valid RFC 7049 encoding of them and leaves the rest of the buffer alone, or does not report success; walking over the bytes with the streaming decoder reports the same items in the same order with the same contents.", "quantifier": "every sequence of encoder calls of any length, every buffer size, every position, every legal encoding of the items on the reading side", "why_tests_cant": "all documents: how far the reader moves depends on every preceding item, and lengths cross several size classes.", "anchors": ["src/cbor/encoder.h: NetBufEncoder", "src/cbor/decoder.h: StreamDecoder, SimpleDataHelper", "src/cbor/decoder.cpp: StreamDecoder::process"]}
{"id": "C49", "title": "The pointer-based CBOR reader returns each item and stays in bounds", "statement": "Asking the pointer-based CBOR reader for an integer, a string or a map returns the encoded value, moves the pointer exactly behind it, reports a wrong type or a cut string, and reads nothing beyond the given length; the observer variant reports every integer and simple value.", "quantifier": "every item in every legal encoding, followed by anything, every given length, whatever the uninitialised members held", "why_tests_cant": "every argument size class and every cut of the input; the tests only use short strings and one 16-bit number.", "anchors": ["src/cbor.h: CBOR::Decoder::process, value, get_int_experimental, get_map_experimental, get_string_experimental", "src/cbor/cbor.cpp: CBOR::Decoder::process_iterate, DecodeToObserver::decode"]}
{"id": "C50", "title": "The pull-style decoder returns header, token, every option and the payload", "statement": "Asking the pull-style decoder for the header, the token, the options one after the other (by the functions or by the option iterator) and the payload returns exactly those of the message, in order, with number and value; a cut header or token is reported; afterwards the decoder stands at the payload if there is one and at the end otherwise.", "quantifier": "every well-formed message in every option encoding, any number of options, any token length, whatever memory held before", "why_tests_cant": "where each call stops depends on all preceding options and on what follows the last one; the existing tests of this interface only count steps and are switched off.", "anchors": ["src/coap/decoder/netbuf.h: DecoderWithContext::header, token, NetBufDecoder::begin_option_experimental, option_next, payload", "src/coap/decoder/netbuf.h: option_iterator"]}
{"id": "C51", "title": "Copying between network buffers keeps every byte", "statement": "Copying from one chunked network buffer to another, skipping a number of leading bytes, appends exactly the remaining bytes in order and without gaps, wherever the chunks of both buffers end; it returns, and reports it, when the destination is too small or the source too short. Used to send a message on with another token, it gives the same message with that token.", "quantifier": "every list of source chunks, every list of destination chunk sizes (also empty ones), every skip, and every message and token for reissuing", "why_tests_cant": "the chunk boundaries of both sides combine freely; the tests use one chunk on each side.", "anchors": ["src/exp/misc.hpp: coap_netbuf_copy", "src/coap/observable.h: ObservableMetaSession::on_message_transmitted", "src/platform/generic/malloc_netbuf.h: NetBufDynamicExperimental"]}
{"id": "C52", "title": "An answer to a confirmable message ends its retransmission", "statement": "Once a confirmable message is tracked for retransmission and any answer to it that RFC 7252 section 4.2 knows arrives from its address (an acknowledgement carrying the response, an empty acknowledgement, or a reset), it is never sent again, and no other tracked message is given up in its place. In particular the reply of a server made with this library ends the retransmission of a client made with it.", "quantifier": "every message, every token and message id, every history of other messages sent, received and retransmitted before, between and after, every heap implementation and address comparison", "why_tests_cant": "the claim is about all later histories and about both ends at once; tests use one queue with one hand-made acknowledgement.", "anchors": ["src/exp/retry.h: Retry::service_ack, ack_received, match; RetryObserver::on_notify", "src/coap/decoder/netbuf.h: NetBufDecoder::header, token", "src/coap/decoder/observer/util.h: Auto404Observer"]}
{"id": "C53", "title": "Nested dispatchers bring a request to the handler registered for its path", "statement": "With a tree of dispatchers built from the library's own factories (a name leading to further factories, or to an observer), a request whose Uri-Path options spell the names down to an observer is delivered to that observer: it alone is told everything that follows - the remaining options, the payload, the end - in order and once. A request for a path that is not registered, and any response, is delivered to nobody.", "quantifier": "every tree of routes, of any depth, every well-formed message with any options in between, every legal encoding of its options", "why_tests_cant": "trees, names and paths combine without bound; the tests use one tree with one path.", "anchors": ["src/coap-uripath-dispatcher.h: uri_plus_factory_dispatcher, uri_plus_observer_dispatcher, SingleUriPathObserver", "src/coap-dispatcher.hpp: FactoryDispatcherHandler::on_header, on_token, on_option, on_payload, on_complete", "src/coap/decoder/subject.hpp: DecoderSubjectBase::dispatch"]}
{"id": "C54", "title": "A handler chosen by a dispatcher can answer from its context", "statement": "A dispatcher is given a context and a list of factories, among them the library's handler that stores header and token in the context and observers registered for a path. When a request arrives and an observer is selected by its path, that observer can, when the payload arrives, look up in its context the header and the token of the very message being handled, and so answer it. When nobody is selected, the message is processed without using a context at all.", "quantifier": "every list of factories in any order, every context, every well-formed request with a payload, every legal encoding of its options", "why_tests_cant": "reading a context that no longer exists often still shows the right bytes, so a passing test says nothing; lists of factories and messages combine without bound.", "anchors": ["src/coap-dispatcher.h: FactoryDispatcherHandler, FactoryDispatcherHandler::Context, ContextDispatcherHandler", "src/coap-dispatcher.hpp: FactoryDispatcherHandler::on_header, on_token, on_option, on_payload, on_complete", "src/coap-uripath-dispatcher.h: uri_plus_observer_dispatcher", "src/coap/context.h: IncomingContext, TokenContext"]}
{"id": "C55", "title": "An aggregate of handlers brings each message to the handler registered for its path", "statement": "An aggregate observer is given a list of names with handler factories. Of every message dispatched to it, the handler of the first name that the first path segment begins with is told everything - header, token, options from that segment on, payload, end - in order and once, and no other handler is told anything; a path whose first segment fits no name is served by nobody. This holds for every message of a sequence, however the messages are cut into buffers.", "quantifier": "every list of names, every sequence of well-formed messages with any options, every legal encoding of the options", "why_tests_cant": "names, paths and sequences of messages combine without bound, and a call to a destroyed handler usually goes unnoticed; the only test makes two calls with one name.", "anchors": ["src/coap-uripath-dispatcher.h: AggregateUriPathObserver", "src/coap-uripath-dispatcher.hpp: AggregateUriPathObserver::on_option, on_payload, on_complete", "src/mc/experimental-factory.h: find, FnFactory::create, starts_with"]}
{"id": "C56", "title": "The diagnostic observer shows every message completely and stays inside its memory", "statement": "For every well-formed message dispatched to the diagnostic observer, it shows, in order and once, the token length and message id, the token, each option with its number, its length, its name where the library has one and its value in the format the RFCs define for that option, then the payload and the end; it never touches memory outside its own.", "quantifier": "every well-formed message, every legal encoding of its options", "why_tests_cant": "a text one byte too long writes a single zero past a local array, which a test run does not notice; values and options combine without bound.", "anchors": ["src/exp/diagnostic-decoder-observer.h: DiagnosticMessageObserver::on_notify", "src/coap.cpp: get_description", "src/coap/decoder/option.h: OptionDecoder::get_format", "src/coap/uint.h: UInt::get"]}
{"id": "C57", "title": "The text of the request path is that of the message and tells paths apart", "statement": "After dispatching a message to the observer that builds the path as text, the text consists of the path segments of this message in order, each followed by a slash, whatever was there before and however the message was cut into buffers; messages with different paths give different texts.", "quantifier": "every sequence of well-formed messages, every legal encoding of the options, every cut into buffers", "why_tests_cant": "paths, cuts and earlier messages combine without bound; no test covers this observer.", "anchors": ["src/coap/decoder/observer/util.h: _UriBuilderObserver", "src/coap/decoder/subject.hpp: decode_and_notify"]}
{"id": "C58", "title": "Every datagram taken from the data pump reaches the message observer", "statement": "When datagrams are taken one after the other from the data pump and dispatched to a message observer, the observer is told of each datagram's message, in order and once: header, token, options, payload and completion, whatever chunks the datagram's buffer consists of.", "quantifier": "every sequence of datagrams holding well-formed messages, every legal encoding of the options, every division of a datagram into chunks", "why_tests_cant": "what is told of a datagram depends on the state the earlier ones left behind; the test dispatches a single datagram of one chunk.", "anchors": ["src/platform/generic/datapump-messageobserver.hpp: process_messageobserver, process_messageobserver_helper", "src/coap/decoder/subject.h: DecoderSubjectBase::dispatch"]}
{"id": "C59", "title": "The socket loop passes every datagram on and outlives whatever the network sends", "statement": "While the program calls the socket loop again and again, every datagram that comes from the network is found in the incoming queue whole, in order and once, every datagram handed over is sent in order and once, one per turn of the loop; and nothing another host sends, and no failure to send to one host, ends the process.", "quantifier": "every sequence of turns of the loop, datagrams handed over and datagrams taken; every content and length of the datagrams; every answer of the socket", "why_tests_cant": "the loop needs a socket and its misbehaviour is the end of the process; the cases that end it are single datagrams among all that can be sent, and a cut datagram looks like a complete message.", "anchors": ["src/platform/posix/sockets-datapump.cpp: nonblocking_datapump_loop", "src/platform/posix/sockets-datapump.h: SocketsDatapumpHelper", "src/platform/generic/malloc_netbuf.h: NetBufDynamicExperimental"]}
{"id": "C60", "title": "The version resource answers a request for it, once and completely, and nothing else", "statement": "With the version responder registered for a node, a request to get that node is answered by exactly one well-formed message: an acknowledgement with 2.05 Content, the message id and token of the request, Content-Format text/plain and the version text as payload. Messages for other nodes are not answered by it, messages for no node get one 4.04, and other methods, responses and messages that are not confirmable do not get that reply.", "quantifier": "every well-formed message, path table with parents first, node, version text and room for the reply; every previous content of the decoder and of the token storage", "why_tests_cant": "the responder needs the firmware of one chip and has no test; the reply depends on the token, the path table and the room, and the wrong cases (other methods, replies of other servers, a text that does not fit) are never sent by a test.", "anchors": ["src/coap/platform/esp-idf/observer.h: VersionObserver, build_version_response", "src/coap/encoder/factory.h: build_reply", "src/coap/encoder/streambuf.h: option_int, payload"]}
{"id": "C61", "title": "Integer options are written in their shortest form and read back as the same number", "statement": "Writing an option with an integer value through the stream encoder returns, and appends the option with the shortest big-endian value, from which reading an integer option gives the number again, for every value the parameter can hold that stands for an option value.", "quantifier": "every 32-bit value, option number, previous option number and amount of room that suffices", "why_tests_cant": "the set of values is 2^32 and that of option numbers and deltas 2^16 each; the failing values make the call run forever.", "anchors": ["src/coap/encoder/streambuf.h: option_int", "src/coap/uint.h: assess_bytes_used, layer2::UInt::set"]}
{"id": "C62", "title": "The listing of resources can be read by a client and leads back to the resources", "statement": "The text a server gives out for resource discovery is link-format (RFC 6690), and a client that reads it gets exactly the resources that have CoRE data, each with its full path, resource type, interface description and title, in the order of the table; requesting a path read there leads to the node with those attributes.", "quantifier": "every table written depth first with distinct node ids and at most ten levels; every set of CoRE data and titles, with every content of names and values", "why_tests_cant": "the text depends on every entry of the table and every character of the names and values, and whether it can be read only shows when it is parsed, which no test does (the one there prints it).", "anchors": ["src/exp/uripath-repeater.h: core_observer, core_evaluator, node_core_event, operator<<", "test/posix/discoverable/main.cpp: main"]}
{"id": "C63", "title": "The ping example answers every request once and nothing else", "statement": "A server running the ping responder answers a confirmable or non-confirmable message by exactly one well-formed 2.05 with the same message id and token, whatever options and payload the message has; acknowledgements and resets are not answered (RFC 7252 sections 4.2 and 4.3), so that two such servers do not keep answering each other.", "quantifier": "every well-formed message, of any type, with any token, options and payload; every prior content of memory", "why_tests_cant": "the responder has no test, and that its own answer is answered again only shows when two servers talk to each other.", "anchors": ["test/template/simple-ping-responder.hpp: simple_ping_responder", "src/coap/decoder/netbuf.h: header_and_token", "src/coap/encoder.h: header_and_token"]}
{"id": "C64", "title": "The path example answers a request with its path", "statement": "A server running the path responder answers every request by one well-formed message with the same message id and token: 2.03 if the path is `test` and 4.04 otherwise, with the path of the request, each segment followed by a slash, as payload.", "quantifier": "every well-formed request with any options in any number; every prior content of memory", "why_tests_cant": "which options reach the loop depends on the number, the order and the values of all options of the request together; a test fixes one request.", "anchors": ["test/template/simple-uri-responder.hpp: simple_uri_responder", "src/coap/decoder/netbuf.h: option_iterator", "src/coap/encoder.h: header_and_token, payload"]}
{"id": "C65", "title": "The observe example registers who asks to observe and nobody else", "statement": "A server running the observe responder registers the sender and token of a request exactly when the request has an Observe option with the value 0, does not register anybody on a request to end an observation (value 1), and answers by a well-formed message with the same message id and token.", "quantifier": "every well-formed request with any options; every registrar and every address; every prior content of memory", "why_tests_cant": "the value with which the registrar is called depends on the position of the Observe option among all options; a test fixes one request.", "anchors": ["test/template/observable-raw-responder.hpp: simple_observable_responder", "src/coap/decoder/netbuf.h: option_iterator, uint8", "src/coap/observable.h: evaluate_observe_option"]}
{"id": "C66", "title": "The discovery example serves its listing", "statement": "A server running the discovery example answers a request for the path of its listing by one well-formed 2.05 whose payload is the listing, a request for another node by a well-formed 2.05, and any other request by a well-formed 4.04, with the same message id and token.", "quantifier": "every table of paths and CoRE data whose listing fits, every id of the listing, every well-formed request with any options", "why_tests_cant": "whether the path is recognised depends on all options of the request and on the whole table; the example has no test.", "anchors": ["test/posix/discoverable/main.cpp: main", "src/coap/decoder/netbuf.h: option_iterator, header_and_token", "src/exp/uripathmap.h: UriPathMatcher3"]}
{"id": "C67", "title": "The observation handler registers on request and takes back on request", "statement": "A message observer for observation, given a request by the dispatch, registers the token of the request once if its Observe option has the value 0 - sent as no bytes at all or as a byte -, removes it if the value is 1, and otherwise leaves the registrations alone, whatever was received before.", "quantifier": "every well-formed request with any options in any order, with or without payload; every state of the handler and every prior content of memory", "why_tests_cant": "the outcome depends on members no constructor sets, on requests handled before, and on whether the dispatch ever reports completion; a test fixes one of each.", "anchors": ["src/coap/observable.h: ObservableOptionObserverBase, ObservableRegistrar", "src/coap/observable.hpp: on_option, on_complete", "src/coap/decoder/observer.h: IsInterestedBase"]}
{"id": "C68", "title": "The echo server answers a message with its own id and token and nothing else", "statement": "The ESP32 echo server answers every well-formed confirmable or non-confirmable message by one acknowledgement with 2.03 and the message id and token of the message, however the datagram is divided into buffers and whatever options and payload follow; a datagram that is no CoAP message (cut off in the header or token, or with a token length above 8) gets no answer made of memory, and acknowledgements are not answered.", "quantifier": "every datagram in every division into buffers; every prior content of memory; signed and unsigned characters", "why_tests_cant": "the server makes a fixed number of decoder calls and hopes that header and token are complete by then; whether they are depends on every byte, on the token length and on memory, and there is no test.", "anchors": ["test/rtos/esp32/echo/main/udp-coap.cpp: udp_coap_recv", "src/coap/decoder/streambuf.hpp: process_iterate_streambuf", "src/coap/encoder/streambuf.h: header, token"]}
{"id": "C69", "title": "The servers with a subject answer every message exactly once", "statement": "The ESP32 servers `echo-subject` and `boilerplate-subject` answer every well-formed request by exactly one well-formed message with its message id and token: the former by 2.03, the latter by the version text if the path of the request denotes that node and by 4.04 otherwise, however the datagram is divided into buffers; acknowledgements are not answered.", "quantifier": "every well-formed message; every division into buffers; every path table whose parents come before their children; every prior content of memory", "why_tests_cant": "the events depend on where the buffers are divided and on all options together; there is no test of these servers.", "anchors": ["test/rtos/esp32/echo-subject/main/udp-coap.cpp: Observer, udp_coap_recv", "test/rtos/esp32/boilerplate-subject/main/app.cpp: Observer, udp_coap_recv", "src/coap/platform/lwip/context.h: do_notify, reply"]}
{"id": "C70", "title": "Message observers in an aggregate take part in a message as they do by themselves", "statement": "An aggregate of message observers passes every call of the dispatch (header, token, options with their values, payload, completion) to each of its observers in the order in which they are listed, so that what an observer remembers from one call is there at the next and the shared context ends as if each observer had been registered by itself; the memory taken for a message is given back.", "quantifier": "every list of observer classes, every shared context, every well-formed message with a payload in one buffer, any number of messages", "why_tests_cant": "the observers, what they keep and the context are parameters of the template; the one unit test makes two calls with observers that keep nothing.", "anchors": ["src/exp/message-observer.h: AggregateMessageObserver", "src/coap/experimental-observer.h: MessageObserverBase", "src/coap-dispatcher.h: operator new"]}
{"id": "C71", "title": "An aggregate of factories makes exactly one object for a key", "statement": "Creating for a key with an aggregate of factories asks each factory at most once and makes exactly one object whenever some factory can make it, and none otherwise.", "quantifier": "every list of factories with any state, every key", "why_tests_cant": "factories and keys are arbitrary; the unit test has two factories with different keys and checks nothing.", "anchors": ["src/exp/factory.h: FactoryAggregator::create, create_helper"]}
{"id": "C72", "title": "With retransmission attached to the transport, a confirmable message is sent a bounded number of times and an acknowledgement ends it", "statement": "When the retry observer is told of every datagram the transport sends, a confirmable message handed over by the application leaves at most 1 + MAX_RETRANSMIT times and is then given up, a single acknowledgement of it ends its retransmission, nothing leaves that the application did not hand over, and tracking one message never needs more than one of the ten places.", "quantifier": "every history of messages handed over, transmissions, arrivals and calls of the retry manager at any times, every heap implementation, every address comparison", "why_tests_cant": "the effect comes from retransmissions being reported as sent like first transmissions, over any number of rounds; the unit tests (switched off) notify the observer once and never connect it to a transport.", "anchors": ["src/exp/retry.h: RetryObserver::on_notify", "src/exp/retry.h: service_retry, enqueue, service_ack(TDataPump&)"]}
{"id": "C73", "title": "Retransmission keeps its times when the clock wraps", "statement": "With a clock of a finite unsigned type, a message is not retransmitted before its timeout has passed and is retransmitted once it has and the retry manager is called, also when the clock starts again from zero in between; no message is retransmitted more than three times.", "quantifier": "every size of the time type above 16380, every time of sending, every initial timeout, every heap implementation, every history", "why_tests_cant": "the failure depends on where in the lap of the clock a message is sent; the unit test uses a 16-bit clock but stays within one lap.", "anchors": ["src/exp/retry.h: enqueue (due), service_retry (due, comparison), Item::operator >", "test/unit-tests/retry-test.cpp: fake_time_traits"]}
{"id": "C74", "title": "The timer callbacks given to the DTLS library answer as the library asks", "statement": "After the timer is set with an intermediate and a final delay, asking it answers -1 if it was cancelled (final delay 0), 2 once the final delay has passed, 1 once only the intermediate delay has passed and 0 before, to within one tick, also when the tick counter wraps in between, as long as less than 2^32 ms have passed.", "quantifier": "every pair of delays, every length of a tick, every time of setting and of asking", "why_tests_cant": "depends on where in the lap of a 32-bit counter the timer is set and on the exact millisecond of asking; there is no test of it and it needs weeks of uptime.", "anchors": ["src/platform/mbedtls/esp8266-timing.cpp: mbedtls_timing_set_delay, mbedtls_timing_get_delay, get_current_time"]}
{"id": "C75", "title": "The DTLS echo server answers each client with its own data and survives failing clients", "statement": "Each round drops the previous client, serves one client, sends back exactly the bytes that client sent, whole, and reads no more than fits the buffer with a terminator; it stops the server only when accepting, naming the client or writing fails. A call that the library asks to be made again is made again, with the same data, and no other call is. Setup reports the first failing step and takes no step after it. The daemon never waits for clients unless set up, and ends only when a setup fails.", "quantifier": "every behaviour of the TLS library (every peer, network and timing), every number of repeated calls and rounds", "why_tests_cant": "needs the TLS library to answer in every order of repeated calls, short writes and failures; the tests never run this server.", "anchors": ["src/platform/mbedtls/dtls-datapump.cpp: Dtls::setup, Dtls::loop", "test/rtos/esp8266/dtls-datapump/main/mbedtls+freertos-datapump.cpp: coap_daemon"]}
{"id": "C76", "title": "DtlsServer hands over a session and its data", "statement": "handshake() returns when a client has completed the handshake, read() says false only when the connection was closed and tells a failed read from data, write() sends the data, close() sends the closing notice.", "quantifier": "every behaviour of the TLS library, every number of attempts, every buffer", "why_tests_cant": "the failure shows only with a client that completes the handshake, which no test has; that it holds for no library at all cannot be shown by running one.", "anchors": ["src/platform/mbedtls/dtls.hpp: DtlsServer::handshake, read, write, close", "src/platform/mbedtls/dtls.h: DtlsServer"]}
{"id": "C77", "title": "The lwIP and Arduino data pumps send each queued message once, in order, and hand over what arrives", "statement": "Whatever the network answers, the messages queued for sending leave in the order queued, each at most once and with exactly its bytes, every outgoing buffer is released once, as many calls of the loop as there are messages empty the queue, no message is lost while the loop is called, and every datagram that arrives is handed over once, in order.", "quantifier": "every interleaving of queueing, taking and calls of the loop, every outcome of sending and receiving, every message and address type", "why_tests_cant": "needs failing sends, timeouts and arrivals in every interleaving on hardware; the tests do not compile these files.", "anchors": ["src/platform/lwip/lwip-datapump.cpp: nonblocking_datapump_loop", "src/platform/lwip/lwip-datapump.h: LwipDatapumpHelper", "src/platform/arduino/arduino-eth-datapump.cpp: nonblocking_datapump_loop"]}
{"id": "C78", "title": "A number kept as an option value is given back, and the storage is never written outside", "statement": "Every number that fits the storage is kept in its shortest form and given back by every reader: exactly if the reader is wide enough, without the higher bits if not, whatever was kept before; no number is written outside the storage.", "quantifier": "every storage size, every number below 2^64, every sequence of numbers kept, every width read", "why_tests_cant": "tests keep a few literals in fresh storage; leftovers of earlier numbers and the boundaries of every size are not covered by them.", "anchors": ["src/coap/uint.h: layer2::UInt::set, get, get_uint8_t, get_uint16_t, get_uint24_t, set_uint24_t"]}
{"id": "C79", "title": "Reading any datagram with the pull-style decoder ends, stays in memory and shows only options that are there", "statement": "Reading header, token, all options (by the functions or by the option iterator) and payload of any datagram with the pull-style decoder comes to an end after a number of calls bounded by the length of the datagram, touches no memory outside the decoder and the datagram, and shows no more options than the datagram has bytes, none of them made up.", "quantifier": "every sequence of bytes, well-formed or not, of any length, whatever memory held before", "why_tests_cant": "tests read a handful of well-formed buffers; datagrams cut or forged at every place and every announced length are far too many to try.", "anchors": ["src/coap/decoder/netbuf.h: header, token, begin_option_experimental, option_next, option_iterator", "src/coap/option-decoder.cpp: process_iterate"]}
{"id": "C80", "title": "The example servers echo message id and token of any datagram and send nothing else", "statement": "Whatever datagram arrives, an example server (ping, path, observe, listing) comes to an end; if it answers, the answer starts with the version, message id and token of the datagram and carries no bytes the datagram or the server's own text did not supply; a datagram without a whole header or token is not answered.", "quantifier": "every sequence of bytes of any length, well-formed or not, whatever memory held before", "why_tests_cant": "the examples have no tests; which bytes of memory go out depends on where a datagram is cut and on what memory held, which no finite set of runs covers.", "anchors": ["test/template/simple-ping-responder.hpp: simple_ping_responder", "test/template/simple-uri-responder.hpp: simple_uri_responder", "test/template/observable-raw-responder.hpp: simple_observable_responder", "test/posix/discoverable/main.cpp: main", "src/coap/context.h: TokenAndHeaderContext", "src/coap/decoder/netbuf.h: header, token"]}
{"id": "C81", "title": "The observe example notifies its clients about once a second with a counted text", "statement": "The observe example notifies the registered clients at most once a second, and no later than the first round of its loop that comes more than a second after the last notification; each client then gets one message with its token, an Observe option and the text 'Observed: n', both counting the notifications since the registration; writing the text stays within the buffer, whatever its size.", "quantifier": "every history of registrations and loop rounds at any times, every buffer size, every sequence number, both orders of evaluating the arguments", "why_tests_cant": "the example has no test; times, counts and buffer sizes are unbounded and the order of evaluation is the compiler's choice.", "anchors": ["test/template/observable-raw-responder.hpp: emit_observe, evaluate_emit_observe", "test/posix/observable-raw/main.cpp: main", "src/coap/observable.hpp: for_each"]}
{"id": "C82", "title": "The CBOR example goes through any payload, names exactly the items in it and shows nothing else", "statement": "The loop with which the CBOR example server goes through a received payload comes to an end; for a CBOR document it prints type and value or content of every item in order and nothing else; it neither reads nor shows memory behind the payload and writes nothing outside the decoder, whatever the payload is.", "quantifier": "every payload, every content of the memory behind it (readable or not) and of the uninitialised decoder, every document in every legal encoding", "why_tests_cant": "payloads are unbounded and come from the network, and reading one byte behind the payload shows only with a memory checker.", "anchors": ["test/template/simple-cbor-responder.hpp: simple_cbor_responder", "src/cbor/decoder.h: Decoder", "src/cbor/decoder.cpp: Decoder::process_iterate"]}
{"id": "C83", "title": "Path tables in pieces lead to the same node as one table", "statement": "Looking up a request path segment by segment in one table of children per parent finds the node that the tables denote for that path and none if there is none, agrees with the matcher for a single table on every path, and reads no table entry that does not exist, as long as the numbers of entries handed over fit the tables and no parent has two tables.", "quantifier": "every set of tables, every path", "why_tests_cant": "tables and paths are unbounded, and a count that is too large only shows for a path that is not found, by reading whatever lies behind the table (the repository's own test hands over a size in bytes).", "anchors": ["src/exp/uripath-repeater.h: match", "src/exp/uripath-repeater.h: UriPathMap2", "test/unit-tests/experimental2-test.cpp: factory test"]}
{"id": "C84", "title": "Numeric options are read as the number that was sent", "statement": "Reading the options of a received message as numbers gives for every option its number and the big-endian value of its bytes, as far as the width asked for can hold it, whichever way of walking the options is used.", "quantifier": "every well-formed message in every option encoding, every width, every content of the uninitialised decoder", "why_tests_cant": "messages, option values and widths are unbounded, and the walk depends on the position of an option among the others.", "anchors": ["src/coap/decoder/netbuf.h: option_iterator::uint", "src/coap/decoder/netbuf.h: option_iterator::uint8", "src/coap/decoder/netbuf.h: option_next", "src/coap/uint.h: UInt::get"]}
{"id": "C85", "title": "The reliable build of the socket helper repeats what is not acknowledged and survives what arrives", "statement": "Built with the reliable feature, the socket helper sends a confirmable message again until an acknowledgement of it arrives, and no datagram from the network makes it misbehave.", "quantifier": "every sequence of turns, datagrams and messages handed over, every clock", "why_tests_cant": "the number of turns, the times and the datagrams are unbounded.", "anchors": ["src/platform/posix/sockets-datapump.h: SocketsDatapumpHelper", "src/exp/retry.h: Retry::service_ack", "src/exp/retry.h: Retry::service_retry"]}
{"id": "C86", "title": "Network buffers are neither leaked nor freed twice", "statement": "In every run of a program made of the socket or lwIP loop, the message observer functions, the answers of the example servers and messages of its own, no network buffer is used or freed when it is not allocated, and the buffers allocated are at any time exactly the ones waiting in the two queues.", "quantifier": "every sequence of these actions of any length, with datagrams arriving at any time", "why_tests_cant": "a leak of one buffer per message shows only after many messages; the order of the actions is unbounded.", "anchors": ["src/platform/generic/datapump-messageobserver.hpp: process_messageobserver", "src/platform/generic/datapump-messageobserver.hpp: process_messageobserver2", "src/platform/posix/sockets-datapump.cpp: nonblocking_datapump_loop", "src/platform/lwip/lwip-datapump.cpp: nonblocking_datapump_loop"]}
{"id": "C87", "title": "A server with automatic replies survives any datagram and answers by what is in it", "statement": "Whatever bytes arrive in a datagram, a server built from the decoder, the path matcher and the automatic replies handles it in work bounded by its length, stays inside its buffers, sends at most one message, which carries the message id and token of the datagram and is decided by the path in it, and takes a datagram that is no well-formed message for no request.", "quantifier": "every datagram (any bytes, any length), every table of paths, both decoders, any earlier contents of the buffers", "why_tests_cant": "the datagrams are unbounded; the failing ones have to be known before a test can contain them.", "anchors": ["src/coap/platform/lwip/context.h: do_notify", "src/coap/decoder/subject-core.hpp: decode_and_notify", "src/coap/decoder.cpp: Decoder::process_iterate", "src/coap/decoder/streambuf.hpp: StreambufDecoder::process_iterate_streambuf"]}
{"id": "C88", "title": "A client and a server of this library understand each other over an unreliable network", "statement": "Over a network that loses, repeats, delays and reorders datagrams, everything a client is told is the complete answer to a request it has sent; a confirmable request is sent again while no answer arrives and not any more once one has; a request that arrives at the server and whose answer arrives at the client is answered; and a request is processed, and its answer told, once.", "quantifier": "every history of requests, service calls and deliveries in any order and number, any messages, tables of paths and memory contents", "why_tests_cant": "the interleavings of losses, repetitions and timers are unbounded.", "anchors": ["src/exp/retry.h: Retry", "src/coap/platform/lwip/context.h: do_notify", "src/coap/platform/esp-idf/observer.h: build_version_response", "src/coap/decoder.cpp: Decoder::process_iterate"]}
{"id": "C89", "title": "A client of the observe example is notified from its request on until it asks to end", "statement": "A client that sends the observe example a request to observe gets exactly one notification in every round from then on, which its decoder tells it completely, with its token, with numbers that count up one by one and with a message id that none of the 65535 notifications before it had; sending the request again changes nothing; after a request to end it gets no more; and any number of clients may do so.", "quantifier": "every history of requests from any number of clients and of looks at the clock, every encoding of the requests, every content of memory", "why_tests_cant": "histories, clients and times are unbounded, and what a client sees depends on everything the others did.", "anchors": ["test/posix/observable-raw/main.cpp: main", "test/template/observable-raw-responder.hpp: simple_observable_responder, evaluate_emit_observe, emit_observe", "src/coap/observable.h: ObservableRegistrar", "src/coap/observable.hpp: for_each", "src/coap/decoder.cpp: Decoder::process_iterate"]}
{"id": "C90", "title": "What a decoder reports does not depend on what was in its memory before", "statement": "Two decoders that are given the same buffers and calls report the same, reach the same states and return the same, whatever their storage held before they were constructed; in particular a decoder that has finished one message treats the next exactly as a new decoder does, and nothing of earlier messages shows.", "quantifier": "every two contents of uninitialised memory, every bytes in every buffers, every order and number of calls, every history before", "why_tests_cant": "it compares two runs for all inputs; tests see one content of memory, and usually a zeroed one.", "anchors": ["src/coap/decoder.h: Decoder, DecoderBase", "src/coap/decoder.cpp: Decoder::process_iterate, Decoder::option", "src/coap/option-decoder.cpp: OptionDecoder::process_iterate", "src/coap/decoder/subject.hpp: decode_and_notify"]}
{"id": "C91", "title": "The result of writing an option says whether all of it was written", "statement": "Writing an option returns for every destination, writes nothing beyond its end, and reports success exactly if all of the option - header and value - is there. If it is not, what was written is the beginning of what a larger destination would have received, so that nothing wrong is ever sent.", "quantifier": "every option number, every value or text, every state of the encoder, every room left, every larger room to compare with", "why_tests_cant": "the tests use destinations that are large enough; the claim is about every boundary between room and size.", "anchors": ["src/coap/encoder/streambuf.h: StreambufEncoder::option", "src/coap/encoder.h: NetBufEncoder::option, option_header, option_value"]}
{"id": "C92", "title": "A message can be read back from what the decoder reports", "statement": "From the header, token, options and payload that the decoder reports of a well-formed message given as one buffer, the message can be put together again, all of it and without knowing anything else. This holds for every legal encoding of the options, for a new decoder and for one that was used before, and for every message of a sequence, also if other buffers that are no messages came between. So two different messages are never reported alike.", "quantifier": "every well-formed message, every legal encoding of its options, every sequence of buffers, every previous use of the decoder and every content of uninitialised memory", "why_tests_cant": "tests compare single reports; that no two of infinitely many messages share a report, and that no history of the decoder spoils the next report, is a claim about all of them.", "anchors": ["src/coap/decoder.cpp: Decoder::process_iterate", "src/coap/decoder/subject.hpp: decode_and_notify", "src/coap/platform/lwip/context.h"]}
{"id": "C93", "title": "The observe example on the ESP8266 notifies once a second", "statement": "As long as its rounds do not take long, the daemon notifies the observers whenever more than a second has passed since the last notification and not earlier, whatever the length of a tick of the system and also when the counter of ticks wraps.", "quantifier": "every length of a tick, every sequence of rounds with any two readings of the counter each, any start of the counter, any number of wraps", "why_tests_cant": "the pace depends on the configuration of the system and on a counter that wraps after weeks.", "anchors": ["test/pio/esp8266/observable-raw/src/lwip+freertos-datapump.cpp: coap_daemon"]}
{"id": "C94", "title": "The option encoder on its own produces the whole option", "statement": "Asked for one byte after the other until it says that the option is done, the option encoder produces exactly the bytes of RFC 7252, header and value, and then the loop ends. With the same encoder any number of options can be produced one after the other.", "quantifier": "every option number, every value up to 65535 bytes, every state of the encoder, every sequence of options, both ways of asking for the bytes (generate and generate_iterate)", "why_tests_cant": "the tests produce two options with a value of one byte; whether the loop ends for every length and what comes out is a claim about all values.", "anchors": ["src/coap-encoder.h: OptionEncoder::generate, next", "src/coap-encoder.cpp: OptionEncoder::generate_iterate", "test/unit-tests/coap.cpp: Basic generating single option"]}
{"id": "C95", "title": "A request context shows the request it was filled for", "statement": "A request context that observes the decoder, whether it copies the token or refers to it, shows header and token of the message in progress from the moment they have been reported until the next message: to every handler of a later option or payload, however the bytes arrive and however many messages went through the same context before. It never shows the token of another message.", "quantifier": "every sequence of messages of arbitrary bytes, every division into buffers, every step of the decoder, both kinds of context, decoders with shared and with separate storage for token and options", "why_tests_cant": "the tests look at a context once, for one message in one buffer; that a reference into the decoder stays right while the decoder goes on is a claim about all later steps.", "anchors": ["src/coap/context.h: TokenContext, HeaderContext, TokenAndHeaderContext, IncomingContext", "src/coap/decoder/observer/util.h: TokenContextObserver, HeaderContextObserver", "src/coap/decoder.h: DecoderBase (union of token and option decoder)"]}
{"id": "C96", "title": "Codes written and read by name are those of the registry", "statement": "Every code that has a name has the class and the detail RFC 7252 registers for it, and every registered code has a name. Written into a header by name it is read back as that name and changes nothing else; the method of a request is read as the registered one; only requests count as requests, and an empty message is neither request nor response. The text for the type of a header is that of its type.", "quantifier": "every name, every registered code, every content of the header", "why_tests_cant": "the tests use a handful of the names; that no other header content reads as a method, and that a write by name leaves all other fields of every header alone, ranges over all contents.", "anchors": ["src/coap/header.h: Header::Code::Codes, COAP_RESPONSE_CODE, Header::response_code, Header::request_method, Header::is_request, to_string(Header::TypeEnum)"]}
{"id": "C97", "title": "A message written with the stream operators, in any pieces, is that message", "statement": "Header, token, options and payload written with the stream operators, values and payload put byte by byte or in pieces of any size, leave in the stream exactly the bytes that writing the options whole leaves, and these decode to the message. When the room ends, whatever is written afterwards, the stream holds the first part of what would have been written, nothing is written behind its end, and no operator hangs or fails.", "quantifier": "every message, every division of values and payload into pieces, every sequence of operators in whatever order, every amount of room", "why_tests_cant": "one test writes one message byte by byte into a large buffer; pieces, orders and amounts of room are unbounded, and what the option encoder does after it was interrupted is not looked at.", "anchors": ["src/coap/encoder/streambuf.h: operator<<, experimental::option, experimental::token, experimental::payload, StreambufEncoder::ostream", "test/unit-tests/coap-encoder-test.cpp"]}
{"id": "C98", "title": "CBOR heads written one at a time, with the contents behind them, form the document", "statement": "With the small CBOR encoders that write only the head of an item, sending after each call the number of bytes it returns and then the contents gives a valid document of exactly the items meant: the integer, the text, or the string of bytes. The five bytes such an encoder owns are enough and can be used again for every call; a decoder reads the same items back.", "quantifier": "every sequence of calls of any length, every integer and every length, all contents, whatever is in the encoder's memory before", "why_tests_cant": "2^32 lengths and integers in several size classes per call; the tests look at the first byte of four of them.", "anchors": ["src/cbor/encoder.h: EncoderBase::integer, EncoderBase::string, EncoderBase::array, layer1::Encoder, layer3::Encoder", "test/unit-tests/cbor-test.cpp: basic encoder"]}
{"id": "C99", "title": "A body sent in blocks arrives as that body", "statement": "A body cut into blocks, each sent in a message of its own with a Block option made by the library among other options, can be put together again by a receiver that uses the library: every message that arrives tells the number of its block, whether more follow, the block size and the bytes, and from any arrivals in any order with any repetitions the receiver gets exactly the body once all blocks are there, and nothing before.", "quantifier": "every body, every block size, every block number, all other options the encoder can write, every order, loss and repetition of messages, every content of memory", "why_tests_cant": "Bodies, sizes and orders of arrival are unbounded, and the property runs through option encoder, decoder and block functions at once; the tests encode and decode single option values.", "anchors": ["src/coap/blockwise.h: option_block_encode, option_block_decode_num, option_block_decode_m, option_block_decode_szx", "src/coap/encoder/streambuf.h: StreambufEncoder", "src/coap/decoder.h: Decoder", "test/unit-tests/blockwise-test.cpp"]}
{"id": "C100", "title": "The buffer of a message to be resent lives until it is no longer needed", "statement": "In every run of a program that sends messages through the data pump, some of them handed to the retry manager as well, no buffer is read, sent or freed when it is not allocated, and the buffers allocated are at any time exactly the ones waiting to be transmitted and the ones of messages that are still to be resent.", "quantifier": "every sequence of messages sent, transmissions, arriving acknowledgements and calls of the retry service at any times; every answer of the pump's library to the question who deletes a buffer", "why_tests_cant": "Use of freed memory and lost buffers depend on the order of transmissions, timers and acknowledgements, which is unbounded; the unit tests keep the buffer on the stack and do not run the pump.", "anchors": ["src/exp/retry.h: Retry::enqueue, match, ack_received, service_ack, service_retry", "src/platform/posix/sockets-datapump.cpp: nonblocking_datapump_loop", "test/unit-tests/retry-test.cpp"]}
{"id": "C101", "title": "A relay hands on the message it was given", "statement": "A program that decodes a datagram, puts the message together from what the decoder tells it, and encodes that message again sends a datagram that encodes the same message: same version, type, code, message ID, token, options in the same order, and payload. This holds through any number of such programs one after the other, and after the first the bytes no longer change.", "quantifier": "every message of RFC 7252 in every legal encoding; every number of relays, with any buffer sizes that have room for the message and any previous contents of the decoder's memory", "why_tests_cant": "The claim joins decoder and encoder over every message, every encoding of its options and every length of the chain; the unit tests run the decoder and the encoder on a few fixed messages and never one behind the other repeatedly.", "anchors": ["src/coap/decoder.cpp: Decoder::process_iterate", "src/coap/option-decoder.cpp: OptionDecoder::process_iterate", "src/coap/encoder/streambuf.h: StreamEncoder", "src/coap/header.h: Header::token_length"]}
{"id": "C102", "title": "A client keeps the newest of the notifications it gets", "statement": "A client that puts the notifications of its observation in order by the numbers in their observe options, as RFC 7641 lays down, ends with the newest of those that reached it.", "quantifier": "every history of registrations and notification rounds; every choice, order and repetition of the notifications that reach the client", "why_tests_cant": "histories, losses and orders of arrival are unbounded, and the numbers run out only after 2^24 rounds.", "anchors": ["src/coap/observable.h: do_register, evaluate_observe_option", "src/coap/observable.hpp: for_each"]}
{"id": "C103", "title": "Options a server does not know", "statement": "A server ignores options that it does not know when they are elective: its answer to the request is the same bytes with and without them, wherever they stand among the options. A request with a critical option that it does not know is answered with 4.02 (Bad Option), as RFC 7252 section 5.4.1 lays down.", "quantifier": "every request, every number and placing of unknown options and every value in them, every table of resources", "why_tests_cant": "the option numbers, values and places are unbounded in combination; a test shows the answer to one request with one added option.", "anchors": ["src/coap/decoder/observer.h", "src/coap/decoder/events.h", "src/coap/decoder/uri.h", "test/posix/datapump-raw-uri"]}
{"id": "C104", "title": "Empty messages and messages of another version", "statement": "A message of a protocol version other than 1 is put aside silently. An empty confirmable message (a CoAP ping) is answered with a reset with its message id; an empty message of another type is not answered (RFC 7252 sections 3 and 4).", "quantifier": "every message of another version, every empty message, every table of resources, every state of memory", "why_tests_cant": "a message of another version may have any token, options and payload, and the answer depends on the table of resources; a test sends one.", "anchors": ["src/coap/header.h", "src/coap/decoder/observer/util.h", "src/coap/encoder/factory.h", "test/posix/datapump"]}
{"id": "C105", "title": "Answers made without looking at a resource are no longer than the datagram", "statement": "What a server sends by itself in answer to a datagram (automatic 4.04, ping, echo) is together no longer than the datagram, so that nobody can use it to multiply traffic (RFC 7252 section 11.3); for a resource with a text, it is known exactly which datagrams get a longer answer.", "quantifier": "every datagram, well-formed or not, every table of resources, every state of memory", "why_tests_cant": "the datagrams that could get a longer answer are malformed in unboundedly many ways; a test sends some.", "anchors": ["src/coap/decoder/observer/util.h", "src/coap/encoder/factory.h", "src/coap/context.h", "src/coap/platform/esp-idf/observer.h", "test/posix/datapump"]}
{"id": "C106", "title": "An answer shows nothing of what was in memory before", "statement": "What a server sends in answer to a datagram depends on the datagram and on the resources alone: with any two contents of the memory that its decoder and its context are made in, it sends the same bytes.", "quantifier": "every datagram, well-formed or not, every two contents of memory, every table of resources", "why_tests_cant": "it compares two runs, for all contents of memory; a test runs with the memory it happens to have.", "anchors": ["src/coap/decoder.h", "src/coap/context.h", "src/coap/encoder/factory.h", "src/coap/decoder/streambuf.hpp", "test/posix/datapump"]}
