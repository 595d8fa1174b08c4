{
 "claims": [
  {
   "property": "C01",
   "status": "proved",
   "theorems": [
    "Verif.Props.header_getters",
    "Verif.Props.header_set_type",
    "Verif.Props.header_set_token_length",
    "Verif.Props.header_set_code",
    "Verif.Props.header_set_message_id",
    "Verif.Props.header_set_token_length_overflow"
   ],
   "note": "Token length precondition <= 15; beyond it the setter corrupts other fields (shown)."
  },
  {
   "property": "C02",
   "status": "proved",
   "theorems": [
    "Verif.Props.header_new",
    "Verif.Props.header_new_code",
    "Verif.Props.header_new_bytes"
   ],
   "note": "For every type and every code."
  },
  {
   "property": "C03",
   "status": "proved",
   "theorems": [
    "Verif.Props.response_echoes"
   ],
   "note": "For any garbage in the uninitialised output header."
  },
  {
   "property": "C04",
   "status": "proved",
   "theorems": [
    "Verif.Props.ack_only_confirmable",
    "Verif.Props.reset_echoes_mid"
   ],
   "note": "For every pair of headers, input and output."
  },
  {
   "property": "C05",
   "status": "proved",
   "theorems": [
    "Verif.Props.request_iff_class_zero"
   ],
   "note": "For every header."
  },
  {
   "property": "C06",
   "status": "proved",
   "theorems": [
    "Verif.Props.uint_roundtrip",
    "Verif.Props.uint_roundtrip8"
   ],
   "note": "Unsigned inputs up to 64 bits, the widest C++ type."
  },
  {
   "property": "C07",
   "status": "proved",
   "theorems": [
    "Verif.Props.uint_shortest"
   ],
   "note": "For every value below 2^64 and every destination of 8 bytes or more; no other byte string of the value is as short."
  },
  {
   "property": "C08",
   "status": "proved",
   "theorems": [
    "Verif.Props.uint_decode_value",
    "Verif.Props.uint_decode_leading_zeros",
    "Verif.Props.uint_decode_value8"
   ],
   "note": "For every byte string and every width from 16 bits on; the 8-bit decoder separately."
  },
  {
   "property": "C09",
   "status": "proved",
   "theorems": [
    "Verif.Props.uint_set_fixed",
    "Verif.Props.uint_set_padded",
    "Verif.Props.uint_writers_agree",
    "Verif.Props.uint_set_padded_too_large"
   ],
   "note": "For every value below 2^64 that fits; uint_set_padded_too_large: with a value that does not fit the padded writer writes outside its length."
  },
  {
   "property": "C10",
   "status": "proved",
   "theorems": [
    "Verif.Props.token_generate_value",
    "Verif.Props.tokens_distinct",
    "Verif.Props.tokens_repeat"
   ],
   "note": "For any number of calls from any start; tokens_repeat: 2^32 + 1 calls give some token twice, so the bound cannot be raised."
  },
  {
   "property": "C100",
   "status": "partial",
   "theorems": [
    "Verif.Props.resend_buffers_safe_partial",
    "Verif.Props.resend_buffers_exact",
    "Verif.Props.resend_buffers_exact_iff",
    "Verif.Props.right_answers_exist",
    "Verif.Props.acknowledged_buffer_lost",
    "Verif.Props.deleted_resend_undefined",
    "Verif.Props.kept_buffers_lost"
   ],
   "note": "Proved under the condition that the library's answer after a transmission is to keep exactly the buffers still needed; whether it is depends on a library outside the repository. Even then every message acknowledged between two transmissions loses its buffer. If a buffer is deleted while its message is to be resent (always, without FEATURE_MCCOAP_RELIABLE), the next resending and the next acknowledgement use freed memory. Built with the pointer variants of both queues."
  },
  {
   "property": "C101",
   "status": "partial",
   "theorems": [
    "Verif.Props.relays_hand_on_partial",
    "Verif.Props.relay_right_iff_partial",
    "Verif.Props.relay_right_fails"
   ],
   "note": "Any number of relays hand on every message whose options the stream encoder writes rightly, in one encoding that does not depend on the chain. A relay with a byte to spare is right exactly for those options; a value of thirteen bytes is changed."
  },
  {
   "property": "C102",
   "status": "partial",
   "theorems": [
    "Verif.Props.registration_sent",
    "Verif.Props.client_keeps_newest_partial",
    "Verif.Props.client_stuck",
    "Verif.Props.asked_again_exact",
    "Verif.Props.sentTo_exists",
    "Verif.Props.client_reads_newest_partial"
   ],
   "note": "The client is the rule of RFC 7641 section 3.4 without its clause about time; the notifications are those of the modelled registrar, any payload, any losses, orders and repetitions. Proved while the numbers are below 2^24 and less than 2^23 apart. Refuted: from the 2^24-th notification of a registration on no client takes any (client_stuck); a client that asks again with the same token gets two registrations and takes newer notifications of the second for old ones, exactly when asked_again_exact says. client_reads_newest_partial: the same with a client that reads the datagrams with this library's decoder."
  },
  {
   "property": "C103",
   "status": "partial",
   "theorems": [
    "Verif.Props.elective_ignored_partial",
    "Verif.Props.elective_ignored_stream_partial",
    "Verif.Props.critical_answered",
    "Verif.Props.elective_changes_path"
   ],
   "note": "Elective unknown options, in any number and at any places, leave the answers of the 4.04 server and of the boilerplate server the same (exclusions of C42 and C69). Refuted: an unknown critical option never leads to 4.02, a request with one to a known node gets 2.05; with the path example, one more elective option before the path spoils every right answer."
  },
  {
   "property": "C104",
   "status": "partial",
   "theorems": [
    "Verif.Props.other_version_silent_partial",
    "Verif.Props.put_aside_right_iff",
    "Verif.Props.empty_message_404",
    "Verif.Props.put_aside_answered",
    "Verif.Props.ping_example_put_aside",
    "Verif.Props.other_version_datagram_iff",
    "Verif.Props.echo_put_aside"
   ],
   "note": "For every message to be put aside, put_aside_right_iff says exactly when the 4.04 server does what RFC 7252 asks: another version and a registered path. Refuted for the rest: empty messages get an acknowledgement 4.04 and never a reset; the boilerplate server and the ping example answer every such message. other_version_datagram_iff: every datagram of another version, well-formed or not. echo_put_aside: the echo server answers all of them with 2.03."
  },
  {
   "property": "C105",
   "status": "partial",
   "theorems": [
    "Verif.Props.auto_replies_not_longer",
    "Verif.Props.ping_not_longer_partial",
    "Verif.Props.ping_longer_iff",
    "Verif.Props.echo_not_longer_partial",
    "Verif.Props.echo_short_longer",
    "Verif.Props.version_longer_iff",
    "Verif.Props.path_not_longer_partial",
    "Verif.Props.path_bare_longer",
    "Verif.Props.observe_not_longer_partial",
    "Verif.Props.discovery_length",
    "Verif.Props.examples_cut_longer"
   ],
   "note": "Proved for automatic replies without condition on the datagram, and for the ping example and the echo server where header and token are complete. Refuted for datagrams cut in the token (ping_longer_iff, exactly) or in the header (echo_short_longer). version_longer_iff: exactly which requests for the version get a longer answer. Path and observe examples, well-formed messages: at most one byte longer, and that byte occurs. Discovery example: discovery_length. examples_cut_longer: the last three examples on datagrams cut in header or token. Missing: malformed options to the last three examples."
  },
  {
   "property": "C106",
   "status": "partial",
   "theorems": [
    "Verif.Props.auto_replies_no_leak",
    "Verif.Props.version_no_leak_partial",
    "Verif.Props.ping_leak_iff",
    "Verif.Props.echo_no_leak_partial",
    "Verif.Props.echo_leaks",
    "Verif.Props.pull_no_leak_partial",
    "Verif.Props.examples_no_leak_partial",
    "Verif.Props.pull_options_no_leak",
    "Verif.Props.examples_leak_iff",
    "Verif.Props.examples_leak_exact",
    "Verif.Props.ping_walking_leak_iff",
    "Verif.Props.echo_short_leaks",
    "Verif.Props.examples_short_long_token",
    "Verif.Props.version_no_leak",
    "Verif.Props.stream_no_leak_partial"
   ],
   "note": "Two-run statements. Proved for automatic replies and the version resource without condition on the datagram; for the echo server where header and token are complete. Refuted: ping_leak_iff (exactly the datagrams that end inside their token), echo_leaks. The path, observe and discovery examples: examples_no_leak_partial (header and token complete), from pull_options_no_leak on the pull-style decoder; examples_leak_iff: they leak exactly for datagrams that end inside the header or the token. examples_leak_exact: the same for every datagram whatever, announced lengths over 8 included. ping_walking_leak_iff, echo_short_leaks: datagrams cut inside the header. Partial because the property fails on the datagrams named. stream_no_leak_partial: both servers with the stream decoder."
  },
  {
   "property": "C11",
   "status": "partial",
   "theorems": [
    "Verif.Props.block_encode_partial",
    "Verif.Props.block_decode",
    "Verif.Props.block_roundtrip_partial",
    "Verif.Props.block_zero_undefined",
    "Verif.Props.block_decode_empty_undefined",
    "Verif.Props.block_roundtrip_iff"
   ],
   "note": "False for block number 0 (write before the buffer, proved) and for received empty values (read before the value, proved). Proved for all numbers 1..2^28-1, both flags, all exponents 0..7. block_roundtrip_iff: comes back exactly for 1..2^28-1."
  },
  {
   "property": "C12",
   "status": "proved",
   "theorems": [
    "Verif.Props.option_header_decoded"
   ],
   "note": "All nine literal/extended combinations, any state between options, exact consumption."
  },
  {
   "property": "C13",
   "status": "partial",
   "theorems": [
    "Verif.Props.message_delivered_partial",
    "Verif.Props.message_delivered_reuse_partial",
    "Verif.Props.delivery_header",
    "Verif.Props.stale_option_state_phantom_payload",
    "Verif.Props.message_delivered_iff"
   ],
   "note": "Exact delivery for every well-formed message in one final buffer, any junk memory, fresh or reused decoder. Excluded and refuted: a header-only message without token when the stale option state reads Payload. message_delivered_iff: delivered exactly unless the message is a header alone and the stale option state reads Payload."
  },
  {
   "property": "C14",
   "status": "partial",
   "theorems": [
    "Verif.Props.decoder_memory_safe_partial",
    "Verif.Props.decoder_memory_safe_legal_token",
    "Verif.Props.decoder_token_overflow",
    "Verif.Props.reach_process",
    "Verif.Props.decoder_fault_iff"
   ],
   "note": "No out-of-bounds access for any bytes, splits and steps, except token length 9..15, which is proved to overflow. decoder_fault_iff: exactly which step of which reachable state faults."
  },
  {
   "property": "C15",
   "status": "proved",
   "theorems": [
    "Verif.Props.final_buffer_terminates",
    "Verif.Props.truncated_never_completes",
    "Verif.Props.completes_past_token"
   ],
   "note": "At most 11*length+65561 steps for every buffer with a header and a token of legal length; token length nibbles 9..15 overflow the token buffer, see C14. Truncated header or token never completes."
  },
  {
   "property": "C16",
   "status": "partial",
   "theorems": [
    "Verif.Props.every_cut_exact",
    "Verif.Props.every_cut_reported",
    "Verif.Props.cut_effect",
    "Verif.Props.nonempty_cut_iff",
    "Verif.Props.split_delivered_partial",
    "Verif.Props.split_independent_partial",
    "Verif.Props.cut_option_is_prefix",
    "Verif.Props.complete_parts_exact",
    "Verif.Props.split_payload_lost",
    "Verif.Props.split_empty_last_phantom_option",
    "Verif.Props.any_cut_exact",
    "Verif.Props.any_buffers_exact",
    "Verif.Props.any_cut_numbers",
    "Verif.Props.cut_read_back",
    "Verif.Props.cut_read_back_sound",
    "Verif.Props.cut_read_back_phantom"
   ],
   "note": "False for a payload that is cut (bytes after the first buffer of the payload are lost) and for an empty last buffer (phantom option). The report is given exactly for every cut, also with empty buffers: of each option value the part in the buffer where the value starts, flagged as complete if and only if that is all of it; the payload bytes in the buffer where the payload starts; the listed phantom options; everything else independent of the cut. For non-empty buffers the report is independent of the cut if and only if the last buffer holds the whole payload. any_cut_exact gives the exact report for arbitrary bytes behind header and token in any buffers (the last one not empty, or a payload present), any_buffers_exact without that condition, with the options made up when the last buffer is empty; any_cut_numbers: the option numbers do not depend on the cut. What a caller reads back from the report on a message in any buffers: the message itself, exactly if no value is flagged incomplete and the payload begins in the last buffer, otherwise nothing; another message (one empty option more) if and only if the options of phantoms appear."
  },
  {
   "property": "C17",
   "status": "partial",
   "theorems": [
    "Verif.Props.any_bytes_reported",
    "Verif.Props.told_apart_iff",
    "Verif.Props.truncated_option_accepted",
    "Verif.Props.reserved_nibble_accepted",
    "Verif.Props.cut_value_flagged_partial",
    "Verif.Props.any_cut_exact",
    "Verif.Props.any_buffers_exact",
    "Verif.Props.any_cut_numbers"
   ],
   "note": "The property is false: truncated option headers and reserved nibbles are reported as complete messages. Proved instead, for every byte string behind header and token: exactly what is reported, and exactly which malformed buffers can be told apart from all well-formed messages (an option marked incomplete or an empty payload). A message that ends inside the value of its last option is told apart. For bytes that arrive in several buffers: any_cut_exact, any_buffers_exact, any_cut_numbers."
  },
  {
   "property": "C18",
   "status": "proved",
   "theorems": [
    "Verif.Props.option_numbers_sorted",
    "Verif.Props.reported_numbers",
    "Verif.Props.option_numbers_wrap"
   ],
   "note": "For every final buffer with a header and a token of legal length; the reported numbers are exactly the sums of the deltas modulo 65536."
  },
  {
   "property": "C19",
   "status": "partial",
   "theorems": [
    "Verif.Props.process_never_completes",
    "Verif.Props.process_is_prefix",
    "Verif.Props.process_delivers_payload_message_partial",
    "Verif.Props.process_delivers_exactly_partial"
   ],
   "note": "The property is false: the loop stops at the end of the buffer and never fires completion, for every input (process_never_completes). What it does deliver: for any bytes, exactly the first part of what stepping until Done reports, and stepping on gives exactly the rest (process_is_prefix). For a well-formed message in any option encoding the number of reports still owed is exact: 1 with a payload or a non-empty last option, 3 with an empty last option or with a token alone, 4 for a bare header (process_delivers_exactly_partial; a bare header is excluded when the uninitialised option state reads Payload, see C13)."
  },
  {
   "property": "C20",
   "status": "partial",
   "theorems": [
    "Verif.Props.option_header_exact_partial",
    "Verif.Props.option_header_exact_iff",
    "Verif.Props.long_value_header_wrong",
    "Verif.Props.long_value_header_garbage"
   ],
   "note": "The property is false for deltas 242..268 and from 65266 up and for nearly every length of 13 or more. Proved: the exact set of deltas and lengths for which it holds, as an equivalence."
  },
  {
   "property": "C21",
   "status": "proved",
   "theorems": [
    "Verif.Props.option_header_returns",
    "Verif.Props.option_header_fuel",
    "Verif.Props.delta_out_of_range_fills"
   ],
   "note": "For the stream encoder, on a stream of any finite capacity. Also proved: an out-of-range delta fills the whole stream."
  },
  {
   "property": "C22",
   "status": "partial",
   "theorems": [
    "Verif.Props.stream_round_trip_partial",
    "Verif.Props.stream_round_trip_iff_partial",
    "Verif.Props.netbuf_round_trip_iff_partial",
    "Verif.Props.stream_round_trip_fails"
   ],
   "note": "Exactly which messages survive, as an equivalence for both encoders: those whose deltas and value lengths are Encodable (values below 13 bytes, a few longer ones, deltas below 65266); every other message that is written with success decodes to something else."
  },
  {
   "property": "C23",
   "status": "proved",
   "theorems": [
    "Verif.Props.option_header_room",
    "Verif.Props.option_value_cut_unreported"
   ],
   "note": "For the option header, as stated. The value that follows is cut without report; that is proved as a separate theorem."
  },
  {
   "property": "C24",
   "status": "proved",
   "theorems": [
    "Verif.Props.interrupted_header_resumes"
   ],
   "note": "Every option number and length, every list of buffer sizes. The value is written by a separate call."
  },
  {
   "property": "C25",
   "status": "partial",
   "theorems": [
    "Verif.Props.options_encoded_partial",
    "Verif.Props.options_encoded_iff_partial",
    "Verif.Props.netbuf_round_trip_partial",
    "Verif.Props.after_empty_option",
    "Verif.Props.empty_option_lost",
    "Verif.Props.option_after_empty_hangs",
    "Verif.Props.exact_room_reported_unfinished"
   ],
   "note": "Holds for option(number, value) with the encodable lengths of C20 and for no others. False for option(number) without value: the next such option is lost, the next valued option never returns."
  },
  {
   "property": "C26",
   "status": "proved",
   "theorems": [
    "Verif.Props.payload_marker_once",
    "Verif.Props.payload_once"
   ],
   "note": "Every sequence of payload writes and buffer sizes."
  },
  {
   "property": "C27",
   "status": "partial",
   "theorems": [
    "Verif.Props.stream_segments_exact_partial",
    "Verif.Props.stream_agrees_partial",
    "Verif.Props.stream_message_delivered_partial",
    "Verif.Props.stream_segments_delivered_partial",
    "Verif.Props.stream_drops_ff",
    "Verif.Props.stream_header_lost",
    "Verif.Props.stream_pads_truncated",
    "Verif.Props.stream_end_overread",
    "Verif.Props.stream_completes_iff",
    "Verif.Props.stream_agrees_or_overreads_partial",
    "Verif.Props.stream_any_delivered_partial",
    "Verif.Props.stream_any_same",
    "Verif.Props.stream_any_overreads",
    "Verif.Props.stream_any_completes_iff",
    "Verif.Props.stream_sees",
    "Verif.Props.stream_waits",
    "Verif.Props.stream_overflows",
    "Verif.Props.stream_bytes_reported_partial",
    "Verif.Props.stream_bytes_overread",
    "Verif.Props.stream_bytes_complete_iff",
    "Verif.Props.decoder_sees_partial",
    "Verif.Props.stream_any_exact_partial",
    "Verif.Props.stream_404_partial"
   ],
   "note": "Agreement with the buffer decoder is proved for arbitrary bytes in one segment, and delivery of every well-formed message in one segment and, exactly and with any legal encoding of the options, for every cut into segments (of an option value that is cut only the part in the segment where it starts is reported, as in C16; the payload comes whole, segment by segment), unless the character type is signed and a header or token byte is 0xFF; then the byte is proved to be dropped. Where in_avail() is -1 at the end of the data, the same holds, except that exactly the messages that end with an option without value make the decoder read past the end, however they are cut. The stream buffer is modelled by its contract. For arbitrary bytes behind header and token, in any division into segments: what is reported is what one buffer reports, with cut option values reported in part and the payload segment by segment (stream_any_delivered_partial); what in_avail() is at the end makes no difference unless the bytes end within an option (stream_any_same), and where it is -1 and they do, the decoder reads past the end (stream_any_overreads, stream_any_completes_iff). For every sequence of bytes at all: header and token are made of the characters the decoder sees (takeChars: with a signed character type bytes 0xFF are skipped, with an unsigned one the end goes on with 0xFF), everything behind them is reported as above (stream_sees, stream_bytes_reported_partial), and stream_bytes_complete_iff says exactly which streams are completed; the others wait for ever, overflow the token buffer or are read past the end. Decoding a stream of one segment is decoding a buffer with the bytes as seen (decoder_sees_partial). stream_any_exact_partial gives the exact report for arbitrary bytes behind header and token, in any segments. stream_404_partial: the not-found responder of C42 behind the stream decoder."
  },
  {
   "property": "C28",
   "status": "proved",
   "theorems": [
    "Verif.Props.retransmissions_spaced",
    "Verif.Props.service_backoff",
    "Verif.Props.initial_timeout"
   ],
   "note": "Every history of sent, received and serviced events; time unbounded; heap library by contract (PQ)."
  },
  {
   "property": "C29",
   "status": "partial",
   "theorems": [
    "Verif.Props.retransmissions_bounded_partial",
    "Verif.Props.never_four_retransmissions",
    "Verif.Props.unacked_sent_three_times",
    "Verif.Props.confirmable_sent_three_times",
    "Verif.Props.only_confirmable_retransmitted"
   ],
   "note": "At most 4 holds (at most 3), only confirmable messages are retransmitted. Exactly 4 is false in every history: the code stops after 3; exactly 3 is proved, also from the sending of a confirmable message on."
  },
  {
   "property": "C30",
   "status": "proved",
   "theorems": [
    "Verif.Props.ack_drops_one",
    "Verif.Props.other_arrivals_ignored",
    "Verif.Props.acked_never_resent"
   ],
   "note": "The first two for every queue, reachable or not; acked_never_resent for every history from the beginning and every continuation of it."
  },
  {
   "property": "C31",
   "status": "proved",
   "theorems": [
    "Verif.Props.most_urgent_first",
    "Verif.Props.no_starvation"
   ],
   "note": "Timeouts of zero are excluded; the random policy gives 2000 to 3000."
  },
  {
   "property": "C32",
   "status": "proved",
   "theorems": [
    "Verif.Props.uri_match_iff",
    "Verif.Props.uri_match_none_iff",
    "Verif.Props.uri_find_first",
    "Verif.Props.uri_find_none"
   ],
   "note": "Both lookups, every table, segment and parent."
  },
  {
   "property": "C33",
   "status": "proved",
   "theorems": [
    "Verif.Props.uri_path_found",
    "Verif.Props.uri_path_not_found",
    "Verif.Props.uri_path_iff",
    "Verif.Props.uri_segment_found",
    "Verif.Props.uri_matchers_agree",
    "Verif.Props.uri_order_needed"
   ],
   "note": "Both stateful matchers; a concrete table shows why parents must come before children."
  },
  {
   "property": "C34",
   "status": "partial",
   "theorems": [
    "Verif.Props.factory_prefix_iff",
    "Verif.Props.uri_prefix_iff",
    "Verif.Props.uri_prefix_partial",
    "Verif.Props.uri_short_segment_accepted",
    "Verif.Props.non_ascii_prefix_never",
    "Verif.Props.uri_handler_selected",
    "Verif.Props.uri_handler_rejected_partial",
    "Verif.Props.uri_handler_rejected_payload"
   ],
   "note": "The factory comparison is exact for every segment and prefix. The comparison of the URI handlers is exact only for segments at least as long as the prefix: every proper prefix of the prefix, the empty segment included, is accepted (uri_short_segment_accepted)."
  },
  {
   "property": "C35",
   "status": "proved",
   "theorems": [
    "Verif.Props.factory_find_first",
    "Verif.Props.factory_find_none",
    "Verif.Props.factory_create_first",
    "Verif.Props.factory_create_none",
    "Verif.Props.factory_shadowed"
   ],
   "note": "For every table, key and comparison. A null factory pointer counts as not found. factory_shadowed shows what first-match by prefix means for overlapping keys."
  },
  {
   "property": "C36",
   "status": "partial",
   "theorems": [
    "Verif.Props.chosen_alone_partial",
    "Verif.Props.never_interested_silent",
    "Verif.Props.undecided_all_called",
    "Verif.Props.chosen_asked",
    "Verif.Props.completion_misses_chosen",
    "Verif.Props.last_asker_chosen",
    "Verif.Props.too_many_factories",
    "Verif.Props.last_asker_chosen_iff"
   ],
   "note": "Proved for header, token, option and payload events over all answer histories. False for the completion, which goes to newly made handlers of all factories still in play and never to the chosen handler (completion_misses_chosen); false beyond ten factories. last_asker_chosen_iff: for every dispatcher without a chosen handler and every call other than an option head, exactly the last factory in play that asks is chosen."
  },
  {
   "property": "C37",
   "status": "partial",
   "theorems": [
    "Verif.Props.observers_notified_partial",
    "Verif.Props.notification_delivered",
    "Verif.Props.sequence_hang",
    "Verif.Props.observe_value_too_long",
    "Verif.Props.observe_messages_bounded",
    "Verif.Props.observe_message_undefined",
    "Verif.Props.notified_right_iff"
   ],
   "note": "For every history with fewer than 2^31 messages, registrations within the capacity and buffers of at least 18 bytes. No history sends 2^31 messages: the next one overflows the counter of message ids (proved). At sequence number 2^31 the encoder call never returns; from 2^24 on the option is longer than RFC 7641 allows. notified_right_iff: how many each address gets, and exactly when that is one per token it observes with."
  },
  {
   "property": "C38",
   "status": "partial",
   "theorems": [
    "Verif.Props.deregistration_ignored",
    "Verif.Props.deregister_answered",
    "Verif.Props.unregistered_silent_partial",
    "Verif.Props.bad_observe_refused",
    "Verif.Props.notified_right_iff"
   ],
   "note": "False of the code: deregistration does nothing (deregistration_ignored, for every history). What holds: addresses that never registered get nothing. notified_right_iff: an address gets as many notifications per round as it asked to observe; that is right exactly if no request repeated or ended an observation that was there."
  },
  {
   "property": "C39",
   "status": "proved",
   "theorems": [
    "Verif.Props.reply_echoes",
    "Verif.Props.reply_cut_off",
    "Verif.Props.unknown_path_404"
   ],
   "note": "Every header, token and code. The type is always acknowledgement, also for non-confirmable requests. reply_cut_off: with too little room the reply is silently a prefix."
  },
  {
   "property": "C40",
   "status": "partial",
   "theorems": [
    "Verif.Props.cbor_integer_written_partial",
    "Verif.Props.cbor_round_trip_partial",
    "Verif.Props.cbor_24_invalid",
    "Verif.Props.cbor_small_negative_fails",
    "Verif.Props.cbor_base_negative_off_by_one",
    "Verif.Props.cbor_base_same",
    "Verif.Props.cbor_smallest_undefined",
    "Verif.Props.cbor_round_trip_iff"
   ],
   "note": "Proved for all 32-bit integers except 24, -25 and the smallest one (written bytes are a valid item denoting the integer) and, for the round trip, also except -1..-24; the excluded values are proved to fail (24 and -25 give an incomplete item; -1..-24 decode to another number; the second encoder class is off by one for negatives and otherwise does the same; negating the smallest integer is undefined). cbor_round_trip_iff: exactly which 32-bit integers come back."
  },
  {
   "property": "C41",
   "status": "partial",
   "theorems": [
    "Verif.Props.cbor_head_decoded_partial",
    "Verif.Props.cbor_string_skipped_partial",
    "Verif.Props.cbor_container_entered_partial",
    "Verif.Props.cbor_decoder_in_bounds_partial",
    "Verif.Props.cbor_long_argument_overflow",
    "Verif.Props.cbor_reads_past_end",
    "Verif.Props.process_overflow",
    "Verif.Props.cbor_overflow_iff",
    "Verif.Props.cbor_length_turns_back",
    "Verif.Props.cbor_truncated_ends",
    "Verif.Props.cbor_position_overflows"
   ],
   "note": "Type, argument and consumed bytes are proved for every head with an argument of at most four bytes. Which calls write outside the buffer is an equivalence, at any place in any bytes: those at a byte whose low five bits are 27 or more with at least four more bytes behind it (cbor_overflow_iff). Skipping a final string is proved to read past the end; skipping a string that announces 2^31 bytes or more is proved to go back, to bytes already read or to memory before them (cbor_length_turns_back), while one that announces less than that but more than there is ends the walk (cbor_truncated_ends), or overflows the position if the sum reaches 2^31 (cbor_position_overflows). The older CBOR::Decoder is the subject of C49."
  },
  {
   "property": "C42",
   "status": "proved",
   "theorems": [
    "Verif.Props.known_path_no_reply",
    "Verif.Props.unknown_path_404"
   ],
   "note": "End to end from the bytes of every well-formed message through the decoder and the observers; the version for the stream decoder (stream_404_partial) is listed under C27, whose exclusions it has."
  },
  {
   "property": "C43",
   "status": "partial",
   "theorems": [
    "Verif.Props.get_format_exact_partial",
    "Verif.Props.format_gaps",
    "Verif.Props.traits_sound",
    "Verif.Props.formats_agree",
    "Verif.Props.formats_together"
   ],
   "note": "Every 16-bit number. get_format reports Unknown for six defined options (format_gaps), so the claim holds for all other numbers only; the run-time traits are sound for every number."
  },
  {
   "property": "C44",
   "status": "partial",
   "theorems": [
    "Verif.Props.managed_first_two_partial",
    "Verif.Props.managed_read_through",
    "Verif.Props.managed_reread",
    "Verif.Props.managed_read_rest",
    "Verif.Props.managed_third_wrong",
    "Verif.Props.managed_eleventh_boundary",
    "Verif.Props.managed_reset_keeps",
    "Verif.Props.managed_writes_iff"
   ],
   "note": "The first two segments come back for every sequence of writes; after any reading a reset leads back to the start. From the third on the position is wrong (managed_third_wrong, for all segments). Which sequences of segments can be written at all is an equivalence (managed_writes_iff)."
  },
  {
   "property": "C45",
   "status": "proved",
   "theorems": [
    "Verif.Props.core_listing",
    "Verif.Props.core_listing_order_needed",
    "Verif.Props.core_listing_depth_needed"
   ],
   "note": "Witnesses show that depth-first order and the ten level limit are needed."
  },
  {
   "property": "C46",
   "status": "partial",
   "theorems": [
    "Verif.Props.auto_replies_bounded_partial",
    "Verif.Props.auto_replies_answered",
    "Verif.Props.auto_replies_breed",
    "Verif.Props.reply_of_reply",
    "Verif.Props.auto_replies_breed_any",
    "Verif.Props.version_answers_replies",
    "Verif.Props.reply_of_text",
    "Verif.Props.text_replies_breed",
    "Verif.Props.auto_reply_right_iff"
   ],
   "note": "The bound holds for all bytes. That replies are not answered is false: auto_replies_answered. auto_replies_breed: every message that gets an automatic reply starts an endless exchange between two servers, for any tables, any room from 12 bytes on, any memory contents. Arbitrary datagrams: any bytes with header and token that get the automatic reply start an exchange that never ends (auto_replies_breed_any). Even the right answer of the version responder starts an endless exchange with a server that sees it (text_replies_breed). auto_reply_right_iff: exactly when a reply is in place."
  },
  {
   "property": "C47",
   "status": "partial",
   "theorems": [
    "Verif.Props.legacy_payload_message_partial",
    "Verif.Props.legacy_split",
    "Verif.Props.legacy_no_payload_incomplete",
    "Verif.Props.legacy_header_only_unnoticed",
    "Verif.Props.legacy_next_message_stuck",
    "Verif.Props.legacy_one_buffer",
    "Verif.Props.legacy_cut_value",
    "Verif.Props.legacy_any_exact",
    "Verif.Props.legacy_any_one",
    "Verif.Props.legacy_any_complete_iff",
    "Verif.Props.legacy_any_numbers",
    "Verif.Props.legacy_prompt",
    "Verif.Props.legacy_prompt_prefix"
   ],
   "note": "Proved for messages with a payload, for every cut and every legal option encoding, and for arbitrary bytes the calls do not depend on the cut. Refuted, for all inputs, for messages without payload (completion is never reported; a trailing header, token or empty option is lost) and for a second message on the same subject (nothing is consumed, then completion is reported twice). The exact calls are given for a cut inside any option value (legacy_cut_value). For arbitrary bytes behind header and token, cut in any way, the exact calls are given by a separate reading of the bytes (legacy_any_exact), with the exact condition for a completion (legacy_any_complete_iff) and the options announced (legacy_any_numbers: those read, at most the last one missing). Buffer by buffer: when more is to come, exactly what the bytes so far say has been told (legacy_prompt)."
  },
  {
   "property": "C48",
   "status": "partial",
   "theorems": [
    "Verif.Props.cbor_document_written_partial",
    "Verif.Props.cbor_document_read_partial",
    "Verif.Props.cbor_document_round_trip_partial",
    "Verif.Props.cbor_24_string_invalid",
    "Verif.Props.cbor_24_string_misread",
    "Verif.Props.cbor_items_element_invalid",
    "Verif.Props.cbor_walk_never_ends",
    "Verif.Props.cbor_simple_seen_partial",
    "Verif.Props.cbor_document_written_iff"
   ],
   "note": "Any sequence of calls and any sequence of items. Excluded: the numbers 24 and -25 and the length 24 when writing (refuted), array elements of 24 and more (refuted), numbers from -1 to -24 when reading (refuted under C40), arguments of more than four bytes. Chunks are shorter than 2^31 bytes, positions being of type int. A string that announces 2^32 - 5 bytes is proved to be reported for ever (cbor_walk_never_ends). Of tags, simple values and floating-point numbers exactly the bytes of false, true and null are reported as such, everything else as none of the kinds (cbor_simple_seen_partial). cbor_document_written_iff: a document reported as written is right exactly when no call is about 24, -25 or a length of 24 and no array element is 24 or more."
  },
  {
   "property": "C49",
   "status": "partial",
   "theorems": [
    "Verif.Props.old_int_partial",
    "Verif.Props.old_string_partial",
    "Verif.Props.old_map_partial",
    "Verif.Props.old_wrong_type",
    "Verif.Props.old_int_two_bytes_wrong",
    "Verif.Props.old_int_round_trip_fails",
    "Verif.Props.old_string_two_bytes_wrong",
    "Verif.Props.old_long_argument_overflow",
    "Verif.Props.old_indefinite_overread",
    "Verif.Props.old_reads_past_end",
    "Verif.Props.old_observer_never_called",
    "Verif.Props.old_observer_silent",
    "Verif.Props.old_string_past_end_iff",
    "Verif.Props.old_string_two_bytes_past_end_iff",
    "Verif.Props.oready_fresh"
   ],
   "note": "Heads of one, three and five bytes are right. Refuted for all inputs: heads of two bytes (value always 24), eight-byte arguments (write outside the array), reserved and indefinite lengths (read outside the array), input that ends inside a head (read beyond it), observer calls (none ever). Exactly when get_string reads behind the given bytes. oready_fresh: a new reader meets the hypothesis of these theorems, whatever its memory held."
  },
  {
   "property": "C50",
   "status": "partial",
   "theorems": [
    "Verif.Props.pull_reads_message_partial",
    "Verif.Props.iterator_shows_partial",
    "Verif.Props.iterator_right_iff",
    "Verif.Props.iterator_misses_single_option",
    "Verif.Props.iterator_skips_second",
    "Verif.Props.iterator_hides_payload",
    "Verif.Props.pull_short_header",
    "Verif.Props.pull_cut_token",
    "Verif.Props.pull_token_once"
   ],
   "note": "Proved for header, token, begin/next and payload on every well-formed message. The option iterator is wrong for every message with options except a single empty one; what it shows is characterised exactly. A short header is not reported. The token can be asked for only once (pull_token_once)."
  },
  {
   "property": "C51",
   "status": "partial",
   "theorems": [
    "Verif.Props.copy_exact",
    "Verif.Props.copy_returns_iff",
    "Verif.Props.copy_hangs",
    "Verif.Props.reissue_same_length_partial",
    "Verif.Props.reissue_wrong_length",
    "Verif.Props.copy_overread_iff"
   ],
   "note": "The copy is exact whenever the bytes fit and the skipped ones are in the first chunk, and it returns in exactly these cases. Refuted: a destination that is too small makes it loop for ever, a larger skip reads outside; reissuing with a token of another length damages every message (the code skips the length of the new token). The copy reads behind the source exactly when the skip exceeds the first chunk."
  },
  {
   "property": "C52",
   "status": "partial",
   "theorems": [
    "Verif.Props.response_stops_retransmission",
    "Verif.Props.own_reply_stops_retransmission",
    "Verif.Props.only_matching_ack_stops",
    "Verif.Props.empty_ack_ignored_partial",
    "Verif.Props.answer_ends_iff"
   ],
   "note": "Proved for acknowledgements that carry the response (message id and token of the message), for all histories before, between and after, on the bytes of messages, and composed with this library's own server reply. Missing because the code does not do it: an empty acknowledgement of a message with a token and a reset of any message are ignored and the message is retransmitted the full three times (empty_ack_ignored_partial, only_matching_ack_stops). answer_ends_iff: exactly which messages end it, after every history."
  },
  {
   "property": "C53",
   "status": "partial",
   "theorems": [
    "Verif.Props.routes_deliver",
    "Verif.Props.routes_ignore_responses",
    "Verif.Props.registered_path_reached_partial",
    "Verif.Props.unregistered_path_served",
    "Verif.Props.observers_miss_ends",
    "Verif.Props.cut_path_misrouted",
    "Verif.Props.cut_path_first_part",
    "Verif.Props.cut_path_other_observer"
   ],
   "note": "Complete characterisation of what reaches which observer, from the bytes of a message in one buffer through any tree of routes (routes_deliver). It is what was registered when the names of each dispatcher can be told apart and the path is registered (registered_path_reached_partial). Refuted: paths that are a beginning of a name, or begin with one, are served too (for all names, paths and messages); no observer is ever told the end of a message (for all trees and calls); a path cut between two buffers is routed by its first part alone, so that of two names beginning alike the later gets every request for the other cut in the common beginning (for all messages, names and encodings)."
  },
  {
   "property": "C54",
   "status": "partial",
   "theorems": [
    "Verif.Props.unselected_context_fine_partial",
    "Verif.Props.chosen_observer_context_gone",
    "Verif.Props.dispatcher_context_never_filled",
    "Verif.Props.storing_handler_stores",
    "Verif.Props.context_gone_iff"
   ],
   "note": "Proved when nobody is selected. Refuted for every request with a payload whose path selects an observer: the observer's context was a local copy and is gone (chosen_observer_context_gone); whatever a handler stores is lost, since the dispatcher's own copy never changes (dispatcher_context_never_filled). context_gone_iff: the exact condition for requests with a payload."
  },
  {
   "property": "C55",
   "status": "partial",
   "theorems": [
    "Verif.Props.aggregate_serves_partial",
    "Verif.Props.aggregate_serves_nobody",
    "Verif.Props.aggregate_deeper_segment",
    "Verif.Props.aggregate_second_undefined",
    "Verif.Props.aggregate_handler_kept",
    "Verif.Props.aggregate_never_head",
    "Verif.Props.aggregate_cut_segment",
    "Verif.Props.aggregate_interest",
    "Verif.Props.aggregate_cut_second_part",
    "Verif.Props.aggregate_cut_first_part",
    "Verif.Props.aggregate_sequence",
    "Verif.Props.course_exists",
    "Verif.Props.aggregate_sequence_undefined_iff"
   ],
   "note": "Proved for the first message that is served (options from the selecting segment on, payload, end) and for messages nobody serves, in any number. Refuted: a later segment may select although the first fits no name; the next message after one with a payload calls a destroyed handler, after one without goes to the same handler; header and token are never told; a segment cut between buffers selects by its first part, or if no name fits that by its second part (for all messages, names and encodings). aggregate_sequence: for every sequence of messages exactly what is told to whom; aggregate_sequence_undefined_iff: exactly which sequences end in a call to a destroyed handler."
  },
  {
   "property": "C56",
   "status": "partial",
   "theorems": [
    "Verif.Props.diagnostic_shows_partial",
    "Verif.Props.diagnostic_long_text",
    "Verif.Props.diagnostic_gaps",
    "Verif.Props.diagnostic_zero_byte",
    "Verif.Props.diagnostic_inside_iff",
    "Verif.Props.diagnostic_message_inside_iff",
    "Verif.Props.diagnostic_cut_exact_partial",
    "Verif.Props.diagnostic_cut_wrong",
    "Verif.Props.diagnostic_any_exact_partial",
    "Verif.Props.diagnostic_any_inside_iff"
   ],
   "note": "Proved for messages whose options have a format known to the code, numbers of at most eight bytes and texts of at most 127 bytes without zero, in one buffer and, as they are seen there, in any buffers. It stays inside its memory exactly if no text option of 128 or more bytes is reported, whatever the bytes and buffers (diagnostic_inside_iff). Refuted for all inputs: longer texts (write outside the array), the six options of unknown format, texts with a zero byte, options cut between buffers (shown with the length of the first part). For arbitrary bytes behind header and token in any buffers, empty ones included: the exact lines (diagnostic_any_exact_partial) and exactly when the observer stays inside its memory (diagnostic_any_inside_iff)."
  },
  {
   "property": "C57",
   "status": "partial",
   "theorems": [
    "Verif.Props.uri_text_partial",
    "Verif.Props.uri_text_every_cut",
    "Verif.Props.path_text_injective",
    "Verif.Props.path_text_slash",
    "Verif.Props.uri_text_cut",
    "Verif.Props.uri_text_no_room",
    "Verif.Props.uri_text_cut_exact_partial",
    "Verif.Props.uri_text_right_iff",
    "Verif.Props.uri_text_cut_wrong",
    "Verif.Props.uri_text_made_up",
    "Verif.Props.uri_text_any_exact"
   ],
   "note": "Exact for a message in one buffer, for any earlier text, and for every cut into buffers (uri_text_cut_exact_partial, given room for 127 characters); for a cut message the text is right exactly if every path segment lies whole in the buffer in which it starts (uri_text_right_iff); different paths give different texts when no segment contains a slash. Refuted for all messages: segments with a slash, a path segment cut between two buffers, a message without payload ended by an empty buffer (a slash too many), no room. For arbitrary bytes behind header and token in any buffers the exact text, or that the string overflows (uri_text_any_exact)."
  },
  {
   "property": "C58",
   "status": "partial",
   "theorems": [
    "Verif.Props.pump_first_partial",
    "Verif.Props.pump_sequence",
    "Verif.Props.pump_second_lost",
    "Verif.Props.pump_second_header_untold",
    "Verif.Props.pump_chunks_ignored",
    "Verif.Props.pump_chunks_not_told",
    "Verif.Props.pump_first_any",
    "Verif.Props.pump_sequence_any",
    "Verif.Props.pump_second_header_untold_any",
    "Verif.Props.pump_right_iff"
   ],
   "note": "Proved for the first datagram in one chunk with a payload. For any number of such datagrams pump_sequence gives exactly what is told of each: every other one is lost and the one after it begins with a spurious completion. After a datagram with any message, with or without a payload, the header of the next one is never told (pump_second_header_untold). Later chunks never make a difference. For a first datagram with arbitrary bytes behind header and token pump_first_any gives exactly what is told. For arbitrary bytes: in any sequence of pairs of datagrams whose first has a whole header, token and payload (otherwise arbitrary), the second of each pair - anything at all - is lost; after any first datagram with whole header and token the next header is never told. pump_right_iff: for any sequence of well-formed messages, one chunk each, everything is told exactly if there is at most one datagram and its message has a payload."
  },
  {
   "property": "C59",
   "status": "partial",
   "theorems": [
    "Verif.Props.socket_passes_on_partial",
    "Verif.Props.socket_all_sent",
    "Verif.Props.socket_goes_on_iff",
    "Verif.Props.socket_to_observer_partial",
    "Verif.Props.socket_empty_datagram_ends",
    "Verif.Props.socket_refused_send_ends",
    "Verif.Props.socket_long_datagram_altered",
    "Verif.Props.socket_takes",
    "Verif.Props.socket_all_taken_partial",
    "Verif.Props.socket_first_taken",
    "Verif.Props.socket_to_observer_any",
    "Verif.Props.socket_long_to_observer"
   ],
   "note": "Proved for datagrams of 1 to 4096 bytes and a network that refuses nothing: everything is passed on whole, in order and once, in both directions. Refuted: an empty datagram or a refused send ends the process; a longer datagram is queued cut. Arbitrary bytes: what the pump's observer is told of a first datagram of at most 4096 bytes (socket_to_observer_any) and of one that is longer and so cut (socket_long_to_observer), exactly."
  },
  {
   "property": "C60",
   "status": "partial",
   "theorems": [
    "Verif.Props.version_answered",
    "Verif.Props.version_only_there",
    "Verif.Props.stream_version_partial",
    "Verif.Props.version_any_method",
    "Verif.Props.version_cut_or_bare",
    "Verif.Props.version_right_iff"
   ],
   "note": "Proved: exactly one reply for the version's node, byte for byte, well-formed; none for other nodes; 4.04 for no node; with both decoders. Refuted by theorem: method and type are not looked at; a reply that does not fit is cut; an empty text leaves a bare payload marker. version_right_iff: for every message to the node, exactly when the answer is right (method, type, text and room decide)."
  },
  {
   "property": "C61",
   "status": "partial",
   "theorems": [
    "Verif.Props.option_int_written_partial",
    "Verif.Props.option_int_negative_hangs",
    "Verif.Props.option_int_returns_iff"
   ],
   "note": "Proved for every number from 0 to 2^31-1. Refuted for every negative number, which the parameter type admits: the call never returns. option_int_returns_iff: returns exactly for numbers that are not negative."
  },
  {
   "property": "C62",
   "status": "partial",
   "theorems": [
    "Verif.Props.discovery_read_partial",
    "Verif.Props.listed_path_leads_back",
    "Verif.Props.core_observer_unreadable",
    "Verif.Props.discovery_quotes_confused",
    "Verif.Props.discovery_nothing",
    "Verif.Props.discovery_read_iff",
    "Verif.Props.core_observer_never_read",
    "Verif.Props.listed_resource_answered_partial"
   ],
   "note": "Proved for the example server's loop: the listing is read back exactly, for names without > and values without quotes or backslashes, with something to list; the paths read lead back to the nodes. Refuted by theorem: the library's core_observer (line ends between links), quotes in values, nothing to list. Exactly when: with something to list, the listing is read back if and only if no path contains > and no value a quote or a backslash (discovery_read_iff); what core_observer prints is never read as the resources, whatever names and values are (core_observer_never_read). From one end to the other (listed_resource_answered_partial): for every link of the listing a GET request for the path it spells is answered with 2.05 by a server of that node and with 4.04 by a server of another."
  },
  {
   "property": "C63",
   "status": "partial",
   "theorems": [
    "Verif.Props.ping_answered_partial",
    "Verif.Props.ping_walking_answered_partial",
    "Verif.Props.ping_answers_everything",
    "Verif.Props.ping_never_rests",
    "Verif.Props.ping_right_iff"
   ],
   "note": "Every well-formed message is answered by exactly the bytes of a 2.05 with its message id and token. Refuted: acknowledgements and resets are answered as well, and the answer to the responder's own answer is that answer again. ping_right_iff: right exactly for confirmable and non-confirmable messages."
  },
  {
   "property": "C64",
   "status": "partial",
   "theorems": [
    "Verif.Props.path_echoed_partial",
    "Verif.Props.path_echoed_right_iff",
    "Verif.Props.path_test_missed",
    "Verif.Props.path_short_never_valid",
    "Verif.Props.path_deep_wrong",
    "Verif.Props.path_empty_malformed",
    "Verif.Props.path_place_iff"
   ],
   "note": "Exact bytes of the answer for every request, with the path that the option iterator shows. Refuted: a request for test alone gets 4.04 and a malformed message; no request with fewer than three options gets 2.03; no path of two or more segments comes back; a request without path gets a malformed message. path_place_iff: a path of one segment comes back exactly if it is at the third, sixth, ... place among the options."
  },
  {
   "property": "C65",
   "status": "partial",
   "theorems": [
    "Verif.Props.observe_answered_partial",
    "Verif.Props.observe_end_registers",
    "Verif.Props.observe_second_overlooked",
    "Verif.Props.observe_answer_malformed",
    "Verif.Props.observe_place",
    "Verif.Props.observe_place_right_iff"
   ],
   "note": "Exact registrations and bytes for every request, with the options that the iterator shows. Refuted: a request to end an observation registers the sender; an Observe option in second place is overlooked; the answer to a registration for a path of one segment is malformed. observe_place: the exact registration by the place of the only Observe option; observe_place_right_iff: exactly when it is right."
  },
  {
   "property": "C66",
   "status": "partial",
   "theorems": [
    "Verif.Props.discovery_answered_partial",
    "Verif.Props.discovery_others_malformed",
    "Verif.Props.discovery_never_listed",
    "Verif.Props.discovery_path_first_refused",
    "Verif.Props.discovery_room",
    "Verif.Props.discovery_place_iff"
   ],
   "note": "Exact bytes of the answer for every request, with the path that the iterator shows. Refuted: a listing at a path of two or more segments is never served, requests that begin with their path get a malformed 4.04, and every answer but the listing is malformed. discovery_room: the listing is sent exactly when there is room for it and one more byte behind header, token and marker. discovery_place_iff: a listing at a path of one segment is served exactly if the path is at the third, sixth, ... place among the options."
  },
  {
   "property": "C67",
   "status": "partial",
   "theorems": [
    "Verif.Props.observe_handler_effect",
    "Verif.Props.observe_handler_registers_partial",
    "Verif.Props.observe_handler_registers_again",
    "Verif.Props.observe_handler_end_registers",
    "Verif.Props.observe_handler_empty_unseen",
    "Verif.Props.observe_handler_get_ignored",
    "Verif.Props.observe_handler_memory_decides",
    "Verif.Props.observe_handler_stays_awake",
    "Verif.Props.observe_handler_any",
    "Verif.Props.observe_handler_cut_value",
    "Verif.Props.observe_handler_cut_wrong",
    "Verif.Props.observe_handler_right_iff",
    "Verif.Props.observe_handler_idle_right_iff",
    "Verif.Props.observe_handler_empty_buffer"
   ],
   "note": "Exact effect of every request with a payload. Right for Observe 0 sent as a byte if memory held true; refuted for requests without payload, Observe 0 as an empty value, Observe 1, repeated requests, a handler used again, and memory holding false. For arbitrary bytes behind header and token in one buffer observe_handler_any gives the exact effect. Also refuted for a request in two buffers: when the first ends inside the Observe option, the first byte of the second decides (observe_handler_cut_value, observe_handler_cut_wrong). observe_handler_right_iff and observe_handler_idle_right_iff: for requests with a payload, exactly when the registrations are right, for either content of memory. An empty buffer inside the value of an Observe option makes the handler read a byte that is not there (observe_handler_empty_buffer)."
  },
  {
   "property": "C68",
   "status": "partial",
   "theorems": [
    "Verif.Props.echo_bytes_partial",
    "Verif.Props.echo_message_partial",
    "Verif.Props.echo_discloses",
    "Verif.Props.echo_from_memory",
    "Verif.Props.echo_overflows",
    "Verif.Props.echo_wrong_id",
    "Verif.Props.echo_never_rests",
    "Verif.Props.echo_reads_past_end",
    "Verif.Props.echo_reads_past_end_iff",
    "Verif.Props.echo_message_past_end"
   ],
   "note": "Exact answer to every datagram with a complete header and token of at most 8 bytes, in any division into buffers. Refuted with signed characters for cut-off tokens and headers (memory is sent) and ids ending in 0xFF; for token lengths above 8; and for replies. Where in_avail() is -1 at the end, the datagrams without token that are read past their end are characterised: those whose first option header, whole or cut off, is the last thing in them (echo_reads_past_end_iff, for one buffer); among well-formed messages, those with one empty option and no payload."
  },
  {
   "property": "C69",
   "status": "partial",
   "theorems": [
    "Verif.Props.echo_subject_partial",
    "Verif.Props.echo_subject_answers_acks",
    "Verif.Props.boilerplate_partial",
    "Verif.Props.boilerplate_segments_partial",
    "Verif.Props.boilerplate_payload_cut_partial",
    "Verif.Props.boilerplate_cut_refused",
    "Verif.Props.boilerplate_cut_path",
    "Verif.Props.echo_subject_any_partial",
    "Verif.Props.echo_subject_answers_iff",
    "Verif.Props.boilerplate_any_partial",
    "Verif.Props.boilerplate_any_segments_partial"
   ],
   "note": "Exactly one answer with exactly these bytes, under the exclusions of C27, in every division into buffers; the server with a path table answers for the path as it is seen in the buffers, which is the path of the message when the options are in the first buffer. Refuted for replies and, for every message whose path is one segment, for every cut inside it. For any datagram whatever: the echo server in any division into segments (echo_subject_any_partial; exactly which datagrams are answered: echo_subject_answers_iff), the server with a path table in one segment (boilerplate_any_partial). In any segments, when header and token are seen as they are: boilerplate_any_segments_partial."
  },
  {
   "property": "C70",
   "status": "partial",
   "theorems": [
    "Verif.Props.aggregate_together_partial",
    "Verif.Props.aggregate_run_together",
    "Verif.Props.aggregate_untold",
    "Verif.Props.aggregate_new_object",
    "Verif.Props.aggregate_loses_payload",
    "Verif.Props.aggregate_forgets",
    "Verif.Props.aggregate_memory",
    "Verif.Props.aggregate_exhausts",
    "Verif.Props.aggregate_any",
    "Verif.Props.aggregate_any_memory",
    "Verif.Props.toldOpts_zeros",
    "Verif.Props.aggregate_right_iff",
    "Verif.Props.aggregate_one_right_iff"
   ],
   "note": "True for observers that keep nothing between calls and need neither payload nor completion, for any number of them. False otherwise, for every message with a payload: a new object is made for every call, payload and completion are not passed on, and the memory of the objects is never given back. For arbitrary bytes in one buffer: the exact calls (aggregate_any) and the memory one datagram takes for good (aggregate_any_memory, met but for one call by zero bytes, toldOpts_zeros). Exactly when it is true, for every list of observers, every context and any calls: aggregate_right_iff."
  },
  {
   "property": "C71",
   "status": "partial",
   "theorems": [
    "Verif.Props.aggregator_exact_partial",
    "Verif.Props.aggregator_makes",
    "Verif.Props.aggregator_one_iff",
    "Verif.Props.aggregator_asks",
    "Verif.Props.aggregator_both"
   ],
   "note": "Proved for all factories exactly what is made; one object if and only if exactly one factory can make it. False when several can: all of them make one."
  },
  {
   "property": "C72",
   "status": "partial",
   "theorems": [
    "Verif.Props.loop_sends_bounded",
    "Verif.Props.loop_origin_partial",
    "Verif.Props.loop_unsettled",
    "Verif.Props.loop_never_given_up",
    "Verif.Props.loop_sent_again",
    "Verif.Props.loop_sent_after_acknowledgement",
    "Verif.Props.loop_sends_every_round",
    "Verif.Props.loop_overflows",
    "Verif.Props.ack_pump_retires",
    "Verif.Props.ack_pump_front",
    "Verif.Props.notifySent_onSent",
    "Verif.Props.loop_within_bound_iff"
   ],
   "note": "Holds: every datagram that leaves was handed over by the application; the total is bounded by the ten places (14 for one message). Refuted for all schedules: retransmissions are tracked as new messages, so a message is never given up without acknowledgement, leaves at each of up to nine rounds, overflows the ten places after at most fourteen, and one acknowledgement does not end it. ack_pump_*: service_ack with a datapump leaves the message in the queue and retires one copy per call. loop_within_bound_iff: the bound holds exactly as long as the retry manager is called at most four times."
  },
  {
   "property": "C73",
   "status": "partial",
   "theorems": [
    "Verif.Props.clock_before_wrap_partial",
    "Verif.Props.clock_bounded",
    "Verif.Props.clock_wrap_burst",
    "Verif.Props.clock_wrap_late",
    "Verif.Props.clock_first_iff"
   ],
   "note": "Holds: before the first wrap everything is as with an unbounded clock (so C28-C31 apply); never more than three retransmissions. Refuted for every message sent less than its initial timeout before the end of a lap (all three retransmissions are sent by the next three calls) and for every number of calls made while the clock shows less than the due value. clock_first_iff: the first retransmission is sent exactly by the first call made while the clock shows at least what it shows at the end of the timeout."
  },
  {
   "property": "C74",
   "status": "partial",
   "theorems": [
    "Verif.Props.timer_exact_partial",
    "Verif.Props.timer_cancelled",
    "Verif.Props.timer_not_early",
    "Verif.Props.timer_not_late",
    "Verif.Props.timer_boundary"
   ],
   "note": "exact in whole ticks but one millisecond late, also across a wrap of the counter; at the very end of a delay the timer does not say so (timer_boundary)"
  },
  {
   "property": "C75",
   "status": "partial",
   "theorems": [
    "Verif.Props.dtls_round_ends",
    "Verif.Props.dtls_round_begins",
    "Verif.Props.dtls_echo",
    "Verif.Props.dtls_echo_whole_partial",
    "Verif.Props.dtls_short_write_lost",
    "Verif.Props.tls_steps",
    "Verif.Props.dtls_setup",
    "Verif.Props.dtls_daemon",
    "Verif.Props.dtls_round_persists",
    "Verif.Props.dtls_daemon_restarts",
    "Verif.Props.dtls_echo_whole_iff"
   ],
   "note": "all parts proved for every library except that the answer arrives whole, which is proved for libraries that take whole writes and refuted otherwise The daemon shuts down directly after a call that failed for good, and never otherwise (dtls_daemon_restarts). dtls_echo_whole_iff: exactly when the answer arrives whole."
  },
  {
   "property": "C76",
   "status": "partial",
   "theorems": [
    "Verif.Props.dtls_handshake_returns_failed",
    "Verif.Props.dtls_handshake_never",
    "Verif.Props.dtls_handshake_dropped",
    "Verif.Props.dtls_read_false_partial",
    "Verif.Props.dtls_read_ambiguous",
    "Verif.Props.dtls_write_nothing",
    "Verif.Props.dtls_close_partial",
    "Verif.Props.dtls_read_right_iff"
   ],
   "note": "read and close hold; handshake() refuted for every library, read cannot tell failures from data, write sends nothing dtls_read_right_iff: exactly when read tells what happened."
  },
  {
   "property": "C77",
   "status": "partial",
   "theorems": [
    "Verif.Props.lwip_in_order_partial",
    "Verif.Props.lwip_sent_partial",
    "Verif.Props.lwip_drains",
    "Verif.Props.lwip_send_error_loses",
    "Verif.Props.lwip_long_cut",
    "Verif.Props.arduino_sends_empty_packets",
    "Verif.Props.lwip_takes",
    "Verif.Props.lwip_all_taken",
    "Verif.Props.lwip_nothing_lost_iff"
   ],
   "note": "lwIP: order, once, release and hand-over proved for messages below 65536 bytes; no loss refuted on failed sends, exact bytes refuted from 65536 bytes on; Arduino refuted for every run lwip_nothing_lost_iff: each send that fails while something waits loses one message, and nothing else does."
  },
  {
   "property": "C78",
   "status": "partial",
   "theorems": [
    "Verif.Props.stored_roundtrip_partial",
    "Verif.Props.stored_last",
    "Verif.Props.stored_overflow",
    "Verif.Props.stored_byte",
    "Verif.Props.stored_zero_stale",
    "Verif.Props.stored_byte_highest",
    "Verif.Props.stored_uint24",
    "Verif.Props.stored_new",
    "Verif.Props.stored_byte_iff"
   ],
   "note": "Kept and given back by get<T>, get_uint16_t and get_uint24_t for every number that fits; get_uint8_t only for 1 to 255 (zero gives back the old number, refuted); a number too large is written outside the storage (exact condition proved). stored_byte_iff: exactly which numbers the reader for one byte gives back."
  },
  {
   "property": "C79",
   "status": "partial",
   "theorems": [
    "Verif.Props.pull_any_ends_partial",
    "Verif.Props.pull_values_are_pieces_partial",
    "Verif.Props.pull_long_token_overflow",
    "Verif.Props.cut_option_made_up",
    "Verif.Props.iterator_cut_made_up",
    "Verif.Props.seven_bytes_many_options",
    "Verif.Props.pull_short_made_up",
    "Verif.Props.pull_any_safe_iff"
   ],
   "note": "Proved for every datagram without more than eight bytes of an announced longer token: every walk ends and touches nothing outside, after a number of rounds linear in the length plus a constant. For every datagram: each value shown is a piece of it, the payload shown its end. Refuted: longer tokens overflow; a value cut off makes up options, up to 32769 from seven bytes; fewer than four bytes show one made-up option. pull_any_safe_iff: exactly which datagrams are read safely."
  },
  {
   "property": "C80",
   "status": "partial",
   "theorems": [
    "Verif.Props.ping_any_echo_partial",
    "Verif.Props.uri_any_echo_partial",
    "Verif.Props.observe_any_echo_partial",
    "Verif.Props.discover_any_echo_partial",
    "Verif.Props.uri_any_text_partial",
    "Verif.Props.observe_any_text_partial",
    "Verif.Props.discover_any_text_partial",
    "Verif.Props.ping_cut_token_leak",
    "Verif.Props.examples_cut_token_leak",
    "Verif.Props.ping_long_token_faults",
    "Verif.Props.ping_short_header_leak",
    "Verif.Props.examples_long_token_faults",
    "Verif.Props.examples_short_header_leak",
    "Verif.Props.ping_keeps_iff",
    "Verif.Props.examples_keep_iff"
   ],
   "note": "Proved for every datagram with a whole header and a whole token of at most eight bytes, whatever follows: the servers end, their answers start with its header and token, and what follows is nothing (ping), pieces of the datagram (path, observe) or the server's own listing. Refuted for all four servers: cut tokens and cut headers are answered with uninitialised memory; token lengths of nine to fifteen read or write out of bounds. Exactly, for all four: no out-of-bounds access and header and token independent of memory if and only if the datagram has a whole header and its whole token of at most eight bytes."
  },
  {
   "property": "C81",
   "status": "partial",
   "theorems": [
    "Verif.Props.rounds_apart",
    "Verif.Props.rounds_not_missed",
    "Verif.Props.observed_sent_partial",
    "Verif.Props.emit_exact",
    "Verif.Props.observed_text_negative",
    "Verif.Props.emit_last_digit_lost",
    "Verif.Props.emit_behind_buffer",
    "Verif.Props.clock_set_back_silent"
   ],
   "note": "Proved: notifications are more than a second apart and none is missed relative to the clock; with buffers of at least 39 bytes every client gets exactly the message described (fewer than 2^31 messages, registrations that fit). Refuted: from the 2^31st message on the number is sent as a negative one; buffers that just fit lose the last digit or are overrun, smaller ones send what lies behind; a clock set back silences the example."
  },
  {
   "property": "C82",
   "status": "partial",
   "theorems": [
    "Verif.Props.cbor_walk_ends",
    "Verif.Props.cbor_walk_shows_partial",
    "Verif.Props.cbor_walk_phantom",
    "Verif.Props.cbor_walk_reads_behind",
    "Verif.Props.cbor_walk_leak",
    "Verif.Props.cbor_walk_length_wraps",
    "Verif.Props.cbor_walk_overflow",
    "Verif.Props.cbor_walk_shows_iff"
   ],
   "note": "The end is proved for all bytes. The lines are proved for every document of items with heads of at most five bytes, 16-bit numbers and lengths, without the integers -1 to -24 (C40), whose last item is a number, a truth value or null. Refuted for all other documents (one made-up item), for unreadable memory behind the payload (every document), for cut strings, for lengths of 65536 and more and for heads of more than four argument bytes. cbor_walk_shows_iff: of the documents considered exactly those that end with a number, a truth value or null are shown right, where memory behind the payload can be read."
  },
  {
   "property": "C83",
   "status": "proved",
   "theorems": [
    "Verif.Props.tables_walk_iff",
    "Verif.Props.tables_agree",
    "Verif.Props.tables_child_count",
    "Verif.Props.tables_relation_count",
    "Verif.Props.tables_second_ignored"
   ],
   "note": "Paths, tables and counts are arbitrary. The last three theorems show that the conditions on counts and on one table per parent are needed."
  },
  {
   "property": "C84",
   "status": "partial",
   "theorems": [
    "Verif.Props.numbers_read_partial",
    "Verif.Props.numbers_read8_partial",
    "Verif.Props.iterator_numbers",
    "Verif.Props.iterator_first_zero",
    "Verif.Props.numbers_read8_iff",
    "Verif.Props.iterator_numbers_iff"
   ],
   "note": "Proved for the functions of the decoder; through the option iterator the property fails, and what it gives instead is proved for every message. Same exception as C50 for a header-only message. numbers_read8_iff: the 8-bit reader agrees with the others exactly on values whose first and last byte are the same. iterator_numbers_iff: the iterator gives the numbers sent exactly for no option, or a single one that is zero and empty or followed by a payload."
  },
  {
   "property": "C85",
   "status": "partial",
   "theorems": [
    "Verif.Props.reliable_is_plain_partial",
    "Verif.Props.reliable_sent_once",
    "Verif.Props.reliable_long_token",
    "Verif.Props.reliable_runs_iff"
   ],
   "note": "Refuted: with the reliable feature every run without a long token is the run of the plain helper, so a confirmable message is sent exactly once however long it stays unacknowledged; a datagram with a token of more than 8 bytes writes behind the token buffer. The library's queues are taken as first in, first out. reliable_runs_iff: exactly which runs go on and which write behind the token buffer."
  },
  {
   "property": "C86",
   "status": "partial",
   "theorems": [
    "Verif.Props.buffers_accounted_partial",
    "Verif.Props.observer_leaks",
    "Verif.Props.observer_leaks_n",
    "Verif.Props.buffers_accounted_iff"
   ],
   "note": "Proved for all runs without process_messageobserver; with it one buffer is lost for every message it takes (counted exactly for all runs), although none is used or freed when not allocated. Buffer contents and failing system calls are not followed; the reliable feature is off and the queues hold pointers. Exactly: allocated are the buffers in the queues if and only if process_messageobserver has taken no message."
  },
  {
   "property": "C87",
   "status": "partial",
   "theorems": [
    "Verif.Props.any_datagram_served_partial",
    "Verif.Props.any_datagram_version_partial",
    "Verif.Props.path_of_message",
    "Verif.Props.cut_path_answered",
    "Verif.Props.cut_datagram_hangs",
    "Verif.Props.long_token_datagram_overflows",
    "Verif.Props.datagram_survived_iff",
    "Verif.Props.stream_server_same_partial",
    "Verif.Props.stream_cut_answered",
    "Verif.Props.stream_long_token_datagram",
    "Verif.Props.stream_survived_iff",
    "Verif.Props.stream_empty_option_overreads",
    "Verif.Props.server_sees_partial",
    "Verif.Props.stream_datagram_served_partial",
    "Verif.Props.server_open_end_overreads",
    "Verif.Props.stream_server_survives_iff",
    "Verif.Props.stream_answer_wrong_id"
   ],
   "note": "Proved: a datagram that contains its header and a token of at most eight bytes is answered in at most 11 times its length plus 65561 steps by exactly the message its path decides; the path is read by an independent reader and is the path of the message for every well-formed one. Refuted, for all other datagrams: they hang the server, overrun its token buffer or (stream decoder, unsigned characters) are answered as if bytes 0xFF followed; and a datagram cut inside a path name is served as another path. With the stream decoder, whatever the character type and in_avail() at the end are: the server answers what it sees of the datagram as a buffer would be answered (server_sees_partial, stream_datagram_served_partial), stream_server_survives_iff says exactly which datagrams it survives, and the answer to a message id that ends with 0xFF carries another message id where the character type is signed."
  },
  {
   "property": "C88",
   "status": "partial",
   "theorems": [
    "Verif.Props.told_are_answers_partial",
    "Verif.Props.answer_reaches_partial",
    "Verif.Props.net_fails_only_full",
    "Verif.Props.answered_not_repeated",
    "Verif.Props.unanswered_repeated",
    "Verif.Props.copies_answered_again",
    "Verif.Props.copies_told_again",
    "Verif.Props.many_clients",
    "Verif.Props.many_told_own",
    "Verif.Props.many_answer_reaches",
    "Verif.Props.many_fails_only_full",
    "Verif.Props.many_answered_not_repeated"
   ],
   "note": "Proved for all histories of clients and one server with the version resource, for well-formed requests whose answers fit into the server's buffer, at most ten unanswered confirmable ones at a time (the only way to fail, net_fails_only_full). What memory of the decoders held is arbitrary; of an answer that is a header only, the exact calls depend on it (C13), but the answer can be read back from them in any case (C92). Refuted, for any number of repetitions: nobody notices them. For any number of clients: each is exactly in the situation of a client that has the server for itself (many_clients), so that nobody is told the answer to another client and equal message ids and tokens of different clients do no harm."
  },
  {
   "property": "C89",
   "status": "partial",
   "theorems": [
    "Verif.Props.observe_program_partial",
    "Verif.Props.observe_client_partial",
    "Verif.Props.observe_ids_partial",
    "Verif.Props.observe_again_adds",
    "Verif.Props.observe_program_overflows",
    "Verif.Props.observe_program_right_iff"
   ],
   "note": "Proved for all histories of requests with one Observe option in front or none, within the ten places and fewer than 2^31 messages: who gets what in every round, and that a client which asked once is told exactly one complete notification per round, counted from its request on; and that the message ids of all notifications are counted through. Refuted: a request to end and a request sent again add a registration, so that two notifications with different numbers arrive in every round; one request more than there are places overflows. Other positions of the Observe option: C65. observe_program_right_iff: how many notifications a client gets in each round, and exactly when that is one per token it observes with."
  },
  {
   "property": "C90",
   "status": "partial",
   "theorems": [
    "Verif.Props.memory_unseen_partial",
    "Verif.Props.memory_shows_iff",
    "Verif.Props.leftover_payload",
    "Verif.Props.memory_unseen_token",
    "Verif.Props.memory_unseen_reuse_partial",
    "Verif.Props.memory_unseen_next_partial",
    "Verif.Props.reused_decoder_makes_up_payload"
   ],
   "note": "Proved for all pairs of memory contents, all bytes, buffers and calls, with the exact exception: leftovers are seen iff they differ in whether the option decoder's state word reads Payload (memory_shows_iff). The full property is refuted by leftover_payload and reused_decoder_makes_up_payload."
  },
  {
   "property": "C91",
   "status": "partial",
   "theorems": [
    "Verif.Props.text_option_result_partial",
    "Verif.Props.value_option_result_partial",
    "Verif.Props.buffer_option_result_partial",
    "Verif.Props.empty_text_unreported",
    "Verif.Props.option_value_cut_unreported",
    "Verif.Props.exact_room_reported_unfinished"
   ],
   "note": "Text option of the stream encoder and value option of the buffer encoder: in both directions and for every room, except the empty text and the option without value that exactly fills the buffer (both refuted). Value option of the stream encoder: failure is exact, success says only that the header is there (refuted by option_value_cut_unreported). In all three what is written is the beginning of what a larger destination receives."
  },
  {
   "property": "C92",
   "status": "proved",
   "theorems": [
    "Verif.Props.message_read_back",
    "Verif.Props.messages_read_back",
    "Verif.Props.message_among_others",
    "Verif.Props.reports_tell_apart"
   ],
   "note": "For every well-formed message in every legal encoding, new or reused decoder, single buffers; sequences of messages, and messages among buffers that are none as long as the decoder comes through those. A reported payload without bytes is read as no payload."
  },
  {
   "property": "C93",
   "status": "partial",
   "theorems": [
    "Verif.Props.ticks_exact",
    "Verif.Props.ticks_each_second_partial",
    "Verif.Props.ticks_too_slow",
    "Verif.Props.ticks_zero_period"
   ],
   "note": "Proved for ticks of one millisecond. For every length of a tick the pace is given exactly: 1001 times the square of the tick in milliseconds; so refuted for every longer tick (at the usual 10 ms, 100 seconds pass instead of one) and for systems with more than 1000 ticks a second (division by zero). Rounds must be shorter than half a lap of the counter."
  },
  {
   "property": "C94",
   "status": "partial",
   "theorems": [
    "Verif.Props.alone_bytes_iff",
    "Verif.Props.alone_steps_iff",
    "Verif.Props.alone_options_partial",
    "Verif.Props.alone_options_steps_partial",
    "Verif.Props.alone_empty_endless",
    "Verif.Props.alone_long_endless",
    "Verif.Props.alone_long_repeats"
   ],
   "note": "False for an empty value asked for with generate (the loop never ends), for values of more than 256 bytes (both loops never end, the first 256 bytes are repeated) and for the headers that C20 excludes. Proved as equivalences: which options come out right and end the loop; any number of such options in a row with one encoder."
  },
  {
   "property": "C95",
   "status": "partial",
   "theorems": [
    "Verif.Props.inline_context_shows",
    "Verif.Props.inline_context_total",
    "Verif.Props.context_has_header_iff",
    "Verif.Props.reference_context_shows_partial",
    "Verif.Props.reference_context_at_token",
    "Verif.Props.reference_context_zeroed",
    "Verif.Props.reference_context_right_only",
    "Verif.Props.inline_context_stale",
    "Verif.Props.reference_context_kept",
    "Verif.Props.context_before_token",
    "Verif.Props.context_has_token_iff"
   ],
   "note": "Proved for every run: the copying context shows header and token of the message in progress from the token event until the next header. False for a context that refers to the token where token and option decoder share storage (first three bytes zero at every option and payload), for a reference kept beyond its message, and for a context used again between header and token of the next message (new header, old token). Until a token has been reported neither context claims one; present iff a token event was ever seen, so an empty token counts."
  },
  {
   "property": "C96",
   "status": "partial",
   "theorems": [
    "Verif.Props.named_code_registered",
    "Verif.Props.named_code_injective",
    "Verif.Props.registered_code_named_partial",
    "Verif.Props.bad_gateway_unnamed",
    "Verif.Props.named_code_read_back",
    "Verif.Props.request_method_named",
    "Verif.Props.header_named",
    "Verif.Props.empty_counts_as_request",
    "Verif.Props.type_text",
    "Verif.Props.type_text_is",
    "Verif.Props.code_named_iff",
    "Verif.Props.counts_as_request_iff",
    "Verif.Props.class_named"
   ],
   "note": "Proved for all names and all headers. False: 5.02 Bad Gateway is registered and has no name; an empty message counts as a request. code_named_iff, counts_as_request_iff: these are the only exceptions. class_named: the named classes."
  },
  {
   "property": "C97",
   "status": "partial",
   "theorems": [
    "Verif.Props.stream_ops_cut",
    "Verif.Props.stream_pieces",
    "Verif.Props.stream_ops_message",
    "Verif.Props.stream_ops_round_trip_partial",
    "Verif.Props.stream_ops_round_trip_fails",
    "Verif.Props.stream_ops_round_trip_iff_partial"
   ],
   "note": "Pieces, order and room: proved for all. Decoding: proved for the option lengths and distances that the option encoder writes properly; refuted for others (a value of 13 bytes), as in C22. Which messages come back is an equivalence (stream_ops_round_trip_iff_partial)."
  },
  {
   "property": "C98",
   "status": "partial",
   "theorems": [
    "Verif.Props.heads_document_partial",
    "Verif.Props.heads_read_back_partial",
    "Verif.Props.heads_overflow_iff",
    "Verif.Props.heads_negative_wrong",
    "Verif.Props.heads_24_invalid",
    "Verif.Props.heads_array_no_items",
    "Verif.Props.heads_smallest_undefined",
    "Verif.Props.heads_integer_iff"
   ],
   "note": "Proved for integers from 0 and lengths below 2^32 other than 24, any sequence and contents. Refuted for every negative integer (the item of the number below), for 24 (no head) and for 64-bit integers from 2^32 on (written outside the five bytes). For integers of 32 bits an equivalence (heads_integer_iff)."
  },
  {
   "property": "C99",
   "status": "partial",
   "theorems": [
    "Verif.Props.blocks_assembled",
    "Verif.Props.block_sent_partial",
    "Verif.Props.block_transfer_partial",
    "Verif.Props.block_first_undefined",
    "Verif.Props.block_received_iff"
   ],
   "note": "Proved for all blocks but the first, in any order with any repetitions; the first block has to come from elsewhere, because making its option is undefined for every body (block_first_undefined). Receiving, from any sender: right exactly if the option value is not empty (block_received_iff). Sender and receiver are programs written for the statement from the library's functions; the repository has no block-wise transfer of its own."
  }
 ]
}
