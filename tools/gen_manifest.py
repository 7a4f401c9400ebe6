#!/usr/bin/env python3
"""Writes MANIFEST.json from the table below."""
import json, os
C = []
def c(prop, status, theorems, note=""):
    C.append({"property": prop, "status": status, "theorems": theorems.split(), "note": note})

V = "Verif."
c("C01", "proved", "Verif.C01_string_format Verif.C01_parseId_string Verif.C01_json_roundtrip")
c("C02", "proved", "Verif.C02_parseId_accepts_iff Verif.C02_parseId_value Verif.C02_unmarshal_iff")
c("C03", "proved", "Verif.C03_long_roundtrip Verif.C03_long_size")
c("C04", "proved", "Verif.C04_span_roundtrip", "strings shorter than 2^31 bytes, as the decoder requires")
c("C05", "proved", "Verif.C05_truncation_rejected")
c("C06", "proved", "Verif.C06_unambiguous")
c("C07", "proved", "Verif.C07_decode_total Verif.C07_no_panic")
c("C08", "partial", "Verif.C08_allocation_not_bounded_by_input Verif.C08_allocation_partial Verif.C08_factor",
  "False for reads that fail: 5 bytes make the decoder request 2^31-1 bytes (negation proved). Proved: never more than 2^31-1 bytes; no more than the size of the input for a string that is read; at most (2^31-1)/5 bytes for each byte of the input, which is attained.")

c("C09", "proved", "Verif.C09_key Verif.C09_key_injective")
c("C10", "proved", "Verif.C10_no_alias Verif.C10_no_panic")
c("C11", "proved", "Verif.C11_delivery Verif.C11_trace_together")
c("C12", "proved", "Verif.C12_marked_after_delivery Verif.C12_undecodable_not_marked")
c("C63", "proved", "Verif.C63_at_least_once Verif.C63_provenance Verif.C63_session_complete", "sessions start at the committed offset; for a partition without one see C152")

c("C13", "proved", "Verif.C13_bookkeeping")
c("C14", "proved", "Verif.C14_bounded Verif.C14_insertion")
c("C15", "proved", "Verif.C15_least_recently_used Verif.C15_more_recent_present")
c("C16", "partial", "Verif.C16_set_returns_partial Verif.C16_set_hangs Verif.C16_exact",
  "false for a limit that is not positive (negation proved); proved for positive limits")
c("C17", "proved", "Verif.C17_interned_equals_argument Verif.C17_calls_proceed")
c("C18", "proved", "Verif.C18_strings_never_change Verif.C18_cached_keys_stable")

c("C19", "proved", "Verif.C19_in_place Verif.C19_writes_behind_reads")
c("C20", "partial", "Verif.C20_string_partial Verif.C20_exactly_plain Verif.C20_fails",
  "false for escapes of control characters and surrogate pairs (negation proved); proved for exactly all other literals")
c("C21", "proved", "Verif.C21_v1 Verif.C21_v2 Verif.C21_any Verif.C21_stale", "C21_stale: the old content of the buffer does not matter for any body, also if tokens do not fit")
c("C22", "partial", "Verif.C22_returns_partial Verif.C22_diverges Verif.C22_fails Verif.C22_exact_v2 Verif.C22_exact_v1 Verif.C22_edge_v2 Verif.C22_edge_v1 Verif.C22_every_body Verif.C22_exact_witness",
  "false for bodies with a string that fills the buffer (negation proved); proved for bodies without tokens of this size. The other bodies are described exactly: the outcome is decided in front of the first large token, or parsing never returns (C22_exact), and at the very end of the body it depends on the reader (C22_edge)")
c("C23", "proved", "Verif.C23_calls Verif.C23_requests")

c("C24", "partial", "Verif.C24_skip_partial Verif.C24_fails Verif.C24_exact", "C24_exact says for every input what is skipped. Proved for all documents whose numbers are written without a capital E and without a plus sign. The rest is false: C24_fails skips 1E5 only up to the E.")
c("C25", "partial", "Verif.C25_value Verif.C25_exact Verif.C25_rejects_partial Verif.C25_capital Verif.C25_capital_exponent", "False as stated for 12E3, which is read as 12 and leaves E3 in the input (C25_capital_exponent); proved for all other numbers.")
c("C26", "partial", "Verif.C26_v2_partial Verif.C26_growth Verif.C26_fails", "False for strings with escaped control characters or surrogate pairs, and for numbers with E or plus in unknown fields (C26_fails); proved for all other documents.")
c("C27", "partial", "Verif.C27_v1_partial Verif.C27_fails", "False for the same documents as in C26 (C27_fails), and on pooled memory left by a body with a repeated member (C28_leaks); proved for all other documents on clean memory.")
c("C28", "partial", "Verif.C28_growth_partial Verif.C28_clean_partial Verif.C28_history_partial Verif.C28_keeps_partial Verif.C28_requests_partial Verif.C28_refused_witness Verif.C28_bounded Verif.C28_whole_partial Verif.C28_needed Verif.C28_whole_witness Verif.C28_leaks", "False: a body with a repeated member binaryAnnotations leaks into later requests (C28_leaks). Proved for histories of any requests, accepted or refused, whose bodies have no object in which binaryAnnotations comes twice, and then for any next request. After any history, only tags and services of later requests can be affected (C28_bounded), and documents whose binary annotations all have a key, a value and an endpoint with the name of a service are answered exactly (C28_whole_partial); each of the four is needed (C28_needed).")
c("C29", "proved", "Verif.C29_duration_and_protocol")
c("C30", "proved", "Verif.C30_timings Verif.C30_one_kind")
c("C31", "proved", "Verif.C31_v1_times")
c("C32", "proved", "Verif.C32_jaeger")
c("C64", "proved", "Verif.C64_v1_fields Verif.C64_v2_fields")
c("C65", "proved", "Verif.C65_jaeger_tags")
c("C66", "proved", "Verif.C66_exact Verif.C66_times_exact")

c("C34", "proved", "Verif.C34_trace_is_a_map Verif.C34_found_iff_received")
c("C35", "proved", "Verif.C35_merge Verif.C35_server_preferred Verif.C35_mixed_loses_client_timings",
  "the last theorem records what happens outside of the case of two halves")
c("C36", "partial", "Verif.C36_halves_commute_partial Verif.C36_incomplete_halves_depend_on_order Verif.C36_exact Verif.C36_interleaved_partial Verif.C36_exact_witness",
  "false in general (negation proved); proved for complete halves with compatible parents, for spans descending from the root. C36_exact says exactly which first two halves commute; behind the first one, halves commute whenever the same parent is the first known one (C36_interleaved_partial)")
c("C37", "proved", "Verif.C37_roots")
c("C38", "partial", "Verif.C38_fake_root_partial Verif.C38_not_always_repaired",
  "false if a span of the trace has the trace id as its id (negation proved); the partial theorem says exactly what happens in both cases")
c("C39", "proved", "Verif.C39_fake_root_spans_children Verif.C39_fake_root_duration")
c("C40", "proved", "Verif.C40_correction_terminates")
c("C41", "proved", "Verif.C41_correction")
c("C42", "proved", "Verif.C42_only_times_change")
c("C43", "proved", "Verif.C43_skew_centres")

c("C44", "proved", "Verif.C44_emitted_at_tick Verif.C44_other_fates")
c("C45", "proved", "Verif.C45_emitted_traces")
c("C46", "proved", "Verif.C46_conservation Verif.C46_provenance")
c("C47", "partial", "Verif.C47_invalid_ignored Verif.C47_zero_ids_partial Verif.C47_fake_root_with_zero_id",
  "false in one case (negation proved): the fake root for several spans without parent has the id 0; the partial theorem says that this is the only case")
c("C48", "partial", "Verif.C48_counted Verif.C48_pending_bounded_partial Verif.C48_bound_exceeded",
  "false for traces of 65536 and more spans, whose counter wraps (negation proved); proved otherwise")
c("C49", "partial", "Verif.C49_load_shedding Verif.C49_sizes_partial Verif.C49_larger_stays",
  "false for traces of 65536 and more spans, whose counter wraps (negation proved); proved for sizes as the code counts them, and for numbers of spans if no pending trace has 65536")
c("C50", "partial", "Verif.C50_too_large_partial Verif.C50_too_large_emitted",
  "false for traces of 65536 and more spans, whose counter wraps (negation proved); proved otherwise, blacklisting unless the blacklist overflows in the same tick")
c("C51", "proved", "Verif.C51_blacklist")
c("C52", "proved", "Verif.C52_pending_time")
c("C53", "proved", "Verif.C53_buffer_time")
c("C54", "partial", "Verif.C54_meters_partial Verif.C54_traces_meter_wrong",
  "false for traces.discarded, which counts spans (negation proved)")
c("C62", "proved", "Verif.C62_meters")

c("C33", "proved", "Verif.C33_outcome Verif.C33_all_or_nothing Verif.C33_progress Verif.C33_document",
  "gzip and encoding/json (jaeger) are arbitrary functions; a request whose parser panics is not answered and enqueues nothing")
c("C55", "proved", "Verif.C55_delivers Verif.C55_complete Verif.C55_progress Verif.C55_terminates Verif.C55_sound")
c("C56", "proved", "Verif.C56_last Verif.C56_exact")
c("C57", "partial", "Verif.C57_order_partial Verif.C57_fails Verif.C57_witness",
  "false once the ring wrapped around (negation proved for all such histories); in order otherwise")
c("C58", "proved", "Verif.C58_reported Verif.C58_resource Verif.C58_lossless")
c("C59", "proved", "Verif.C59_partition Verif.C59_discard Verif.C59_sent")
c("C60", "proved", "Verif.C60_bounded Verif.C60_tick Verif.C60_full")

c("C61", "proved", "Verif.C61_transport Verif.C61_buffer Verif.C61_prefix Verif.C61_complete Verif.C61_adequate Verif.C61_sends",
  "the configuration without Kafka; the conversion of spans is an arbitrary stateful function")
c("C67", "proved", "Verif.C67_progress Verif.C67_terminates", "the configuration without Kafka")
c("C68", "proved", "Verif.C68_transport Verif.C68_buffer", "sarama and Kafka are modelled as described in Model/Cluster.lean")
c("C69", "proved", "Verif.C69_local Verif.C69_together Verif.C69_order Verif.C69_complete Verif.C69_eventually Verif.C69_witness", "for a fixed assignment; sarama and Kafka as described in Model/Cluster.lean")
c("C70", "partial", "Verif.C70_stuck Verif.C70_unanswered Verif.C70_fails Verif.C70_progress_partial Verif.C70_terminates_partial Verif.C70_partial",
  "false: nobody reads the errors of the producer, so that its dispatcher blocks on a message that is too large (C70_fails); proved for spans small enough")
c("C71", "proved", "Verif.C71_closed Verif.C71_restarts Verif.C71_last_session Verif.C71_returns Verif.C71_witness", "ConsumerGroup.Consume returns after its ConsumeClaim calls, as documented by sarama")

c("C72", "proved", "Verif.C72_returns Verif.C72_shown Verif.C72_once Verif.C72_witness")
c("C73", "partial", "Verif.C73_fails Verif.C73_partial", "false: the number is one too large (C73_fails); C73_partial proves that this is the whole deviation")
c("C74", "partial", "Verif.C74_text Verif.C74_parse Verif.C74_roundtrip_partial Verif.C74_fails Verif.C74_null Verif.C74_witness",
  "false for time zones whose offset is not a number of minutes, such as local mean times (C74_fails); proved otherwise. The package time of Go 1.15 is modelled.")

c("C75", "partial", "Verif.CacheCounters.C75_conserved Verif.CacheCounters.C75_rate Verif.CacheCounters.C75_partial Verif.CacheCounters.C75_fails Verif.CacheCounters.C75_witness",
  "false in one point: a reading without lookups since the last one is 0/0, which is not a number (C75_fails); the rest is proved")

c("C76", "partial", "Verif.C76_jaeger_partial Verif.C76_fails Verif.C76_repeated Verif.C76_witness",
  "false for ids with digits written as escapes, for unknown fields whose name is that of a field up to the case of letters, and beyond 10000 levels (C76_fails); fields that occur twice are merged (C76_repeated). encoding/json of Go 1.15 is modelled; which numbers overflow a float64 is an arbitrary function.")
c("C77", "proved", "Verif.C77_wrong_type Verif.C77_witness", "encoding/json of Go 1.15 is modelled; which numbers overflow a float64 is an arbitrary function")
c("C78", "proved", "Verif.C78_v2 Verif.C78_v1 Verif.C78_jaeger Verif.C78_document_v2 Verif.C78_document_v1 Verif.C78_document_jaeger Verif.C78_witness",
  "encoding/json of Go 1.15 is modelled")
c("C79", "partial", "Verif.C79_jaeger Verif.C79_v2_partial Verif.C79_v1_partial Verif.C79_fails Verif.C79_witness",
  "true for jaeger requests (C79_jaeger); false for versions 1 and 2, where commas and colons are white space (C79_fails). There, what is accepted begins with an array of objects in a wider grammar in which brackets match, strings are closed and names are strings")

c("C80", "partial", "Verif.C80_emitted Verif.C80_partial Verif.C80_fails",
  "true for the traces that the collector emits (C80_emitted); false for what the sinks receive: the fake root for several spans without parent has the id 0 and is dropped by the forwarder (C80_fails). C80_partial shows that this is the only exception")
c("C81", "partial", "Verif.C81_partial Verif.C81_fails",
  "false for traces with cycles of parent links beside the root (C81_fails); the spans that do not run into a cycle are exactly the descendants of the root, and a trace is a tree iff it has no cycles (C81_partial)")
c("C82", "partial", "Verif.C82_partial Verif.C82_fails",
  "false for spans whose parent links run into a cycle, which are not corrected (C82_fails); true for all others (C82_partial)")

c("C83", "partial", "Verif.C83_partial Verif.C83_fails Verif.C83_exact",
  "C83_exact says exactly when a span changes a pending trace. In particular: true if no two different server halves, and no two client halves with different times, share the id; false otherwise, as the last of them wins (C83_fails)")
c("C84", "proved", "Verif.C84_order Verif.C84_perm", "up to the difference between a nil and an empty tag map")

c("C85", "proved", "Verif.C85_values Verif.C85_sent Verif.C85_pending Verif.C85_single Verif.tagRun_exists",
  "in a model where tag maps are references; C85_values relates it to the model with values that all other properties use. Converters and sinks that write to tags are not part of it")

c("C86", "proved", "Verif.C86_together Verif.C86_whole Verif.C86_delivered Verif.C86_slow_fails", "C86_slow_fails: without the bound on the time between two spans, a trace is delivered in parts")
c("C87", "partial", "Verif.C87_view Verif.C87_partial Verif.C87_html Verif.C87_fails", "missing: strings that are not UTF-8 (shown with replacement characters, so that different names look the same) and an empty buffer (null instead of an array); C87_fails has the witnesses")

c("C88", "proved", "Verif.C88_v2 Verif.C88_v1 Verif.C88_jaeger Verif.C88_witness", "the limit on the size of tokens is C22; C88_witness has one document in three layouts")
c("C89", "proved", "Verif.C89_isolated Verif.C89_load", "C89_load: with 40000 spans of other traces a trace is sent earlier")
c("C90", "proved", "Verif.C90_v2 Verif.C90_unique Verif.C90_v1 Verif.C90_v1_accepts Verif.C90_unique_v1 Verif.C90_witness", "")
c("C91", "partial", "Verif.C91_alone_partial Verif.C91_any Verif.C91_whole_partial Verif.C91_fails Verif.C91_witness",
  "false after a v1 request in which binaryAnnotations is repeated (C91_fails, from C28_leaks); proved for all schedules without such requests. With them, jaeger and v2 requests are still answered as if alone, and v1 requests differ at most in tags and services (C91_any)")
c("C92", "proved", "Verif.C92_fate Verif.C92_account Verif.C92_whole Verif.C92_delivered Verif.C92_adequate Verif.C92_witness")
c("C93", "proved", "Verif.C93_refines Verif.C93_answer Verif.C93_meter Verif.C93_meter_bound Verif.C93_timers Verif.C93_witness",
  "The handlers in finer steps than those of C33, which they refine: so everything that holds for those holds for these. Texts of errors of parsers and gzip are arbitrary.")

c("C94", "partial", "Verif.C94_v2_partial Verif.C94_v1_partial Verif.C94_bound_partial Verif.C94_measure Verif.C94_fails Verif.C94_unbounded Verif.C94_witness",
  "false: skip is recursive without a limit; for every n an accepted JSON document of 2 n + 10 bytes needs n + 3 calls (C94_fails). Proved instead: for accepted bodies the depth of calls is exactly the depth of the value, for all bodies at most the number of opening brackets; C94_measure: what is counted is the depth of the recursion of skip. Missing: the size of frames and of the stack, which is Go's")

c("C95", "proved", "Verif.C95_iff_v2 Verif.C95_iff_v1 Verif.C95_v2 Verif.C95_v1 Verif.C95_length_v2 Verif.C95_length_v1 Verif.C95_utf8_v2 Verif.C95_utf8_v1 Verif.C95_answer_v2 Verif.C95_answer_v1 Verif.C95_witness_v2 Verif.C95_witness_v1",
  "the texts of fmt, pkg/errors, io and reflect2 are as described in Model/ErrorText; C95_answer: the text of an arrival is the one that the parser returns")
c("C96", "proved", "Verif.C96_v2 Verif.C96_v1 Verif.C96_witness",
  "the converse is false: a body whose text ends with EOF may have no acceptable continuation (C96_witness)")
c("C97", "proved", "Verif.C97_v2 Verif.C97_v1 Verif.C97_witness",
  "what the reader does, the growth of slices and the clearing of pooled memory are not counted; the counters of Model/Cost follow the loops of Model/Parser")

c("C98", "partial", "Verif.C98_json_v2 Verif.C98_json_v1 Verif.C98_jaeger Verif.C98_parser Verif.C98_binary Verif.C98_sender Verif.C98_lru_get Verif.C98_lru_random Verif.C98_tree Verif.C98_merge_timings Verif.C98_merge_tags Verif.C98_merge_tags_reverse Verif.C98_timings Verif.C98_timings_fail Verif.C98_timings_partial Verif.C98_witness",
  "False for TestCorrectTimings: its times are in 1970, so the rule of correct.go:476 for times before 2020 gives the span of the server the start of its parent, 100 ms, and the test expects 110 ms (C98_timings_fail, for all random choices). With times after 2020 the expectation holds (C98_timings_partial). All other tests succeed.")

c("C99", "proved", "Verif.C99_receive Verif.C99_add Verif.C99_correct Verif.C99_chain Verif.C99_finish Verif.C99_tick",
  "Steps are calls, iterations, moved elements of slices and tags that are set; sort.Slice, logging and waiting for the channels are not counted.")

c("C100", "proved", "Verif.C100_answered Verif.C100_collected Verif.C100_received Verif.C100_delivered Verif.C100_leaves Verif.C100_fate Verif.C100_exists Verif.C100_witness Verif.step_iff_does",
  "the configuration without Kafka; fairness: weak for the collector sending, the forwarder, the sink and the buffer; strong for handlers that push and for the select of the collector")

c("C101", "proved", "Verif.C101_exact Verif.C101_sent Verif.C101_fate Verif.C101_traces Verif.C101_exists Verif.C101_witness",
  "the configuration without Kafka; the transport (dd-trace) is assumed to return from each call, with an error or without")

c("C102", "proved", "Verif.C102_intact Verif.C102_sent Verif.C102_witness Verif.C102_example Verif.Healthy.finished Verif.C101_traces",
  "the configuration without Kafka; the parsers are covered by C26, C27, C76 and C90; what `toDatadog` does to a span is C58")

c("C103", "proved", "Verif.C103_posted Verif.C103_document Verif.C103_v1 Verif.C103_v1_document Verif.C103_request Verif.C103_witness Verif.C103_v1_witness Verif.HealthyV2.spans Verif.shownV2 Verif.HealthyV1.spans Verif.shownV1",
  "Puts together C90/C26 (the parser), C33 (the handlers), C100 and C102 (the pipeline) and C58 (the conversion). C103_posted and C103_v1 are for everything that the parsers accept, C103_document and C103_v1_document for JSON texts; C103_request is for any of the routes. C102_sent excludes the exception if the sender keeps up.")

c("C104","proved","Verif.C104_answered Verif.C104_sent Verif.C104_produced Verif.C104_written Verif.C104_exists Verif.C104_small Verif.C104_witness","Strong fairness for the handlers (the channel may be full at times), weak fairness for everybody else; the latter includes that sarama and Kafka deliver what was passed to them. The hypothesis on the size of spans is needed: C70 proves what happens without it.")
c("C105","proved","Verif.C105_answered Verif.C105_read Verif.C105_written Verif.C105_received Verif.C105_fate Verif.C105_exists Verif.C105_witness","Fairness as in C100 and C104 for each proxy, weak fairness for the goroutine of each claim. The proxies live on and the assignment is constant; C68 is about safety when they do not. C105_exists: fair executions with ticks for all lists of requests; C105_witness: two spans of one trace, posted to two proxies, meet.")
c("C106","proved","Verif.C106_pieces Verif.C106_witness Verif.C106_example","Combines C69, C102 and C105. That the spans come in time is a hypothesis, as nothing in the code bounds how long they take through Kafka. C106_witness: an execution of two proxies for a trace of two spans, posted to different proxies, that meets all hypotheses.")
c("C107","proved","Verif.C107_agrees Verif.C107_final Verif.C107_short Verif.C107_exact Verif.C107_length Verif.C107_cut Verif.C107_log Verif.C107_witness Verif.C107_doomed","C107_agrees relates this decoder to the one of C03-C08. C107_doomed: io.EOF does not promise that a valid message can follow, as the bits of a length that are already there may be too many.")
c("C108","proved","Verif.C108_answered Verif.C108_open Verif.C108_written Verif.C108_read Verif.C108_received Verif.C108_fate Verif.C108_exists Verif.C108_unstuck Verif.C108_again","Fairness as in C105. A claim that was assigned an offset after the end of its partition skips what is written before that offset, so C108_received and C108_fate are about claims within the partition. Spans posted before, and still in the memory of a proxy that crashed, are lost (C68). C108_exists: from every state that holds only small spans there are such executions; C108_unstuck, C108_again: concrete crashes.")
c("C109","proved","Verif.C109_agrees Verif.C109_time Verif.C109_memory Verif.C109_refused Verif.C109_pool Verif.C109_own Verif.C109_exception Verif.C109_witness","The decoder with its effects is proved to return what the one of C03-C11 returns. The exception is the one of C08. Memory of the runtime for the map and of the string cache is not counted.")
c("C110","proved","Verif.C110_view Verif.C110_whole Verif.C110_order Verif.C110_exclusive Verif.C110_no_panic Verif.C110_work Verif.C110_progress Verif.C110_witness","sync.Mutex is modelled as a lock that blocks while it is held. That the spans of the result are not modified after ToSlice has returned is C85.")
c("C111","proved","Verif.C111_batches Verif.C111_cluster Verif.C111_witness Verif.shownJaeger Verif.HealthyItems.spans Verif.RequestSays.outcome Verif.Requests.posted","Generalises C103 (one request, one trace, version 1 or 2) and, with C111_cluster, C106 (spans, not documents). For version 1 and 2 it is about everything that is accepted, for Jaeger about the documents of C76. C111_witness: a trace with its root in a request of version 2, beside a span of another trace, and its other span in a Jaeger request.")
c("C112","proved","Verif.C112_exact Verif.C112_standard Verif.C112_examples Verif.C112_rejected Verif.C112_unique","C74 says what is read from the texts of RFC 3339 with up to nine digits of a fraction, this what is read from all texts. null is the zero time of Go, whose nanoseconds wrap around.")
c("C113","proved","Verif.C113_exact Verif.C113_answer Verif.C113_unique Verif.C113_examples","C76 says what well-formed documents are answered with; this says it for all bodies. Which numbers are out of range for a float64 is arbitrary (floatFails).")
c("C114","proved","Verif.C114_encode Verif.C114_decode Verif.C114_standard Verif.C114_unique Verif.C114_examples","Strings are any bytes, also those that are not UTF-8. The spans written are those of C04 (strings shorter than 2 GiB).")
c("C115","proved","Verif.C115_way Verif.C115_marks Verif.C115_held Verif.C115_fits Verif.C115_needed Verif.C115_kafka","C115_kafka is for proxies with Kafka, where the messages that the producer has are not counted. Spans of requests whose handler has not finished are not counted: each handler holds those of its request. Spans are counted, not bytes; a slice counts with its whole array.")
c("C116","proved","Verif.C116_exclusive Verif.C116_waits Verif.C116_writes Verif.C116_stable Verif.C116_witness","For the goroutines behind the collector, without Kafka. The maps of tags are the subject of C85; a converter of the user that keeps a map and writes it later is not considered. The admin view is the subject of C110, the arena of the Kafka sender of C10.")
c("C117","proved","Verif.C117_times Verif.C117_exact Verif.C117_within Verif.C117_witness Verif.C117_sharp","barring overflow: the clocks show times from 1970 to 2116; spans whose parent links run into a cycle do not descend from the root, see C81")
c("C118","partial","Verif.C118_covers_partial Verif.C118_exact Verif.C118_covered_iff Verif.C118_witness Verif.C118_fails","false for calls that both sides tell about if the span of the callee arrives first: the interval of the root is computed before times are corrected (C118_fails); proved for all other spans; C118_exact says what the interval of the root is and where the spans below it are shown, C118_covered_iff which of them are covered")
c("C119","proved","Verif.C119_same Verif.C119_values Verif.C119_traces Verif.C119_witness Verif.C119_no_duration Verif.C119_no_parent Verif.C119_two_roots","from decoded values; documents are decoded to these by C26, C27 and C76. Without a duration or without a parent the formats differ: C119_no_duration, C119_no_parent; two spans without a parent are sent with a made-up root in one format and dropped in the other: C119_two_roots")
c("C120","proved","Verif.C120_passed_on Verif.C120_all Verif.C120_witness","")
c("C121","proved","Verif.C121_moved Verif.C121_witness Verif.C121_needs_room","C121_needs_room: without the bound it is false, since a start that is corrected to before 2020 is replaced by the one of the parent")
c("C122","partial","Verif.C122_partial Verif.C122_readable Verif.C122_fails Verif.C122_witness","false: a trace without a unique root is dropped silently (its line has the level Debug), and discarded traces are only counted. C122_partial: exactly which lines there are, and what they say; C122_readable: no line can be read in two ways")
c("C123","proved","Verif.C123_lines Verif.C123_witness Verif.C123_witness_blocked","DD_LOG_TRACES is not set")
c("C124","proved","Verif.C124_merged Verif.C124_witness Verif.Metered.ofReachable","")
c("C125","proved","Verif.C125_sizes Verif.C125_exists","calls of Encode one after the other, as in Pool.Step; the random sample that the library keeps is not modelled")
c("C126","partial","Verif.C126_v2_partial Verif.C126_v1_partial Verif.C126_jaeger_partial Verif.C126_fails Verif.C126_witness","113 times for version 2, 118 times for version 1, and for version 1 on clean pooled memory (see C28); false for jaeger requests (C126_fails), where the name of a service is in the body once and in the message of each span: there it is 127 times and three times the number of spans (C126_jaeger_partial, for all accepted requests). The body is the one after decompression")
c("C127","proved","Verif.C127_timely Verif.C127_request Verif.C127_received Verif.C127_leaves Verif.C127_left Verif.C127_delivered Verif.C127_flushed Verif.C127_sent Verif.C127_traces Verif.C127_exists Verif.C127_witness Verif.C127_example","the configuration without Kafka; the bounds are assumptions on the schedule, C127_exists shows that every reachable state can go on with no delays and the ticks of the code")
c("C128","partial","Verif.C128_partial Verif.C128_zero Verif.C128_parents Verif.C128_roots Verif.C128_fails Verif.C128_made_up Verif.C128_jaeger Verif.C128_zipkin Verif.C128_witness","true if all parents were told (C128_partial); false in general: a root of the jaeger format is its own parent and is sent so (C128_fails, C128_jaeger), unlike one of the Zipkin formats (C128_zipkin), and a root that is made up is sent with the trace id as its parent (C128_made_up). C128_parents says for every span which parent it is sent with, C128_roots for every root candidate")
c("C129","proved","Verif.C129_load Verif.C129_traces Verif.C129_request Verif.C129_queue Verif.C129_sink Verif.C129_batches Verif.C129_collected Verif.C129_rate Verif.C129_witness Verif.C129_example","the configuration without Kafka; the bounds are assumptions on the schedule and on the arrivals, sufficient and not necessary; C129_witness is an execution that satisfies all of them")
c("C130","proved","Verif.C130_debug_log Verif.C130_named Verif.C130_witness")
c("C131","partial","Verif.C131_partial Verif.C131_beyond Verif.C131_default Verif.C131_fails","true up to the level Debug (C131_partial); false beyond: at the level Trace the trees are not printed, since debugPrintTrace asks for the level Debug exactly (C131_fails); C131_beyond: nothing else is missing")
c("C132","partial","Verif.C132_partial Verif.C132_fails Verif.C132_meant","false: nothing is ever written about times, at any level (C132_partial, C132_fails), because the code compares the level of the log entry, which is always zero, and not that of the logger; C132_meant: with the level of the logger it would be written")
c("C133","proved","Verif.C133_byParent Verif.C133_children Verif.C133_getSpan Verif.C133_root Verif.C133_root_example Verif.C133_ids")
c("C134","partial","Verif.C134_partial Verif.C134_exact Verif.C134_units Verif.C134_fails","true for exactly the times that fit, until the year 2262 (C134_partial, C134_exact); false for others: the product wraps around (C134_fails)")
c("C135","partial","Verif.C135_partial Verif.C135_same Verif.C135_steady Verif.C135_example Verif.C135_fails","true up to start and duration and made up roots (C135_partial, C135_same), and for start and duration, too, where clocks agree (C135_steady); false in general: a span that arrives after its parent was sent is not shifted by the skew of the parent (C135_fails)")
c("C136","partial","Verif.C136_partial Verif.C136_told Verif.C136_exact Verif.C136_count Verif.C136_example Verif.C136_fails","C136_count: an id is sent once for every part that shows it; C136_exact: no id is sent twice for a trace iff no two parts of it show the same id, as a span or as the parent shared by several spans without a parent in the part; true unless one of the two is a root that was made up (C136_partial, C136_told); false otherwise: a made up root has the id of the missing parent, which may arrive later (C136_fails)")
c("C137","proved","Verif.C137_blocks Verif.C137_memory Verif.C137_collector Verif.C137_example")
c("C138","partial","Verif.C138_partial Verif.C138_example Verif.C138_fails","true for each part of a trace, and never more often than it was received (C138_partial); false if it is received again after its trace was sent (C138_fails)")
c("C139","partial","Verif.C139_partial Verif.C139_example Verif.C139_fails","exact: accepted if all trace ids have 64 bits, rejected as a whole otherwise (C139_partial), so false for trace ids of 128 bits (C139_fails); numbers without E and plus, names of members and ids without surrogate pairs and escapes for control characters")
c("C140","partial","Verif.C140_partial Verif.C140_example Verif.C140_fails","exact: accepted if all trace ids have 64 bits, rejected as a whole otherwise (C140_partial), so false for trace ids of 128 bits (C140_fails); numbers and strings as in C139")
c("C141","partial","Verif.C141_gauges_partial Verif.C141_quiet_partial Verif.C141_histogram Verif.C141_example Verif.C141_fails","the histogram is as stated, with sizes modulo 65536 (C141_histogram); the gauge of spans says what was pending before the tick, without too large traces, the gauge of traces what was pending before load is shed (C141_gauges_partial); right if nothing leaves (C141_quiet_partial); false as stated (C141_fails)")
c("C142","partial","Verif.C142_ingestion_partial Verif.C142_v2_partial Verif.C142_v1_partial Verif.C142_jaeger_partial Verif.C142_witness Verif.C142_fails","true if no request repeats binaryAnnotations in an object (C142_ingestion_partial; 755 KiB for the two Zipkin versions, C142_v2_partial and C142_v1_partial); false in general: 99 requests of version 1 of at most 8500 bytes each add up in pooled memory and stop ingestion (C142_fails)")
c("C143","partial","Verif.C143_sent_partial Verif.C143_logged_partial Verif.C143_witness Verif.C143_fails Verif.C143_lost","true unless DD_LOG_TRACES is true (C143_sent_partial); with that, every batch is written to the log instead, below the line that says that it is being sent (C143_logged_partial), and nothing is ever sent (C143_fails)")
c("C144","partial","Verif.C144_usual_partial Verif.C144_untyped_partial Verif.C144_witness Verif.C144_fails_coding Verif.C144_fails_case Verif.C144_fails_type","true for header values in lower case with gzip by its usual name, if the name of JSON is not part of that of another type; false for GZIP and x-gzip (not decompressed, so refused), for Application/JSON (refused by version 1), and for other types with application/json somewhere in them (taken for JSON)")
c("C145","partial","Verif.C145_quiet_partial Verif.C145_load_partial Verif.C145_witness Verif.C145_fails Verif.C145_fails_kafka","true for requests long enough before the stop, in the terms of C127 (45 s are enough with the ticks of the code and no other delays) and, without batches that are discarded, in those of C129; false in general: nothing waits for the goroutines, so what is on its way, in the collector or in the sink is lost, with Kafka also what was marked")
c("C146","partial","Verif.C146_same_partial Verif.C146_returns_partial Verif.C146_unchanged_partial Verif.C146_witness Verif.C146_fails","it returns for every document, and agrees with a reader whose buffer no string or number fills; the slice is left as it was if it contains no backslash; false in general: the escapes of a string are decoded in place, so that decoding the slice once more gives another value")
c("C147","proved","Verif.C147_written Verif.C147_read Verif.C147_received Verif.C147_request Verif.C147_trace Verif.C147_exists Verif.C147_witness","C127 for the configuration with Kafka; the assignment of the partitions does not change and no message gets lost; the bounds are assumptions on the schedule, C147_exists shows for all requests with small spans an execution with no delays and the ticks of the code")
c("C148","proved","Verif.C148_intact Verif.C148_posted Verif.C148_pieces Verif.C148_witness","C102 and C106 with times instead of assumptions on the events of the collector: that the spans arrive quickly and that the tick comes in time is derived here from the delays; the collector reads the clock when it receives a span; converter of pkg/example")
c("C149","proved","Verif.C149_waiting Verif.C149_calm Verif.C149_arrivals Verif.C149_posted Verif.C149_pieces Verif.C149_witness Verif.C149_alone","C148 without its two ways out: that not too many spans wait and that no batch is discarded follows here from a bound on the arrivals (C129); the bound is sufficient and not necessary; converter of pkg/example")
c("C150","partial","Verif.C150_even_partial Verif.C150_rate_partial Verif.C150_pieces Verif.C150_posted_partial Verif.C149_alone Verif.C150_burst","holds for 4800 spans per second (and 500 at once) if the spans of each trace are posted within 0.1 s, and in general if fewer than 40000 spans can wait; without a bound on how long a trace takes it holds for at most 4000 spans posted in every period of about 40 s, and one more for each e of the rest; false as stated: when 40000 spans wait the buffer time drops from 8 s to 6 s, and all traces of two seconds are finished at one tick; these are ten batches, and only eight can wait")
c("C151","partial","Verif.C151_partial Verif.C151_fresh Verif.C151_fails","holds after any upheavals for traces of which nothing was posted before the last one; false as stated: if the partition moves between two messages of a trace, each of two proxies sends one of the two spans")
c("C152","partial","Verif.C152_accounted_partial Verif.C152_resumes_partial Verif.C152_lost Verif.C152_fails Verif.C152_outage_fails","holds from the place on at which the last claim started without a usable committed offset; false as stated: Consumer.Offsets.Initial keeps its default, the newest offset, so that without a committed offset, or if the message there has been deleted, all messages in the partition are skipped, also those that Kafka still has")
c("C153","partial","Verif.C153_reported_partial Verif.C153_final_partial Verif.C153_claims_partial Verif.C153_fails","at least once if the committed offset has passed it, never again afterwards, and at most once for each claim; false as stated: it is not marked, so that each claim reads and reports it again as long as no later message is committed")
c("C154","partial","Verif.C154_partial Verif.C154_progress_partial Verif.C154_terminates_partial Verif.C154_order Verif.C154_stuck Verif.C154_unanswered Verif.C154_blocked Verif.C154_none_answered Verif.C154_fails","holds if no message is given up during the outage; false as stated: nobody receives the errors of the producer, so that the goroutine of a partition which gives up one message waits for ever. At most 387 more spans of this partition are then taken from requests, and once its channel is full nothing gets into any partition and no request with more than 322 spans is answered")
c("C155","proved","Verif.C155_agrees Verif.C155_preview Verif.C155_whole Verif.C155_tags Verif.C155_cut Verif.C155_witness","the consumer in balance/receiver.go drops this span; other callers of the exported function see it")
c("C156","partial","Verif.C156_partial Verif.C156_failures Verif.C156_readable Verif.C156_ended Verif.C156_which Verif.C156_flood Verif.C156_fails Verif.C156_witness","while a session lasts, the partitions told behind the last line about the group are exactly those of the session (C156_partial), every error of a session is told exactly once (C156_failures), and no line can be read in two ways; false as stated: the end of a session writes nothing (C156_ended, C156_fails), and the line about a message does not name its partition (C156_which). While the group cannot be joined, the log grows without any bound (C156_flood)")
c("C157","proved","Verif.C157_bytes Verif.C157_small Verif.C157_headers Verif.C157_kept","sizes are those that are asked for: rounding up to size classes by the allocator is not counted; growth of bytes.Buffer is that of Go 1.15 (2*cap + n)")
c("C158","proved","Verif.C158_share Verif.C158_share_positive Verif.C158_ids Verif.C158_last_byte Verif.C158_messages Verif.C158_range Verif.C158_parity Verif.C158_repeated","the partitioner is that of sarama v1.26.1 (hash/fnv New32a, remainder, sign removed), which main.go does not change")
c("C159","proved","Verif.C159_share Verif.C159_one Verif.C159_even Verif.C159_busy","the assignment is that of sarama v1.26.1 (BalanceStrategyRange, which main.go does not change), in exact arithmetic in place of float64; which proxy comes at which place of the order is left open")
c("C160","proved","Verif.C160_renamed Verif.C160_sent Verif.C160_witness Verif.C160_needs_root","C160_needs_root: whether a span has the id of the trace does matter (C38)")
c("C161","proved","Verif.C161_above Verif.C161_witness","roots that are made up depend on all spans below them, so the span and the spans above must have been received; spans whose parent links run into a cycle do not descend from the root (C81)")
c("C162","proved","Verif.C162_clock Verif.C162_sent Verif.C162_iff Verif.C162_witness","the amount is constant during the history; C162_witness: differences of readings do matter")
c("C163","proved","Verif.C163_v2 Verif.C163_v1 Verif.C163_element Verif.C163_determined Verif.C163_witness","memory with cells of eight bytes at byte addresses, overlapping writes spoil each other; sizes as on platforms with 64 bits; what is behind a pointer of a string, map or slice belongs to the cell of the pointer, so there is no aliasing in the model")
c("C164","partial","Verif.C164_partial Verif.C164_sent Verif.C164_meters Verif.C164_tick Verif.C164_load Verif.C164_fails Verif.C164_witness","false under load: of traces of the same size the order decides which are discarded (C164_fails); true without load and with at most 1023 blacklisted traces (C164_partial), also of the meters (C164_meters); C164_tick: under load it is still true of all traces but the discarded ones; C164_load: the number and the sizes of the discarded traces do not depend on the order")
c("C165","proved","Verif.C165_done Verif.C165_again Verif.C165_witness","the ages are those of the last tick, with the buffer time for the load after it; spans of a trace are counted modulo 65536 where the code does so")
c("C166","proved","Verif.C166_same Verif.C166_during Verif.C166_sent Verif.C166_apart Verif.C166_tick Verif.C166_complete Verif.C166_witness","receiving a span is one step here, and so is dealing with a trace in a tick, which sends at most once, at its end; other goroutines write between these steps; the loops of Roots and ChildrenOf and the sort of indices work on the elements of the slice as they are in memory; tags are values here, see C85")
c("C167","proved","Verif.C167_delivers Verif.C167_sent Verif.C167_complete Verif.C167_collector Verif.C167_apart Verif.C167_drains Verif.C167_ends Verif.C167_exists Verif.C167_witness Verif.C167_witness_during","joins C166 and C55, of which each has its own memory; the channel from the collector has no bound here, see C92 for the bounds; steps of the collector are as in C166; converting a trace is one step here, C116 shows that the forwarder writes only to what no other goroutine has")
c("C168","proved","Verif.C168_values Verif.C168_sent Verif.C168_single Verif.C168_own Verif.C168_drains Verif.C168_exists Verif.C168_in_place Verif.C168_witness","extends C85 by the forwarder and its converter; the converter does not keep maps from earlier calls; arrays are left out, see C167 for them")
root = os.path.dirname(os.path.dirname(os.path.abspath(__file__)))
json.dump({"claims": C}, open(os.path.join(root, "MANIFEST.json"), "w"), indent=1)
