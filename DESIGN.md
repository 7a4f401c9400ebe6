# A Lean 4 model of dd-zipkin-proxy

## Trusted base

* Lean 4.33.0's kernel. Every theorem of the manifest depends on at most the three
  standard axioms `propext`, `Classical.choice`, `Quot.sound`. No axioms are
  added, there is no `sorry`, no `native_decide`, no `bv_decide`.
  `tools/audit.sh` prints the axioms of every theorem in the manifest.
* The reading of the Go code: the code is not run, the model is tied to it only
  by the citations (file and lines) on each definition.
* The small specifications in `Verif/Spec`, in terms of which the properties are stated.
* Assumed behaviour of code outside the repository, stated where it is used:
  - Go's integer semantics (wrap-around, shifts, truncated division), slices and maps
    (finite maps iterated in an arbitrary order), channels (FIFO queues, unbuffered channels
    hand over), `select` (any ready case), `sync.Mutex`, `sync/atomic`.
  - `sort.Search` (modelled from its published source), `sort.Slice` (any sorted permutation),
    `bytes.Buffer`, `bytes.Reader`, `encoding/hex`, `encoding/binary`, `utf8.EncodeRune`,
    `strings.EqualFold`, `strings.Contains`, the formatting and parsing of times of the package
    `time` of Go 1.15 (modelled from its source; go.mod says 1.15).
  - `reflect2.UnsafeGrow` v1.0.1: growing within the capacity only sets the
    length; otherwise allocates, copies `len` elements and zeroes the rest.
  - `sync.Pool`: hands out some previously returned or a new object, exclusively.
  - sarama v1.26.1 and Kafka, as described at the top of `Model/Cluster.lean`, `Model/Consume.lean`, `Model/Offsets.lean`, `Model/Partition.lean` and `Model/Producer.lean`. In particular, a proxy that is in the callback keeps its claim: that the group expels a proxy whose callback takes longer than the timeout of a rebalance, and assigns the partition to another one at the same time, is not modelled.
  - `compress/gzip`: an arbitrary function.
  - `encoding/json` of Go 1.15, which decodes jaeger requests: an arbitrary function in C33, the model
    `Model/GoJson` (from its source) in C76 to C79; which numbers `strconv.ParseFloat` refuses is arbitrary.
  - the converter and the routing passed by the user: the converter is an arbitrary function
    with a state that may fail; the routing is not modelled.
  - the time zone of the process: an arbitrary function from times to offsets.
  - the Datadog agent: it answers, fails or never answers.

## Layout

* `Verif/Model/*.lean`   the model, function by function, with citations.
* `Verif/Spec/*.lean`    small independent specifications used in statements.
* `Verif/Proofs/*.lean`  helper lemmas.
* `Verif/Props/*.lean`   one theorem (or a few) per property, with non-vacuity examples (`…_witness`).
* `tools/`               generators of `properties.jsonl` and `MANIFEST.json`, the audit of axioms, and
  `mutate.py`, which tries wrong programs: it edits a definition of the model in a copy, builds, and lists the
  theorems that fail. The results are in `seeded/LOG.jsonl`.

## Representation

* Go `int64`/`uint64`/`uint16` are Lean `Int64`/`UInt64`/`UInt16` (wrap-around is part of the model).
  `int` is `Nat` or `Int` without bound where it counts things in memory.
* Go strings and byte slices are `List UInt8`. Where aliasing matters (C10, C18, C19, C21,
  C28, C55, C57, C91, C163, C166, C167, C168) the model has an explicit memory, buffer or heap.
* `map[string]string` is `Std.ExtTreeMap` (extensional finite map); iterating over a map
  is modelled by an arbitrary permutation of its entries, which is an input of the step.
* Error returns are values; panics are an explicit outcome; loops without an obvious bound
  take fuel, and the theorems say that fuel exists (or that none suffices).
* Goroutines and channels are a state machine over explicit steps, the theorems are about all states reachable
  in any schedule; clocks are inputs of the steps.
* Decoders are programs over the operations of the parser, which itself runs on a buffer and a reader that delivers its bytes in
  arbitrary chunks; the programs are also run on the plain list of bytes, and a simulation relates both (C21).

## What is modelled

| code | model | not modelled |
|------|-------|--------------|
| proxy/id.go, span.go, timestamp.go, trace.go | Model/Id, Span, TimeJson, Lookup | |
| codec/binary.go | Model/Binary, BinaryError (the errors), BinaryFields (the span that comes with an error), BinaryMemory (reads, slices, pool) | |
| balance/encoder.go, sender.go, receiver.go | Model/Balance (arena, keys, claim loop), Partition (which partition a key belongs to), Meters (sizes), Consume (goroutine and close), Cluster, Offsets (where a claim starts, commits), Producer (the channels inside the producer, outages), BinaryError (the line for a message that cannot be decoded), ReceiverLog (all log lines) | |
| cache/lru.go, cache.go | Model/Lru (pointers), Cache (goroutines and byte memory), CacheMetrics | registry of metrics |
| codec/hyperjson/parser.go, string.go, token.go, type_string.go | Model/Parser, JsonString, ErrorText (texts of errors), Cost (steps of the loops) | stack traces kept in errors |
| codec/hyperjson/bind.go, parser_skip.go, parser_array.go, parser_object.go, codec/json.go | Model/Decoder, Depth (nested calls), Unsafe (addresses, offsets and sizes) | |
| codec/json-v1.go, json-v2.go, jaeger.go, util.go | Model/Json, GoJson (encoding/json) | |
| handlers.go | Model/Handlers, Answer (answers, metrics), Server (requests in parallel, and the pools) | routing; texts of errors of libraries (any text) |
| correct.go | Model/Tree, Collector, TagHeap (maps as references), References (slices and pointers into them), SharedMemory (with the forwarder in the same memory), TagForward (converters that write to maps), Debug (printed trees), Warnings (log lines above the level Debug), Verbose (log lines at all levels), Meters (merged spans), CollectorCost (steps), Lookup (functions that the proxy does not use) | — |
| main.go | Model/Forward, System (without Kafka), Cluster (any number of proxies with Kafka), Encode (the text of the admin page) | flags, start-up, profiling, the library for admin pages |
| buffer.go | Model/Ring, RingLock (the lock, steps of all goroutines), Encode (the view as JSON) | |
| datadog/converter.go | Model/Sink, Warnings (log lines), LogTraces (`DD_LOG_TRACES`) | the JSON text of the traces in the log; encoding and HTTP transport by the library |
| pkg/example/main.go | Spec/Intact (its converter) | |

Simplifications are listed at the top of each file of the model. The main ones: clock readings are unbounded integers; a blocking send of the collector only delays it, as it owns its state (Model/System has the channels with their capacities).

## Where code and properties disagree

The following properties are false of the code. For each of them there is a proof of the negation with a concrete input, and a theorem about what remains true
(`…_partial`):

| id | disagreement |
|----|--------------|
| C08 | a message of 5 bytes makes the decoder allocate 2^31-1 bytes |
| C16 | `Set` of an LRU cache with a limit that is not positive does not return |
| C20 | `\n` in a JSON string is decoded as `n` (likewise `\b \f \r \t`), and surrogate pairs as two invalid characters |
| C22 | a body with a string that fills the buffer makes the parser loop for ever; `C22_exact` says for which bodies exactly |
| C24, C25 | numbers with a capital `E` (and, in skipped values, with a plus sign) are cut at this character |
| C26, C27 | consequences of C20 and C24 for documents; also, trace ids of 128 bits (32 digits) are rejected |
| C28 | a v1 body with a repeated `binaryAnnotations` leaves stale annotations in the pooled memory, which appear in later requests |
| C36 | the two halves of a shared span do not commute if they are incomplete or disagree about the parent |
| C38 | no fake root is inserted if a span of the trace has the trace id as its id |
| C47 | the fake root for several spans without parent has the id 0 |
| C48, C49, C50 | the counter of spans of a trace wraps at 65536; so a trace with 65537 spans stays when smaller ones are discarded |
| C54 | the meter `traces.discarded` counts spans |
| C57 | the admin view is out of order once the ring wrapped around |
| C70 | nobody reads the errors of the Kafka producer: a single span that is too large for Kafka stops ingestion for ever |
| C73 | the number of children left out when a trace is printed is one too large |
| C74 | in time zones with seconds in the offset (local mean times before about 1900) times in JSON are off by these seconds; and `null` sets a timestamp to a time in 1754 |
| C75 | the gauge of the hit rate of the cache is not a number if there was no lookup since it was last read |
| C76 | a jaeger request with an id that has an escape is rejected; unknown fields override known ones that differ in case only; repeated fields mix data of different spans |
| C79 | versions 1 and 2 accept bodies that are not JSON: commas and colons are white space, control characters in strings, `txyz` for `true`; C90 says exactly which bodies are accepted |
| C80 | the fake root for several spans without parent gets the id 0, and `forwardSpansToChannels` drops spans with this id: the sinks receive a trace with several roots |
| C81 | spans whose parent links form a cycle are emitted with the trace, though they do not descend from the root |
| C82 | such spans are not corrected and keep a start before 2020 |
| C83 | of two server halves with the same id the one received last wins; if the first is received again, it wins |
| C87 | in the admin view bytes that are not UTF-8 become replacement characters, an empty buffer is shown as `null`, and the format is not that of Zipkin, as the description says |
| C91 | as C28; jaeger and v2 requests are not affected, and of v1 requests only tags and services |
| C94 | `Skip` is recursive without a limit: a body with some million opening brackets in an unknown member needs more than the 1 GB that Go gives to a stack, and ends the process. (The routes for jaeger are safe: `encoding/json` stops at a depth of 10000.) |
| C98 | `TestCorrectTimings` uses times of 1970; since `correct.go:476` gives a span that starts before 2020 the start of its parent, its expectation for the server's span (110 ms) is not met (it gets 100 ms) |
| C118 | the interval of a fake root is computed from times that are not corrected yet: if a callee with a wrong clock tells first about a call, the root can start an hour after the call |
| C122 | a trace without a unique root is dropped without a line in the log (at the default level), and a discarded trace is counted but not named |
| C126 | in a jaeger request the name of a service is written once and sent with each span of the process: what is sent to Kafka grows with the square of the request |
| C128 | a root told in the jaeger format is sent to Datadog with itself as its parent, a root that is made up with the trace id; only roots of the Zipkin formats are sent with the parent id 0 |
| C131 | the trees of dropped traces are printed at the level Debug only; at the level Trace, which is more verbose, they are not (`logrus.GetLevel() != logrus.DebugLevel`) |
| C132 | the lines on differences of clocks and on broken timestamps are never written: `log.Level` is a field of a log entry, which is always 0, not the level of the logger |
| C134 | a number of microseconds above 2^63/1000 wraps around: a time told in nanoseconds by mistake becomes another time, silently |
| C135 | a span that arrives after its parent was sent is a part of its own, and its start is not corrected by the skew of the parent |
| C136 | a root is made up with the id of the missing parent; if the parent arrives later, both are sent, as two spans with one id |
| C138 | the collector does not remember which spans it sent: one that Kafka delivers again later is sent again |
| C139, C140 | the schema allows trace ids of 128 bits (32 digits); one such id and the whole request is rejected, also the spans of other traces |
| C141 | `spans.inflight` is counted before the tick removes traces and still has the spans that just left; `traces.inflight` is set before load is shed and still has the traces that are discarded |
| C142 | small requests of version 1 that repeat `binaryAnnotations` add up in pooled memory (C28): 99 requests of less than 8.5 KB make a span that the producer refuses, which stops ingestion for good (C70) |
| C143 | with `DD_LOG_TRACES=true` traces are logged instead of sent; the log says "Sending …" all the same |
| C144 | names in headers are compared with regard to case: `GZIP` (and `x-gzip`) bodies are not decompressed, `Application/JSON` is refused by version 1; and any type with `application/json` in it is taken for JSON there |
| C145 | when the proxy is stopped it waits for no goroutine: accepted spans that are in a channel, in the collector or in the sink are lost; with Kafka also those whose messages were marked |
| C146 | decoding a slice (NewWithBytes) overwrites the strings with escapes in it: decoded once more, the slice gives other values |
| C150 | under an even load of 5000 spans per second (Datadog could take 10000) batches are discarded: at 40000 waiting spans the buffer time drops by two seconds, and ten batches are made at once |
| C151 | a partition that moves between two messages of a trace divides the trace: two proxies each send a part of it |
| C152 | without a committed offset, or if the message at this offset has been deleted, a proxy that is assigned a partition skips all messages that are in it: it starts at the newest offset, the default of sarama |
| C153 | a message that cannot be decoded is not marked; if it is the last one of its partition, every claim reads and reports it again |
| C154 | if there is no broker for a partition during an outage, its goroutine in the producer returns the message on the channel of errors, which nobody reads; after some more spans of this partition the whole proxy stands still, also when Kafka is back |
| C156 | the log of the consumer does not say that a session has ended, nor which partition a message comes from that cannot be decoded; while the group cannot be joined there is a line for every attempt, without a pause |
| C164 | of traces of the same size, the order in which Go iterates over a map decides which are discarded under load |

Besides, C112 (which is stated as the code is) shows that a fraction of a second with more than nine digits is misread in JSON timestamps: `.0500000000` is half a second. This is in package `time` of Go 1.15 and was fixed later.

## Status

The properties are in `properties.jsonl`, the theorems of each in `MANIFEST.json`.

| id | title | status | theorems |
|----|-------|--------|----------|
| C01 | Id text round trip | proved | `C01_string_format`, `C01_parseId_string`, `C01_json_roundtrip` |
| C02 | Id parsing accepts exactly short hex strings | proved | `C02_parseId_accepts_iff`, `C02_parseId_value`, `C02_unmarshal_iff` |
| C03 | Variable length integers round trip | proved | `C03_long_roundtrip`, `C03_long_size` |
| C04 | Binary span round trip | proved | `C04_span_roundtrip` |
| C05 | Truncated encodings are rejected | proved | `C05_truncation_rejected` |
| C06 | Binary encoding is unambiguous | proved | `C06_unambiguous` |
| C07 | Binary decoding is total and only consumes a prefix | proved | `C07_decode_total`, `C07_no_panic` |
| C08 | Decoder allocation is bounded by the input | partial | `C08_allocation_not_bounded_by_input`, `C08_allocation_partial`, `C08_factor` |
| C09 | Kafka key identifies the trace | proved | `C09_key`, `C09_key_injective` |
| C10 | Kafka messages do not alias | proved | `C10_no_alias`, `C10_no_panic` |
| C11 | Kafka hop preserves spans | proved | `C11_delivery`, `C11_trace_together` |
| C12 | Kafka messages are marked only after delivery | proved | `C12_marked_after_delivery`, `C12_undecodable_not_marked` |
| C13 | LRU cache bookkeeping is consistent | proved | `C13_bookkeeping` |
| C14 | LRU cache stays within its limit | proved | `C14_bounded`, `C14_insertion` |
| C15 | LRU cache evicts least recently used first | proved | `C15_least_recently_used`, `C15_more_recent_present` |
| C16 | LRU Set returns | partial | `C16_set_returns_partial`, `C16_set_hangs`, `C16_exact` |
| C17 | Interned strings equal their argument | proved | `C17_interned_equals_argument`, `C17_calls_proceed` |
| C18 | Interned strings never change | proved | `C18_strings_never_change`, `C18_cached_keys_stable` |
| C19 | Unescaping in place is safe | proved | `C19_in_place`, `C19_writes_behind_reads` |
| C20 | String values agree with the JSON standard | partial | `C20_string_partial`, `C20_exactly_plain`, `C20_fails` |
| C21 | Parsing does not depend on how the input is chunked | proved | `C21_v1`, `C21_v2`, `C21_any`, `C21_stale` |
| C22 | Parsing always returns | partial | `C22_returns_partial`, `C22_diverges`, `C22_fails`, `C22_exact_v2`, `C22_exact_v1`, `C22_edge_v2`, `C22_edge_v1`, `C22_every_body`, `C22_exact_witness` |
| C23 | Parser never indexes out of range | proved | `C23_calls`, `C23_requests` |
| C24 | Skip consumes exactly one value | partial | `C24_skip_partial`, `C24_fails`, `C24_exact` |
| C25 | Decimal numbers decode to their value | partial | `C25_value`, `C25_exact`, `C25_rejects_partial`, `C25_capital`, `C25_capital_exponent` |
| C26 | Zipkin v2 documents decode to their spans | partial | `C26_v2_partial`, `C26_growth`, `C26_fails` |
| C27 | Zipkin v1 documents decode to their spans | partial | `C27_v1_partial`, `C27_fails` |
| C28 | Requests are isolated from pooled memory | partial | `C28_growth_partial`, `C28_clean_partial`, `C28_history_partial`, `C28_keeps_partial`, `C28_requests_partial`, `C28_refused_witness`, `C28_bounded`, `C28_whole_partial`, `C28_needed`, `C28_whole_witness`, `C28_leaks` |
| C29 | Parsed spans have a non-zero duration and protocol tag | proved | `C29_duration_and_protocol` |
| C30 | Span kind determines timings | proved | `C30_timings`, `C30_one_kind` |
| C31 | V1 annotations determine start and duration | proved | `C31_v1_times` |
| C32 | Jaeger parent selection | proved | `C32_jaeger` |
| C33 | Requests are all or nothing | proved | `C33_outcome`, `C33_all_or_nothing`, `C33_progress`, `C33_document` |
| C34 | A trace under assembly is a map from span id to merged span | proved | `C34_trace_is_a_map`, `C34_found_iff_received` |
| C35 | Merging prefers server values | proved | `C35_merge`, `C35_server_preferred`, `C35_mixed_loses_client_timings` |
| C36 | Shared span halves commute | partial | `C36_halves_commute_partial`, `C36_incomplete_halves_depend_on_order`, `C36_exact`, `C36_interleaved_partial`, `C36_exact_witness` |
| C37 | Roots are exactly the parentless spans | proved | `C37_roots` |
| C38 | Fake root repairs missing roots | partial | `C38_fake_root_partial`, `C38_not_always_repaired` |
| C39 | Fake root spans its children | proved | `C39_fake_root_spans_children`, `C39_fake_root_duration` |
| C40 | Timing correction terminates on every trace | proved | `C40_correction_terminates` |
| C41 | Timing correction shifts exactly the descendants by the accumulated skew | proved | `C41_correction` |
| C42 | Timing correction changes only start and duration | proved | `C42_only_times_change` |
| C43 | Clock skew centres the server in the client interval | proved | `C43_skew_centres` |
| C44 | What is emitted at a tick | proved | `C44_emitted_at_tick`, `C44_other_fates` |
| C45 | Emitted traces are homogeneous and duplicate free | proved | `C45_emitted_traces` |
| C46 | No span is invented or duplicated | proved | `C46_conservation`, `C46_provenance` |
| C47 | Invalid spans are ignored | partial | `C47_invalid_ignored`, `C47_zero_ids_partial`, `C47_fake_root_with_zero_id` |
| C48 | In-flight spans are bounded | partial | `C48_counted`, `C48_pending_bounded_partial`, `C48_bound_exceeded` |
| C49 | Load shedding removes the largest traces first and no more than needed | partial | `C49_load_shedding`, `C49_sizes_partial`, `C49_larger_stays` |
| C50 | Too large traces are never emitted | partial | `C50_too_large_partial`, `C50_too_large_emitted` |
| C51 | Blacklist is bounded and effective | proved | `C51_blacklist` |
| C52 | Pending time is bounded | proved | `C52_pending_time` |
| C53 | Buffer time decreases with load | proved | `C53_buffer_time` |
| C54 | Load metrics count what they say | partial | `C54_meters_partial`, `C54_traces_meter_wrong` |
| C55 | Fan-out delivers the same filtered traces to all targets in order | proved | `C55_delivers`, `C55_complete`, `C55_progress`, `C55_terminates`, `C55_sound` |
| C56 | The spans buffer holds the most recent spans | proved | `C56_last`, `C56_exact` |
| C57 | The spans buffer view is in order of reception | partial | `C57_order_partial`, `C57_fails`, `C57_witness` |
| C58 | Datadog conversion is lossless and bounded | proved | `C58_reported`, `C58_resource`, `C58_lossless` |
| C59 | Datadog batches partition the stream | proved | `C59_partition`, `C59_discard`, `C59_sent` |
| C60 | Datadog buffer is bounded | proved | `C60_bounded`, `C60_tick`, `C60_full` |
| C61 | End-to-end provenance | proved | `C61_transport`, `C61_buffer`, `C61_prefix`, `C61_complete`, `C61_adequate`, `C61_sends` |
| C62 | Collector meters agree with what happened | proved | `C62_meters` |
| C63 | Kafka consumer delivers at least once across crashes | proved | `C63_at_least_once`, `C63_provenance`, `C63_session_complete` |
| C64 | Zipkin spans keep identity, service and tags | proved | `C64_v1_fields`, `C64_v2_fields` |
| C65 | Jaeger tags | proved | `C65_jaeger_tags` |
| C66 | Times convert without loss | proved | `C66_exact`, `C66_times_exact` |
| C67 | The pipeline never deadlocks | proved | `C67_progress`, `C67_terminates` |
| C68 | Provenance across the proxies that share a topic | proved | `C68_transport`, `C68_buffer` |
| C69 | The spans of a trace meet in one proxy | proved | `C69_local`, `C69_together`, `C69_order`, `C69_complete`, `C69_eventually`, `C69_witness` |
| C70 | A span that Kafka refuses does not stop ingestion | partial | `C70_stuck`, `C70_unanswered`, `C70_fails`, `C70_progress_partial`, `C70_terminates_partial`, `C70_partial` |
| C71 | Closing the consumer stops it, and only closing does | proved | `C71_closed`, `C71_restarts`, `C71_last_session`, `C71_returns`, `C71_witness` |
| C72 | Printing a trace returns and shows the upper part of its tree | proved | `C72_returns`, `C72_shown`, `C72_once`, `C72_witness` |
| C73 | The number of children left out is right | partial | `C73_fails`, `C73_partial` |
| C74 | Timestamps survive JSON | partial | `C74_text`, `C74_parse`, `C74_roundtrip_partial`, `C74_fails`, `C74_null`, `C74_witness` |
| C75 | The cache hit rate counts every lookup once | partial | `CacheCounters.C75_conserved`, `CacheCounters.C75_rate`, `CacheCounters.C75_partial`, `CacheCounters.C75_fails`, `CacheCounters.C75_witness` |
| C76 | Jaeger documents are decoded to the spans they describe | partial | `C76_jaeger_partial`, `C76_fails`, `C76_repeated`, `C76_witness` |
| C77 | A jaeger document with a value of the wrong type is rejected as a whole | proved | `C77_wrong_type`, `C77_witness` |
| C78 | A request of which the end is missing is rejected | proved | `C78_v2`, `C78_v1`, `C78_jaeger`, `C78_document_v2`, `C78_document_v1`, `C78_document_jaeger`, `C78_witness` |
| C79 | Only JSON is accepted | partial | `C79_jaeger`, `C79_v2_partial`, `C79_v1_partial`, `C79_fails`, `C79_witness` |
| C80 | Delivered traces have exactly one root | partial | `C80_emitted`, `C80_partial`, `C80_fails` |
| C81 | Emitted traces are trees | partial | `C81_partial`, `C81_fails` |
| C82 | Broken clocks are repaired in emitted traces | partial | `C82_partial`, `C82_fails` |
| C83 | A span that is received again does not change a pending trace | partial | `C83_partial`, `C83_fails`, `C83_exact` |
| C84 | Only the order of spans with the same id matters | proved | `C84_order`, `C84_perm` |
| C85 | Tags of a span are written only for that span | proved | `C85_values`, `C85_sent`, `C85_pending`, `C85_single`, `tagRun_exists` |
| C86 | Spans of a trace that arrive quickly stay together | proved | `C86_together`, `C86_whole`, `C86_delivered`, `C86_slow_fails` |
| C87 | The admin view shows the spans | partial | `C87_view`, `C87_partial`, `C87_html`, `C87_fails` |
| C88 | Only the tokens of a document matter | proved | `C88_v2`, `C88_v1`, `C88_jaeger`, `C88_witness` |
| C89 | Traces do not influence each other | proved | `C89_isolated`, `C89_load` |
| C90 | Exactly which bodies are accepted, and what they stand for | proved | `C90_v2`, `C90_unique`, `C90_v1`, `C90_v1_accepts`, `C90_unique_v1`, `C90_witness` |
| C91 | A request is answered as if it were the only one | partial | `C91_alone_partial`, `C91_any`, `C91_whole_partial`, `C91_fails`, `C91_witness` |
| C92 | No span gets lost unnoticed | proved | `C92_fate`, `C92_account`, `C92_whole`, `C92_delivered`, `C92_adequate`, `C92_witness` |
| C93 | Every answer says what became of the request, and the metrics of the handlers count it | proved | `C93_refines`, `C93_answer`, `C93_meter`, `C93_meter_bound`, `C93_timers`, `C93_witness` |
| C94 | Parsing a request nests a bounded number of calls | partial | `C94_v2_partial`, `C94_v1_partial`, `C94_bound_partial`, `C94_measure`, `C94_fails`, `C94_unbounded`, `C94_witness` |
| C95 | A refused request is told where and why, in a short text that shows one byte of it at most | proved | `C95_iff_v2`, `C95_iff_v1`, `C95_v2`, `C95_v1`, `C95_length_v2`, `C95_length_v1`, `C95_utf8_v2`, `C95_utf8_v1`, `C95_answer_v2`, `C95_answer_v1`, `C95_witness_v2`, `C95_witness_v1` |
| C96 | Requests of which the end is missing are told so | proved | `C96_v2`, `C96_v1`, `C96_witness` |
| C97 | Parsing takes time proportional to the size of the request | proved | `C97_v2`, `C97_v1`, `C97_witness` |
| C98 | The tests of the repository succeed | partial | `C98_json_v2`, `C98_json_v1`, `C98_jaeger`, `C98_parser`, `C98_binary`, `C98_sender`, `C98_lru_get`, `C98_lru_random`, `C98_tree`, `C98_merge_timings`, `C98_merge_tags`, `C98_merge_tags_reverse`, `C98_timings`, `C98_timings_fail`, `C98_timings_partial`, `C98_witness` |
| C99 | The collector spends bounded time on a span and on a tick | proved | `C99_receive`, `C99_add`, `C99_correct`, `C99_chain`, `C99_finish`, `C99_tick` |
| C100 | Every accepted span meets its fate | proved | `C100_answered`, `C100_collected`, `C100_received`, `C100_delivered`, `C100_leaves`, `C100_fate`, `C100_exists`, `C100_witness`, `step_iff_does` |
| C101 | What the collector finished gets to Datadog | proved | `C101_exact`, `C101_sent`, `C101_fate`, `C101_traces`, `C101_exists`, `C101_witness` |
| C102 | A healthy trace gets to Datadog as it is | proved | `C102_intact`, `C102_sent`, `C102_witness`, `C102_example`, `Healthy.finished`, `C101_traces` |
| C103 | A trace that is posted gets to Datadog with the values of its document | proved | `C103_posted`, `C103_document`, `C103_v1`, `C103_v1_document`, `C103_request`, `C103_witness`, `C103_v1_witness`, `HealthyV2.spans`, `shownV2`, `HealthyV1.spans`, `shownV1` |
| C104 | In front of Kafka, every request is answered and every accepted span gets into the topic, in all fair executions | proved | `C104_answered`, `C104_sent`, `C104_produced`, `C104_written`, `C104_exists`, `C104_small`, `C104_witness` |
| C105 | Proxies that share a Kafka topic: every span gets to the collector of its trace, in all fair executions | proved | `C105_answered`, `C105_read`, `C105_written`, `C105_received`, `C105_fate`, `C105_exists`, `C105_witness` |
| C106 | A trace whose spans are posted in pieces to several proxies is sent to Datadog in one call, by one proxy | proved | `C106_pieces`, `C106_witness`, `C106_example` |
| C107 | BinaryDecode: which error is returned, and which errors are final | proved | `C107_agrees`, `C107_final`, `C107_short`, `C107_exact`, `C107_length`, `C107_cut`, `C107_log`, `C107_witness`, `C107_doomed` |
| C108 | Proxies recover from crashes, losses and rebalances | proved | `C108_answered`, `C108_open`, `C108_written`, `C108_read`, `C108_received`, `C108_fate`, `C108_exists`, `C108_unstuck`, `C108_again` |
| C109 | Decoding a Kafka message costs no more than the message | proved | `C109_agrees`, `C109_time`, `C109_memory`, `C109_refused`, `C109_pool`, `C109_own`, `C109_exception`, `C109_witness` |
| C110 | The admin view is read between two traces, while others are stored and read | proved | `C110_view`, `C110_whole`, `C110_order`, `C110_exclusive`, `C110_no_panic`, `C110_work`, `C110_progress`, `C110_witness` |
| C111 | A trace whose spans are posted in batches, in any formats, is sent to Datadog in one call | proved | `C111_batches`, `C111_cluster`, `C111_witness`, `shownJaeger`, `HealthyItems.spans`, `RequestSays.outcome`, `Requests.posted` |
| C112 | Which texts a timestamp is read from | proved | `C112_exact`, `C112_standard`, `C112_examples`, `C112_rejected`, `C112_unique` |
| C113 | Exactly which jaeger requests are accepted, and what they stand for | proved | `C113_exact`, `C113_answer`, `C113_unique`, `C113_examples` |
| C114 | Kafka messages are Avro | proved | `C114_encode`, `C114_decode`, `C114_standard`, `C114_unique`, `C114_examples` |
| C115 | The proxy holds a bounded number of spans, however slow its targets are | proved | `C115_way`, `C115_marks`, `C115_held`, `C115_fits`, `C115_needed`, `C115_kafka` |
| C116 | No data races on the way of a finished trace | proved | `C116_exclusive`, `C116_waits`, `C116_writes`, `C116_stable`, `C116_witness` |
| C117 | A trace of hosts with different clocks is shown on one clock | proved | `C117_times`, `C117_exact`, `C117_within`, `C117_witness`, `C117_sharp` |
| C118 | A root that is made up covers the spans below it | partial | `C118_covers_partial`, `C118_exact`, `C118_covered_iff`, `C118_witness`, `C118_fails` |
| C119 | The same span is the same in all formats | proved | `C119_same`, `C119_values`, `C119_traces`, `C119_witness`, `C119_no_duration`, `C119_no_parent`, `C119_two_roots` |
| C120 | Names, services, tags and times are only passed on | proved | `C120_passed_on`, `C120_all`, `C120_witness` |
| C121 | A trace at another time is shown at this other time | proved | `C121_moved`, `C121_witness`, `C121_needs_room` |
| C122 | Every trace that is dropped is in the log | partial | `C122_partial`, `C122_readable`, `C122_fails`, `C122_witness` |
| C123 | The log accounts for batches | proved | `C123_lines`, `C123_witness`, `C123_witness_blocked` |
| C124 | The meter of merged spans completes the account | proved | `C124_merged`, `C124_witness`, `Metered.ofReachable` |
| C125 | The histogram of message sizes gets every 128th message | proved | `C125_sizes`, `C125_exists` |
| C126 | What is sent to Kafka for a request is proportional to the request | partial | `C126_v2_partial`, `C126_v1_partial`, `C126_jaeger_partial`, `C126_fails`, `C126_witness` |
| C127 | How long it takes until a trace is with Datadog | proved | `C127_timely`, `C127_request`, `C127_received`, `C127_leaves`, `C127_left`, `C127_delivered`, `C127_flushed`, `C127_sent`, `C127_traces`, `C127_exists`, `C127_witness`, `C127_example` |
| C128 | The root of a trace is sent with the parent id 0 | partial | `C128_partial`, `C128_zero`, `C128_parents`, `C128_roots`, `C128_fails`, `C128_made_up`, `C128_jaeger`, `C128_zipkin`, `C128_witness` |
| C129 | Under which load no batch is discarded | proved | `C129_load`, `C129_traces`, `C129_request`, `C129_queue`, `C129_sink`, `C129_batches`, `C129_collected`, `C129_rate`, `C129_witness`, `C129_example` |
| C130 | The log at the level Debug accounts for every trace | proved | `C130_debug_log`, `C130_named`, `C130_witness` |
| C131 | A more verbose level shows at least as much | partial | `C131_partial`, `C131_beyond`, `C131_default`, `C131_fails` |
| C132 | Differences of clocks are in the log | partial | `C132_partial`, `C132_fails`, `C132_meant` |
| C133 | Spans of a trace are found by their id and their parent | proved | `C133_byParent`, `C133_children`, `C133_getSpan`, `C133_root`, `C133_root_example`, `C133_ids` |
| C134 | Times survive the conversion of units | partial | `C134_partial`, `C134_exact`, `C134_units`, `C134_fails` |
| C135 | What is sent of a trace does not depend on when its spans arrive | partial | `C135_partial`, `C135_same`, `C135_steady`, `C135_example`, `C135_fails` |
| C136 | No id is sent twice for a trace | partial | `C136_partial`, `C136_told`, `C136_exact`, `C136_count`, `C136_example`, `C136_fails` |
| C137 | The sink keeps a bounded amount of memory alive | proved | `C137_blocks`, `C137_memory`, `C137_collector`, `C137_example` |
| C138 | A span that is received again is sent once | partial | `C138_partial`, `C138_example`, `C138_fails` |
| C139 | Spans as the API of Zipkin describes them are accepted | partial | `C139_partial`, `C139_example`, `C139_fails` |
| C140 | Spans as version 1 of the API of Zipkin describes them are accepted | partial | `C140_partial`, `C140_example`, `C140_fails` |
| C141 | The gauges say how much is pending, the histogram how large traces were | partial | `C141_gauges_partial`, `C141_quiet_partial`, `C141_histogram`, `C141_example`, `C141_fails` |
| C142 | Requests of moderate size do not stop ingestion | partial | `C142_ingestion_partial`, `C142_v2_partial`, `C142_v1_partial`, `C142_jaeger_partial`, `C142_witness`, `C142_fails` |
| C143 | Logging traces does not keep them from Datadog | partial | `C143_sent_partial`, `C143_logged_partial`, `C143_witness`, `C143_fails`, `C143_lost` |
| C144 | Headers of requests are understood as HTTP defines them | partial | `C144_usual_partial`, `C144_untyped_partial`, `C144_witness`, `C144_fails_coding`, `C144_fails_case`, `C144_fails_type` |
| C145 | Stopping a proxy loses nothing that it accepted | partial | `C145_quiet_partial`, `C145_load_partial`, `C145_witness`, `C145_fails`, `C145_fails_kafka` |
| C146 | Decoding a document in memory | partial | `C146_same_partial`, `C146_returns_partial`, `C146_unchanged_partial`, `C146_witness`, `C146_fails` |
| C147 | How long it takes with Kafka until a trace is with Datadog | proved | `C147_written`, `C147_read`, `C147_received`, `C147_request`, `C147_trace`, `C147_exists`, `C147_witness` |
| C148 | A trace that is posted in pieces is with Datadog, in one, in time | proved | `C148_intact`, `C148_posted`, `C148_pieces`, `C148_witness` |
| C149 | Under which load a trace that is posted in pieces is with Datadog for certain | proved | `C149_waiting`, `C149_calm`, `C149_arrivals`, `C149_posted`, `C149_pieces`, `C149_witness`, `C149_alone` |
| C150 | An even load below the capacity of Datadog | partial | `C150_even_partial`, `C150_rate_partial`, `C150_pieces`, `C150_posted_partial`, `C149_alone`, `C150_burst` |
| C151 | Rebalancing does not divide traces | partial | `C151_partial`, `C151_fresh`, `C151_fails` |
| C152 | Messages that wait in the topic are processed | partial | `C152_accounted_partial`, `C152_resumes_partial`, `C152_lost`, `C152_fails`, `C152_outage_fails` |
| C153 | A message that cannot be decoded is reported once | partial | `C153_reported_partial`, `C153_final_partial`, `C153_claims_partial`, `C153_fails` |
| C154 | After an outage of Kafka everything goes on | partial | `C154_partial`, `C154_progress_partial`, `C154_terminates_partial`, `C154_order`, `C154_stuck`, `C154_unanswered`, `C154_blocked`, `C154_none_answered`, `C154_fails` |
| C155 | The span that BinaryDecode returns together with an error | proved | `C155_agrees`, `C155_preview`, `C155_whole`, `C155_tags`, `C155_cut`, `C155_witness` |
| C156 | The log tells which partitions a proxy reads | partial | `C156_partial`, `C156_failures`, `C156_readable`, `C156_ended`, `C156_which`, `C156_flood`, `C156_fails`, `C156_witness` |
| C157 | Encoding spans for Kafka takes memory in proportion to what is sent | proved | `C157_bytes`, `C157_small`, `C157_headers`, `C157_kept` |
| C158 | The partitions of the topic get even shares of the traces | proved | `C158_share`, `C158_share_positive`, `C158_ids`, `C158_last_byte`, `C158_messages`, `C158_range`, `C158_parity`, `C158_repeated` |
| C159 | Proxies that share a topic get even shares of the traces | proved | `C159_share`, `C159_one`, `C159_even`, `C159_busy` |
| C160 | Ids are only names | proved | `C160_renamed`, `C160_sent`, `C160_witness`, `C160_needs_root` |
| C161 | How a span is shown is decided by the spans above it | proved | `C161_above`, `C161_witness` |
| C162 | A wrong clock of the proxy changes nothing | proved | `C162_clock`, `C162_sent`, `C162_iff`, `C162_witness` |
| C163 | Decoders write only the field that they are for | proved | `C163_v2`, `C163_v1`, `C163_element`, `C163_determined`, `C163_witness` |
| C164 | What the collector does is decided by what it receives | partial | `C164_partial`, `C164_sent`, `C164_meters`, `C164_tick`, `C164_load`, `C164_fails`, `C164_witness` |
| C165 | A tick leaves nothing undone | proved | `C165_done`, `C165_again`, `C165_witness` |
| C166 | References to spans are valid, and what was sent is not touched any more | proved | `C166_same`, `C166_during`, `C166_sent`, `C166_apart`, `C166_tick`, `C166_complete`, `C166_witness` |
| C167 | The targets see what the collector sent, though all share one memory | proved | `C167_delivers`, `C167_sent`, `C167_complete`, `C167_collector`, `C167_apart`, `C167_drains`, `C167_ends`, `C167_exists`, `C167_witness`, `C167_witness_during` |
| C168 | A converter may write to the tags of its span | proved | `C168_values`, `C168_sent`, `C168_single`, `C168_own`, `C168_drains`, `C168_exists`, `C168_in_place`, `C168_witness` |
