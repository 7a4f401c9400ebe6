import json
head = r'''# A Lean 4 model of dd-zipkin-proxy

## Trusted base

* Lean 4.33.0's kernel. Every theorem of the manifest depends on at most the three
  standard axioms `propext`, `Classical.choice`, `Quot.sound`. No axioms are
  added, there is no `sorry`, no `native_decide`, no `bv_decide`.
  `tools/audit.sh` prints the axioms of every theorem in the manifest.
* The reading of the Go code: the code is not run, the model is tied to it only
  by the citations (file and lines) on each definition.
* The small specifications in `Verif/Spec`, in terms of which the properties are stated.
* Assumed behaviour of code outside the repository, stated where it is used:
  - Go's integer semantics (wrap-around, shifts, truncated division), slices and maps
    (finite maps iterated in an arbitrary order), channels (FIFO queues, unbuffered channels
    hand over), `select` (any ready case), `sync.Mutex`, `sync/atomic`.
  - `sort.Search` (modelled from its published source), `sort.Slice` (any sorted permutation),
    `bytes.Buffer`, `bytes.Reader`, `encoding/hex`, `encoding/binary`, `utf8.EncodeRune`,
    `strings.EqualFold`, `strings.Contains`, the formatting and parsing of times of the package
    `time` of Go 1.15 (modelled from its source; go.mod says 1.15).
  - `reflect2.UnsafeGrow` v1.0.1: growing within the capacity only sets the
    length; otherwise allocates, copies `len` elements and zeroes the rest.
  - `sync.Pool`: hands out some previously returned or a new object, exclusively.
  - sarama v1.26.1 and Kafka, as described at the top of `Model/Cluster.lean`, `Model/Consume.lean`, `Model/Offsets.lean`, `Model/Partition.lean` and `Model/Producer.lean`. In particular, a proxy that is in the callback keeps its claim: that the group expels a proxy whose callback takes longer than the timeout of a rebalance, and assigns the partition to another one at the same time, is not modelled.
  - `compress/gzip`: an arbitrary function.
  - `encoding/json` of Go 1.15, which decodes jaeger requests: an arbitrary function in C33, the model
    `Model/GoJson` (from its source) in C76 to C79; which numbers `strconv.ParseFloat` refuses is arbitrary.
  - the converter and the routing passed by the user: the converter is an arbitrary function
    with a state that may fail; the routing is not modelled.
  - the time zone of the process: an arbitrary function from times to offsets.
  - the Datadog agent: it answers, fails or never answers.

## Layout

* `Verif/Model/*.lean`   the model, function by function, with citations.
* `Verif/Spec/*.lean`    small independent specifications used in statements.
* `Verif/Proofs/*.lean`  helper lemmas.
* `Verif/Props/*.lean`   one theorem (or a few) per property, with non-vacuity examples (`…_witness`).
* `tools/`               generators of `properties.jsonl` and `MANIFEST.json`, the audit of axioms, and
  `mutate.py`, which tries wrong programs: it edits a definition of the model in a copy, builds, and lists the
  theorems that fail. The results are in `seeded/LOG.jsonl`.

## Representation

* Go `int64`/`uint64`/`uint16` are Lean `Int64`/`UInt64`/`UInt16` (wrap-around is part of the model).
  `int` is `Nat` or `Int` without bound where it counts things in memory.
* Go strings and byte slices are `List UInt8`. Where aliasing matters (C10, C18, C19, C21,
  C28, C55, C57, C91, C163, C166, C167, C168) the model has an explicit memory, buffer or heap.
* `map[string]string` is `Std.ExtTreeMap` (extensional finite map); iterating over a map
  is modelled by an arbitrary permutation of its entries, which is an input of the step.
* Error returns are values; panics are an explicit outcome; loops without an obvious bound
  take fuel, and the theorems say that fuel exists (or that none suffices).
* Goroutines and channels are a state machine over explicit steps, the theorems are about all states reachable
  in any schedule; clocks are inputs of the steps.
* Decoders are programs over the operations of the parser, which itself runs on a buffer and a reader that delivers its bytes in
  arbitrary chunks; the programs are also run on the plain list of bytes, and a simulation relates both (C21).

## What is modelled

| code | model | not modelled |
|------|-------|--------------|
| proxy/id.go, span.go, timestamp.go, trace.go | Model/Id, Span, TimeJson, Lookup | |
| codec/binary.go | Model/Binary, BinaryError (the errors), BinaryFields (the span that comes with an error), BinaryMemory (reads, slices, pool) | |
| balance/encoder.go, sender.go, receiver.go | Model/Balance (arena, keys, claim loop), Partition (which partition a key belongs to), Meters (sizes), Consume (goroutine and close), Cluster, Offsets (where a claim starts, commits), Producer (the channels inside the producer, outages), BinaryError (the line for a message that cannot be decoded), ReceiverLog (all log lines) | |
| cache/lru.go, cache.go | Model/Lru (pointers), Cache (goroutines and byte memory), CacheMetrics | registry of metrics |
| codec/hyperjson/parser.go, string.go, token.go, type_string.go | Model/Parser, JsonString, ErrorText (texts of errors), Cost (steps of the loops) | stack traces kept in errors |
| codec/hyperjson/bind.go, parser_skip.go, parser_array.go, parser_object.go, codec/json.go | Model/Decoder, Depth (nested calls), Unsafe (addresses, offsets and sizes) | |
| codec/json-v1.go, json-v2.go, jaeger.go, util.go | Model/Json, GoJson (encoding/json) | |
| handlers.go | Model/Handlers, Answer (answers, metrics), Server (requests in parallel, and the pools) | routing; texts of errors of libraries (any text) |
| correct.go | Model/Tree, Collector, TagHeap (maps as references), References (slices and pointers into them), SharedMemory (with the forwarder in the same memory), TagForward (converters that write to maps), Debug (printed trees), Warnings (log lines above the level Debug), Verbose (log lines at all levels), Meters (merged spans), CollectorCost (steps), Lookup (functions that the proxy does not use) | — |
| main.go | Model/Forward, System (without Kafka), Cluster (any number of proxies with Kafka), Encode (the text of the admin page) | flags, start-up, profiling, the library for admin pages |
| buffer.go | Model/Ring, RingLock (the lock, steps of all goroutines), Encode (the view as JSON) | |
| datadog/converter.go | Model/Sink, Warnings (log lines), LogTraces (`DD_LOG_TRACES`) | the JSON text of the traces in the log; encoding and HTTP transport by the library |
| pkg/example/main.go | Spec/Intact (its converter) | |

Simplifications are listed at the top of each file of the model. The main ones: clock readings are unbounded integers; a blocking send of the collector only delays it, as it owns its state (Model/System has the channels with their capacities).

## Where code and properties disagree

The following properties are false of the code. For each of them there is a proof of the negation with a concrete input, and a theorem about what remains true
(`…_partial`):

| id | disagreement |
|----|--------------|
| C08 | a message of 5 bytes makes the decoder allocate 2^31-1 bytes |
| C16 | `Set` of an LRU cache with a limit that is not positive does not return |
| C20 | `\n` in a JSON string is decoded as `n` (likewise `\b \f \r \t`), and surrogate pairs as two invalid characters |
| C22 | a body with a string that fills the buffer makes the parser loop for ever; `C22_exact` says for which bodies exactly |
| C24, C25 | numbers with a capital `E` (and, in skipped values, with a plus sign) are cut at this character |
| C26, C27 | consequences of C20 and C24 for documents; also, trace ids of 128 bits (32 digits) are rejected |
| C28 | a v1 body with a repeated `binaryAnnotations` leaves stale annotations in the pooled memory, which appear in later requests |
| C36 | the two halves of a shared span do not commute if they are incomplete or disagree about the parent |
| C38 | no fake root is inserted if a span of the trace has the trace id as its id |
| C47 | the fake root for several spans without parent has the id 0 |
| C48, C49, C50 | the counter of spans of a trace wraps at 65536; so a trace with 65537 spans stays when smaller ones are discarded |
| C54 | the meter `traces.discarded` counts spans |
| C57 | the admin view is out of order once the ring wrapped around |
| C70 | nobody reads the errors of the Kafka producer: a single span that is too large for Kafka stops ingestion for ever |
| C73 | the number of children left out when a trace is printed is one too large |
| C74 | in time zones with seconds in the offset (local mean times before about 1900) times in JSON are off by these seconds; and `null` sets a timestamp to a time in 1754 |
| C75 | the gauge of the hit rate of the cache is not a number if there was no lookup since it was last read |
| C76 | a jaeger request with an id that has an escape is rejected; unknown fields override known ones that differ in case only; repeated fields mix data of different spans |
| C79 | versions 1 and 2 accept bodies that are not JSON: commas and colons are white space, control characters in strings, `txyz` for `true`; C90 says exactly which bodies are accepted |
| C80 | the fake root for several spans without parent gets the id 0, and `forwardSpansToChannels` drops spans with this id: the sinks receive a trace with several roots |
| C81 | spans whose parent links form a cycle are emitted with the trace, though they do not descend from the root |
| C82 | such spans are not corrected and keep a start before 2020 |
| C83 | of two server halves with the same id the one received last wins; if the first is received again, it wins |
| C87 | in the admin view bytes that are not UTF-8 become replacement characters, an empty buffer is shown as `null`, and the format is not that of Zipkin, as the description says |
| C91 | as C28; jaeger and v2 requests are not affected, and of v1 requests only tags and services |
| C94 | `Skip` is recursive without a limit: a body with some million opening brackets in an unknown member needs more than the 1 GB that Go gives to a stack, and ends the process. (The routes for jaeger are safe: `encoding/json` stops at a depth of 10000.) |
| C98 | `TestCorrectTimings` uses times of 1970; since `correct.go:476` gives a span that starts before 2020 the start of its parent, its expectation for the server's span (110 ms) is not met (it gets 100 ms) |
| C118 | the interval of a fake root is computed from times that are not corrected yet: if a callee with a wrong clock tells first about a call, the root can start an hour after the call |
| C122 | a trace without a unique root is dropped without a line in the log (at the default level), and a discarded trace is counted but not named |
| C126 | in a jaeger request the name of a service is written once and sent with each span of the process: what is sent to Kafka grows with the square of the request |
| C128 | a root told in the jaeger format is sent to Datadog with itself as its parent, a root that is made up with the trace id; only roots of the Zipkin formats are sent with the parent id 0 |
| C131 | the trees of dropped traces are printed at the level Debug only; at the level Trace, which is more verbose, they are not (`logrus.GetLevel() != logrus.DebugLevel`) |
| C132 | the lines on differences of clocks and on broken timestamps are never written: `log.Level` is a field of a log entry, which is always 0, not the level of the logger |
| C134 | a number of microseconds above 2^63/1000 wraps around: a time told in nanoseconds by mistake becomes another time, silently |
| C135 | a span that arrives after its parent was sent is a part of its own, and its start is not corrected by the skew of the parent |
| C136 | a root is made up with the id of the missing parent; if the parent arrives later, both are sent, as two spans with one id |
| C138 | the collector does not remember which spans it sent: one that Kafka delivers again later is sent again |
| C139, C140 | the schema allows trace ids of 128 bits (32 digits); one such id and the whole request is rejected, also the spans of other traces |
| C141 | `spans.inflight` is counted before the tick removes traces and still has the spans that just left; `traces.inflight` is set before load is shed and still has the traces that are discarded |
| C142 | small requests of version 1 that repeat `binaryAnnotations` add up in pooled memory (C28): 99 requests of less than 8.5 KB make a span that the producer refuses, which stops ingestion for good (C70) |
| C143 | with `DD_LOG_TRACES=true` traces are logged instead of sent; the log says "Sending …" all the same |
| C144 | names in headers are compared with regard to case: `GZIP` (and `x-gzip`) bodies are not decompressed, `Application/JSON` is refused by version 1; and any type with `application/json` in it is taken for JSON there |
| C145 | when the proxy is stopped it waits for no goroutine: accepted spans that are in a channel, in the collector or in the sink are lost; with Kafka also those whose messages were marked |
| C146 | decoding a slice (NewWithBytes) overwrites the strings with escapes in it: decoded once more, the slice gives other values |
| C150 | under an even load of 5000 spans per second (Datadog could take 10000) batches are discarded: at 40000 waiting spans the buffer time drops by two seconds, and ten batches are made at once |
| C151 | a partition that moves between two messages of a trace divides the trace: two proxies each send a part of it |
| C152 | without a committed offset, or if the message at this offset has been deleted, a proxy that is assigned a partition skips all messages that are in it: it starts at the newest offset, the default of sarama |
| C153 | a message that cannot be decoded is not marked; if it is the last one of its partition, every claim reads and reports it again |
| C154 | if there is no broker for a partition during an outage, its goroutine in the producer returns the message on the channel of errors, which nobody reads; after some more spans of this partition the whole proxy stands still, also when Kafka is back |
| C156 | the log of the consumer does not say that a session has ended, nor which partition a message comes from that cannot be decoded; while the group cannot be joined there is a line for every attempt, without a pause |
| C164 | of traces of the same size, the order in which Go iterates over a map decides which are discarded under load |

Besides, C112 (which is stated as the code is) shows that a fraction of a second with more than nine digits is misread in JSON timestamps: `.0500000000` is half a second. This is in package `time` of Go 1.15 and was fixed later.

## Status

The properties are in `properties.jsonl`, the theorems of each in `MANIFEST.json`.

| id | title | status | theorems |
|----|-------|--------|----------|
'''

m={c['property']:c for c in json.load(open('/verif/MANIFEST.json'))['claims']}
out=head
for l in open('/verif/properties.jsonl'):
    p=json.loads(l); c=m[p['id']]
    out+="| %s | %s | %s | %s |\n"%(p['id'],p['title'],c['status'],', '.join('`%s`'%t.replace('Verif.','') for t in c['theorems']))
open('/verif/DESIGN.md','w').write(out)
