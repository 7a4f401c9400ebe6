{"id": "C01", "title": "Id text round trip", "statement": "Printing an Id and parsing the printed text gives the same Id back, through String/ParseId and through MarshalJSON/UnmarshalJSON; the printed form is always exactly 16 lowercase hexadecimal digits, most significant first.", "quantifier": "every 64-bit Id", "why_tests_cant": "2^64 ids; a test samples a few", "anchors": ["proxy/id.go: Id.String, Id.MarshalJSON, Id.UnmarshalJSON, ParseId"]}
{"id": "C02", "title": "Id parsing accepts exactly short hex strings", "statement": "ParseId succeeds on exactly the byte strings of at most 16 characters all of which are in 0-9a-fA-F, and its result is the base-16 value of the string (as a 64-bit pattern); it fails on everything else. UnmarshalJSON additionally requires the surrounding double quotes.", "quantifier": "every byte string", "why_tests_cant": "unbounded input space, upper/lower case mixes and every length", "anchors": ["proxy/id.go: ParseId, Id.UnmarshalJSON"]}
{"id": "C03", "title": "Variable length integers round trip", "statement": "Every int64 written by the binary encoder is read back unchanged, whatever bytes follow it, and occupies between 1 and 10 bytes.", "quantifier": "every int64 and every following byte sequence", "why_tests_cant": "2^64 values, including the extremes of the zig-zag map", "anchors": ["codec/binary.go: writeLong, encodeInt, readLong"]}
{"id": "C04", "title": "Binary span round trip", "statement": "Decoding the binary encoding of a span yields that span (a nil tag map comes back as an empty one) and leaves any following bytes unread, for every order in which the tag map happens to be iterated, provided each string is shorter than 2^31 bytes and the map has fewer than 2^63 entries.", "quantifier": "every span, every map iteration order, every following byte sequence", "why_tests_cant": "Go map order is random; strings, tags and integers are unbounded", "anchors": ["codec/binary.go: BinaryEncode, BinaryDecode, writeMapString, readMapString, writeString, readString"]}
{"id": "C05", "title": "Truncated encodings are rejected", "statement": "No proper prefix of the binary encoding of a span decodes successfully.", "quantifier": "every span, every iteration order, every cut point", "why_tests_cant": "every cut point of every encoding", "anchors": ["codec/binary.go: BinaryDecode"]}
{"id": "C06", "title": "Binary encoding is unambiguous", "statement": "Two spans with the same binary encoding are equal (up to nil versus empty tags), and no encoding is a proper prefix of another one.", "quantifier": "every pair of spans and iteration orders", "why_tests_cant": "pairs of unbounded values", "anchors": ["codec/binary.go: BinaryEncode"]}
{"id": "C07", "title": "Binary decoding is total and only consumes a prefix", "statement": "BinaryDecode returns on every byte sequence, either with an error or with a span and an unread suffix of the input; a successful decode consumes at least 12 bytes and every string in the result was present in the input.", "quantifier": "every byte sequence", "why_tests_cant": "arbitrary, possibly hostile, Kafka payloads", "anchors": ["codec/binary.go: BinaryDecode, readMapString, readString, readLong"]}
{"id": "C08", "title": "Decoder allocation is bounded by the input", "statement": "The memory requested by the binary decoder for a string is at most proportional to the size of the message.", "quantifier": "every byte sequence", "why_tests_cant": "hostile length prefixes", "anchors": ["codec/binary.go: readString"]}
{"id": "C09", "title": "Kafka key identifies the trace", "statement": "Two spans get the same Kafka message key if and only if they have the same trace id; the key is the 8-byte little-endian trace id.", "quantifier": "every pair of spans", "why_tests_cant": "pairs of 64-bit ids", "anchors": ["balance/encoder.go: encoder.Encode"]}
{"id": "C10", "title": "Kafka messages do not alias", "statement": "The key and value bytes of every message produced by an encoder keep the bytes they had when the message was created, whatever messages the same encoder produces later; they are the key of the span and its binary encoding.", "quantifier": "every sequence of spans encoded by one encoder", "why_tests_cant": "aliasing shows up only for specific sequences of sizes crossing arena boundaries", "anchors": ["balance/encoder.go: encoder.Encode, makeProducerMessage"]}
{"id": "C11", "title": "Kafka hop preserves spans", "statement": "A span sent through the Kafka producer side is delivered to the consumer callback unchanged (up to nil versus empty tags), in partition order, and an undecodable message between others is skipped without affecting them.", "quantifier": "every sequence of messages", "why_tests_cant": "unbounded sequences, hostile payloads", "anchors": ["balance/encoder.go: makeProducerMessage", "balance/receiver.go: decodeKafkaMessage, ConsumeClaim"]}
{"id": "C12", "title": "Kafka messages are marked only after delivery", "statement": "At every point at which the consumer may crash, each message marked as consumed had already been handed to the callback, and undecodable messages are never marked.", "quantifier": "every message sequence and every crash point", "why_tests_cant": "every crash point between two side effects", "anchors": ["balance/receiver.go: consumerGroupHandler.ConsumeClaim"]}
{"id": "C13", "title": "LRU cache bookkeeping is consistent", "statement": "After any sequence of Get and Set operations the linked usage list, the lookup map, Count() and Size() describe the same set of strings: no duplicates, no dangling or missing list links in either direction, Count() is the number of strings, Size() the total of their lengths plus 56 bytes each.", "quantifier": "every operation sequence on a cache with positive limit", "why_tests_cant": "pointer surgery errors only show on particular sequences", "anchors": ["cache/lru.go: lruCache, linkedList.PushHead, linkedList.DropTail"]}
{"id": "C14", "title": "LRU cache stays within its limit", "statement": "After any sequence of operations Size() is below the limit plus the cost of one entry, and it is below the limit before each insertion.", "quantifier": "every operation sequence on a cache with positive limit", "why_tests_cant": "every history", "anchors": ["cache/lru.go: lruCache.Set, lruCache.ensureCacheSize"]}
{"id": "C15", "title": "LRU cache evicts least recently used first", "statement": "The strings present after any history are exactly the most recently used distinct strings up to some point: if a string is present then every string used (hit or inserted) more recently is present too; and the list is ordered by last use.", "quantifier": "every operation sequence", "why_tests_cant": "every history", "anchors": ["cache/lru.go: lruCache.Get, lruCache.Set, lruCache.ensureCacheSize"]}
{"id": "C16", "title": "LRU Set returns", "statement": "Set returns on every cache state reachable by operations.", "quantifier": "every limit and operation sequence", "why_tests_cant": "non-termination cannot be observed by a finite test", "anchors": ["cache/lru.go: lruCache.ensureCacheSize"]}
{"id": "C17", "title": "Interned strings equal their argument", "statement": "The string returned for a byte slice has exactly the bytes of that slice at the time of the call, under every interleaving of concurrent callers and every cache history.", "quantifier": "every interleaving of concurrent lookups", "why_tests_cant": "lock is released between lookup and insertion; interleavings", "anchors": ["cache/cache.go: lookupCache, StringForByteSliceCopy, StringForByteSliceNoCopy, String"]}
{"id": "C18", "title": "Interned strings never change", "statement": "A string once returned by the copying interning function keeps its bytes forever although the caller reuses and overwrites its buffer, and cached keys never change, provided buffers handed to the non-copying variant are not written afterwards.", "quantifier": "every history of buffer writes and lookups", "why_tests_cant": "aliasing through unsafe casts depends on the history", "anchors": ["cache/cache.go: lookupCache, byteSliceToString", "codec/binary.go: readString"]}
{"id": "C19", "title": "Unescaping in place is safe", "statement": "Decoding the escapes of a string inside its own buffer yields the same bytes as decoding into fresh memory, never writes beyond what was already read, never grows, and never indexes out of range.", "quantifier": "every byte string", "why_tests_cant": "overlap hazards for every mix of escapes", "anchors": ["codec/hyperjson/string.go: decodeStringInPlace, decodeUnicodeChar"]}
{"id": "C20", "title": "String values agree with the JSON standard", "statement": "The value of a JSON string literal is the text that the JSON standard assigns to it.", "quantifier": "every JSON string literal", "why_tests_cant": "all escapes, all code points", "anchors": ["codec/hyperjson/string.go: decodeStringInPlace, decodeUnicodeChar"]}
{"id": "C21", "title": "Parsing does not depend on how the input is chunked", "statement": "For the same request bytes, the outcome of a decoder (value or failure) is the same no matter how the network splits them into reads and regardless of the prior content of the reused buffer, whenever no single token exceeds the buffer.", "quantifier": "every byte sequence, every split into reads, every buffer size and content", "why_tests_cant": "exponentially many splits, token boundaries at buffer ends", "anchors": ["codec/hyperjson/parser.go: Parser, bufferMore, skipWhitespace, readString, readNumber, readN, require"]}
{"id": "C22", "title": "Parsing always returns", "statement": "Parsing a finite request body terminates.", "quantifier": "every byte sequence and every split into reads", "why_tests_cant": "non-termination cannot be observed by a finite test", "anchors": ["codec/hyperjson/parser.go: readString, readNumber, bufferMore"]}
{"id": "C23", "title": "Parser never indexes out of range", "statement": "No call of the public parser operations or of the span decoders panics, whatever the input, the chunking and the moment the reader fails.", "quantifier": "every byte sequence, chunking, reader failure", "why_tests_cant": "all inputs", "anchors": ["codec/hyperjson/parser.go", "codec/hyperjson/parser_skip.go", "codec/hyperjson/bind.go"]}
{"id": "C24", "title": "Skip consumes exactly one value", "statement": "Skipping in front of any JSON value (arbitrarily nested, any whitespace) consumes exactly this value and nothing after it.", "quantifier": "every JSON value and every continuation", "why_tests_cant": "unbounded nesting", "anchors": ["codec/hyperjson/parser_skip.go: Skip, skipArray, skipObject"]}
{"id": "C25", "title": "Decimal numbers decode to their value", "statement": "A non-negative decimal integer literal decodes to its value modulo 2^64; a literal with sign, fraction or exponent is rejected.", "quantifier": "every digit string", "why_tests_cant": "unbounded lengths, wrap-around", "anchors": ["codec/hyperjson/bind.go: Uint64ValueDecoder", "codec/hyperjson/parser.go: readNumber"]}
{"id": "C26", "title": "Zipkin v2 documents decode to their spans", "statement": "For every list of spans written as a Zipkin v2 JSON document (with any insignificant white space, any field order, and additional unknown fields of any shape) ParseJsonV2 returns exactly the spans of the document, in order.", "quantifier": "every document in the described family", "why_tests_cant": "unbounded documents", "anchors": ["codec/json-v2.go: ParseJsonV2, spanV2.ToSpan", "codec/hyperjson/bind.go"]}
{"id": "C27", "title": "Zipkin v1 documents decode to their spans", "statement": "For every list of spans written as a Zipkin v1 JSON document ParseJsonV1 returns exactly the spans of the document, in order, with at most the first four annotations of each span taken into account.", "quantifier": "every document in the described family", "why_tests_cant": "unbounded documents", "anchors": ["codec/json-v1.go: ParseJsonV1, spanV1.ToSpan", "codec/hyperjson/bind.go"]}
{"id": "C28", "title": "Requests are isolated from pooled memory", "statement": "The result of ParseJsonV1 depends only on the request body, not on what earlier requests left in the pooled decoding slice.", "quantifier": "every history of requests and every request", "why_tests_cant": "depends on pool history", "anchors": ["codec/json-v1.go: ParseJsonV1, spanV1ValueDecoder, poolSpansV1", "codec/hyperjson/bind.go: MakeSliceDecoder"]}
{"id": "C29", "title": "Parsed spans have a non-zero duration and protocol tag", "statement": "Every span produced by the v1, v2 and jaeger parsers has a non-zero duration and carries the tag protocolVersion naming its format, whatever the request says.", "quantifier": "every decoded span", "why_tests_cant": "all field combinations including wrap-around", "anchors": ["codec/json-v1.go: spanV1.ToSpan, fillInTimestamp", "codec/json-v2.go: spanV2.ToSpan", "codec/jaeger.go: jaegerSpan.ToSpan"]}
{"id": "C30", "title": "Span kind determines timings", "statement": "For v2 and jaeger spans, the client timings are set to start and start+duration exactly if the kind is 'client' (case-insensitively), the server timings exactly if it is 'server'.", "quantifier": "every decoded span", "why_tests_cant": "all kinds and case mixes", "anchors": ["codec/json-v2.go: spanV2.ToSpan", "codec/jaeger.go: jaegerSpan.ToSpan"]}
{"id": "C31", "title": "V1 annotations determine start and duration", "statement": "For v1 spans, a client send/receive pair determines start and duration; otherwise a server receive/send pair does; otherwise the explicit fields; a missing duration becomes 1ms.", "quantifier": "every decoded span", "why_tests_cant": "all combinations of annotations", "anchors": ["codec/json-v1.go: spanV1.ToSpan, fillInTimestamp"]}
{"id": "C32", "title": "Jaeger parent selection", "statement": "A jaeger span's parent is its last CHILD_OF reference, or itself if there is none, and its service is the name of its process.", "quantifier": "every decoded span", "why_tests_cant": "arbitrary reference lists", "anchors": ["codec/jaeger.go: jaegerSpan.ToSpan"]}
{"id": "C33", "title": "Requests are all or nothing", "statement": "A span request is answered 202 exactly if its body parsed, in which case exactly its spans are enqueued in order; it is answered 400 otherwise, in which case nothing is enqueued.", "quantifier": "every request (path, content type, encoding, body)", "why_tests_cant": "all bodies", "anchors": ["handlers.go: handleSpans, parseSpansWithJSON, handleGzipRequestBody"]}
{"id": "C34", "title": "A trace under assembly is a map from span id to merged span", "statement": "After any sequence of received spans a trace holds exactly one span per distinct id received, ordered by decreasing id, and looking up an id finds the span with that id exactly if one was received.", "quantifier": "every sequence of received spans", "why_tests_cant": "binary search and insertion must agree for every order of arrival", "anchors": ["correct.go: SpanSlice.GetSpanRef, SpanSlice.Append, tree.AddSpan"]}
{"id": "C35", "title": "Merging prefers server values", "statement": "Merging two halves of a shared span takes tags, service and name from the server half where it has them and from the client half otherwise, in whichever order the halves arrive, and keeps all timings of both.", "quantifier": "every client half and server half, both orders, every tag map order", "why_tests_cant": "all tag maps and field combinations", "anchors": ["correct.go: mergeSpansInPlace"]}
{"id": "C36", "title": "Shared span halves commute", "statement": "The emitted span for a client half and a server half of the same span id does not depend on which half arrived first.", "quantifier": "every client half, server half and order", "why_tests_cant": "orders times values", "anchors": ["correct.go: tree.AddSpan, mergeSpansInPlace, correctTreeTimings"]}
{"id": "C37", "title": "Roots are exactly the parentless spans", "statement": "The root candidates of a trace are exactly the spans that are their own parent or whose parent was not received.", "quantifier": "every trace", "why_tests_cant": "all parent graphs including cycles", "anchors": ["correct.go: tree.Roots"]}
{"id": "C38", "title": "Fake root repairs missing roots", "statement": "When several root candidates share one missing parent, injecting a synthetic parent leaves exactly one root candidate.", "quantifier": "every trace with several root candidates sharing a parent", "why_tests_cant": "all parent graphs", "anchors": ["correct.go: createFakeRoot, allTheSameParent, finishTraces"]}
{"id": "C39", "title": "Fake root spans its children", "statement": "The synthetic root starts no later and ends no earlier than each of the root candidates it adopts, and tightly so, barring 64-bit overflow.", "quantifier": "every non-empty list of root candidates", "why_tests_cant": "all orders and values", "anchors": ["correct.go: createFakeRoot"]}
{"id": "C40", "title": "Timing correction terminates on every trace", "statement": "Timing correction started at a root candidate returns for every trace, including traces with cyclic parent links, and touches each span at most once.", "quantifier": "every trace assembled from received spans, every root candidate", "why_tests_cant": "non-termination cannot be observed by a finite test; all parent graphs", "anchors": ["correct.go: correctTreeTimings, tree.ChildrenOf"]}
{"id": "C41", "title": "Timing correction shifts exactly the descendants by the accumulated skew", "statement": "After correction, each descendant of the root is shifted by the sum of the clock skews measured on the path to it, a span with all four timings starts at its client send time plus that sum and lasts for the client's interval, a descendant dated before 2020 takes its parent's start, and spans that do not descend from the root are unchanged.", "quantifier": "every trace and every span in it", "why_tests_cant": "unbounded depth, all graphs", "anchors": ["correct.go: correctTreeTimings"]}
{"id": "C42", "title": "Timing correction changes only start and duration", "statement": "Ids, parents, trace, names, services, tags and timings of all spans and their order are unchanged by timing correction.", "quantifier": "every trace", "why_tests_cant": "all graphs", "anchors": ["correct.go: correctTreeTimings"]}
{"id": "C43", "title": "Clock skew centres the server in the client interval", "statement": "After shifting by the measured skew, the midpoint of the server interval coincides with the midpoint of the client interval up to 1ns of integer rounding, barring overflow.", "quantifier": "every four timings", "why_tests_cant": "all values and roundings", "anchors": ["correct.go: correctTreeTimings"]}
{"id": "C44", "title": "What is emitted at a tick", "statement": "At each tick a pending trace is emitted exactly if it is not too large, not too old, has been idle for the buffer time and has a unique root (possibly after fake root injection); what is emitted is its timing corrected spans.", "quantifier": "every collector state and tick", "why_tests_cant": "all states", "anchors": ["correct.go: finishTraces"]}
{"id": "C45", "title": "Emitted traces are homogeneous and duplicate free", "statement": "Every emitted trace is non-empty, all its spans carry the same non-zero trace id, no two have the same span id, and exactly the spans received for it since it was started (plus possibly one fake root) are present.", "quantifier": "every history of spans and ticks", "why_tests_cant": "all histories", "anchors": ["correct.go: ErrorCorrectSpans, finishTraces"]}
{"id": "C46", "title": "No span is invented or duplicated", "statement": "Every emitted span other than a fake root stems from a received span with this trace and span id; every received valid span is at any time in exactly one place: merged in one pending trace, contained in one emitted trace, or dropped for a recorded reason (blacklisted, too large, too old, no unique root, discarded under load).", "quantifier": "every history of spans and ticks", "why_tests_cant": "all histories", "anchors": ["correct.go: ErrorCorrectSpans, finishTraces, discardSuspiciousTraces"]}
{"id": "C47", "title": "Invalid spans are ignored", "statement": "A received span with zero id or zero trace id changes nothing, and no emitted span has a zero id.", "quantifier": "every history", "why_tests_cant": "all histories", "anchors": ["correct.go: ErrorCorrectSpans, createFakeRoot"]}
{"id": "C48", "title": "In-flight spans are bounded", "statement": "After every tick the pending traces hold at most 100000 spans.", "quantifier": "every history of spans and ticks", "why_tests_cant": "all histories, uint16 counters", "anchors": ["correct.go: finishTraces, discardSuspiciousTraces, tree.nodeCount"]}
{"id": "C49", "title": "Load shedding removes the largest traces first and no more than needed", "statement": "When load is shed, every discarded trace is at least as large as every retained one, fewer than the maximum remain, and had the last one discarded been kept the maximum would have been reached.", "quantifier": "every set of pending traces and every order of ties", "why_tests_cant": "unstable sort, all states", "anchors": ["correct.go: discardSuspiciousTraces"]}
{"id": "C50", "title": "Too large traces are never emitted", "statement": "A trace that has accumulated more than 8192 distinct spans is never emitted and its id is blacklisted at the next tick.", "quantifier": "every history", "why_tests_cant": "all histories; counter wrap-around", "anchors": ["correct.go: finishTraces, tree.nodeCount"]}
{"id": "C51", "title": "Blacklist is bounded and effective", "statement": "Outside of a tick the blacklist holds at most 1023 ids; spans of a blacklisted trace change nothing; ids enter the blacklist only for too large or too old traces.", "quantifier": "every history and every map iteration order", "why_tests_cant": "all histories", "anchors": ["correct.go: ErrorCorrectSpans, finishTraces"]}
{"id": "C52", "title": "Pending time is bounded", "statement": "After every tick each pending trace was updated within the buffer time and started within five buffer times (so at most 8s and 40s); a trace that stays idle is removed at the first tick at least 8 seconds after its last update.", "quantifier": "every history and clock", "why_tests_cant": "all histories", "anchors": ["correct.go: finishTraces"]}
{"id": "C53", "title": "Buffer time decreases with load", "statement": "The buffer time is 8s, 6s, 4s or 2s for less than 40000, 60000, 80000 or any number of counted spans, in particular it never increases with load.", "quantifier": "every span count", "why_tests_cant": "all counts and boundaries", "anchors": ["correct.go: bufferConfigs, finishTraces"]}
{"id": "C54", "title": "Load metrics count what they say", "statement": "The meter traces.discarded grows by the number of discarded traces and spans.discarded by the number of discarded spans.", "quantifier": "every load shedding event", "why_tests_cant": "all states", "anchors": ["correct.go: discardSuspiciousTraces"]}
{"id": "C55", "title": "Fan-out delivers the same filtered traces to all targets in order", "statement": "Every target receives, for every finished trace and in order, the same list: the converted spans in order without those that failed to convert or have a zero id or trace; rewriting the slice in place loses nothing.", "quantifier": "every sequence of traces and every converter", "why_tests_cant": "all converters, in-place aliasing", "anchors": ["main.go: forwardSpansToChannels"]}
{"id": "C56", "title": "The spans buffer holds the most recent spans", "statement": "After any sequence of traces the admin view shows exactly the last 2048 (capacity) spans received.", "quantifier": "every history and capacity", "why_tests_cant": "all histories", "anchors": ["buffer.go: SpansBuffer.ReadFrom, SpansBuffer.ToSlice"]}
{"id": "C57", "title": "The spans buffer view is in order of reception", "statement": "The admin view lists spans in the order they were received, as its description promises.", "quantifier": "every history and capacity", "why_tests_cant": "all histories", "anchors": ["buffer.go: SpansBuffer.ToSlice", "main.go: AdminHandlers"]}
{"id": "C58", "title": "Datadog conversion is lossless and bounded", "statement": "A converted span carries the same 64-bit ids, start, tags and service; its duration is the span's but at least 1 microsecond; its resource is never empty; it is flagged as error exactly if it has an error tag other than 'false' and '0'.", "quantifier": "every span", "why_tests_cant": "all spans", "anchors": ["datadog/converter.go: Sink"]}
{"id": "C59", "title": "Datadog batches partition the stream", "statement": "Grouping never mixes traces, preserves order within a trace, and every span received by the sink is in exactly one of: a batch handed to the sender, a batch discarded because eight batches were waiting, or the current buffer.", "quantifier": "every schedule of traces, ticks and sender progress", "why_tests_cant": "all schedules", "anchors": ["datadog/converter.go: Sink, submitTraces"]}
{"id": "C60", "title": "Datadog buffer is bounded", "statement": "Between two events the sink buffers fewer than 1000 spans, a batch is flushed at a tick if at least 1.8 seconds passed since the last flush, and an empty batch is never sent.", "quantifier": "every schedule", "why_tests_cant": "all schedules", "anchors": ["datadog/converter.go: Sink"]}
{"id": "C61", "title": "End-to-end provenance", "statement": "Under every scheduling of the pipeline every span given to the Datadog transport or visible in the admin buffer is non-zero in id and trace, and stems from a span accepted by the HTTP handlers, or is a fake root, passed through the converter.", "quantifier": "every schedule of all goroutines", "why_tests_cant": "all interleavings", "anchors": ["main.go: MainWithRouting", "correct.go", "buffer.go", "datadog/converter.go"]}
{"id": "C62", "title": "Collector meters agree with what happened", "statement": "At any time the meters for too large, too old, rootless, corrected and finished traces equal the number of traces that left the collector for this reason, and the meter for blacklisted spans equals the number of spans refused.", "quantifier": "every history of spans and ticks", "why_tests_cant": "all histories", "anchors": ["correct.go: ErrorCorrectSpans, finishTraces"]}
{"id": "C63", "title": "Kafka consumer delivers at least once across crashes", "statement": "Across any number of consumer sessions, each of which starts at the committed offset (the first one at the first message), may crash at any point and commits at most what it has marked, every decodable message before the committed offset was handed to the callback at least once, and nothing is handed over that is not in the log.", "quantifier": "every log, every sequence of sessions, every crash point, every commit point", "why_tests_cant": "all crash points and all commit timings", "anchors": ["balance/receiver.go: ConsumeClaim, Consume"]}
{"id": "C64", "title": "Zipkin spans keep identity, service and tags", "statement": "A v2 span keeps ids, name, service and all tags (protocolVersion is set to the version); a v1 span keeps ids and name, takes its service from the first endpoint with a name (first annotations with a time, then binary annotations), and its tags are its binary annotations, the last one for each key.", "quantifier": "every decoded span", "why_tests_cant": "all spans", "anchors": ["codec/json-v1.go: spanV1.ToSpan", "codec/json-v2.go: spanV2.ToSpan"]}
{"id": "C65", "title": "Jaeger tags", "statement": "The tags of a jaeger span are exactly its string valued tags without span.kind and internal.span.format, where component is renamed to lc, the last one for each name, and the protocol tag.", "quantifier": "every decoded span", "why_tests_cant": "all spans", "anchors": ["codec/jaeger.go: jaegerSpan.ToSpan"]}
{"id": "C66", "title": "Times convert without loss", "statement": "Microseconds up to 9223372036854775 in start and duration become nanoseconds exactly, in all three formats.", "quantifier": "every decoded span", "why_tests_cant": "all 64-bit values", "anchors": ["codec/json-v1.go: spanV1.ToSpan", "codec/json-v2.go: spanV2.ToSpan", "codec/jaeger.go: jaegerSpan.ToSpan"]}
{"id": "C67", "title": "The pipeline never deadlocks", "statement": "Whatever the Datadog agent does, as long as a span is queued or a trace is on its way to the sinks, one of the goroutines other than the sender of the Datadog sink can do a step, and without new requests and ticks all of this work is done after finitely many steps.", "quantifier": "every reachable state of the whole proxy without Kafka, every schedule", "why_tests_cant": "all interleavings of all goroutines, and a Datadog agent that never answers", "anchors": ["main.go: MainWithRouting, forwardSpansToChannels", "correct.go: ErrorCorrectSpans", "datadog/converter.go: Sink, submitTraces", "buffer.go: SpansBuffer.ReadFrom"]}
{"id": "C68", "title": "Provenance across the proxies that share a topic", "statement": "For any number of proxies on one Kafka topic, with crashes, restarts, rebalancing from any offset, lost messages and foreign messages: every span that any proxy gives to Datadog or shows in its admin view is non-zero in id and trace, and stems from a span accepted by the HTTP handlers of some proxy, from a decodable message that others wrote, or from a fake root, passed through the converter.", "quantifier": "every number of proxies, every schedule and every failure", "why_tests_cant": "needs a Kafka cluster and all interleavings and failures of several processes", "anchors": ["main.go: MainWithRouting", "balance/sender.go: Send", "balance/receiver.go: ConsumeClaim"]}
{"id": "C69", "title": "The spans of a trace meet in one proxy", "statement": "While the assignment of partitions does not change and no message gets lost, no two proxies get spans of the same trace; the responsible collector gets them in the order of the topic; and when everything is sent and read, it has got exactly the spans of this trace of all accepted requests to all proxies, each once. This state is always attainable if the spans are small enough for Kafka.", "quantifier": "every number of proxies and partitions, every partitioner that looks at the key only, every schedule", "why_tests_cant": "needs a Kafka cluster and all interleavings of several processes", "anchors": ["main.go: MainWithRouting", "balance/encoder.go: makeProducerMessage", "balance/receiver.go: ConsumeClaim"]}
{"id": "C70", "title": "A span that Kafka refuses does not stop ingestion", "statement": "Whatever spans others send, every well-formed request is eventually answered and the spans of accepted requests get to Kafka, also if a single span is larger than MaxMessageBytes.", "quantifier": "every history of requests to a proxy with Kafka", "why_tests_cant": "the tests have no Kafka and no span of that size", "anchors": ["main.go: MainWithRouting", "balance/sender.go: NewSender, sendSpan"]}
{"id": "C71", "title": "Closing the consumer stops it, and only closing does", "statement": "After a call of the function that Consume returned has returned, the callback is not running and is never called again; without such a call another session is started whenever one ended, with or without an error; after such a call no new session is started, and the call returns once the running session is over.", "quantifier": "every schedule of sessions, claims, errors and concurrent calls of close", "why_tests_cant": "all interleavings", "anchors": ["balance/receiver.go: Consume"]}
{"id": "C72", "title": "Printing a trace returns and shows the upper part of its tree", "statement": "debugPrintTrace returns for every list of spans, cyclic or not; it prints nothing unless debugging is on, and otherwise exactly the spans that are at most six levels below a root candidate and, like their ancestors, among the first 32 siblings, each with its depth; for a collected trace each span once, with a number of lines linear in the number of spans.", "quantifier": "every list of spans", "why_tests_cant": "arbitrary parent links, unbounded traces", "anchors": ["correct.go: debugPrintTrace"]}
{"id": "C73", "title": "The number of children left out is right", "statement": "Where printing a trace leaves out children of a span, the line in their place tells their number.", "quantifier": "every list of spans", "why_tests_cant": "the tests have no span with more than 32 children, and do not look at the log", "anchors": ["correct.go: debugPrintTrace"]}
{"id": "C74", "title": "Timestamps survive JSON", "statement": "Marshalling a timestamp never fails and yields an RFC 3339 date-time denoting this very nanosecond, whatever the time zone of the process; unmarshalling any valid RFC 3339 date-time yields the nanosecond it denotes; so a timestamp that is marshalled and unmarshalled is unchanged.", "quantifier": "every 64-bit timestamp, every time zone, every valid date-time", "why_tests_cant": "all 2^64 timestamps, all time zones", "anchors": ["proxy/timestamp.go: Timestamp.MarshalJSON, Timestamp.UnmarshalJSON, Timestamp.ToTime"]}
{"id": "C75", "title": "The cache hit rate counts every lookup once", "statement": "For any number of goroutines that look up strings and any number that read the gauge binary.cache.hit.rate: every lookup is counted in exactly one reading, and every reading is a number between 0 and 1.", "quantifier": "every schedule with fewer than 2^64 lookups", "why_tests_cant": "all interleavings", "anchors": ["cache/cache.go: lookupCache, RegisterCacheMetrics"]}
{"id": "C76", "title": "Jaeger documents are decoded to the spans they describe", "statement": "A request to the jaeger route whose body is a document of the jaeger format, with any white space, any order of fields, unknown fields with any value and anything after the document, compressed or not, is answered with exactly the spans that the document describes, in order: ids, names, service of the process, parent from the references, tags, times.", "quantifier": "every JSON text of a jaeger document", "why_tests_cant": "unbounded documents, all ways to write strings and numbers", "anchors": ["codec/jaeger.go: ParseJaeger, jaegerSpan.ToSpan", "proxy/id.go: Id.UnmarshalJSON", "handlers.go: handleSpans"]}
{"id": "C77", "title": "A jaeger document with a value of the wrong type is rejected as a whole", "statement": "If in a jaeger document any value at a place that the format defines (in any span, reference, tag or process) does not have the type of this place, such as an id that is not a string of at most 16 hexadecimal digits, the request is rejected and none of its spans is forwarded.", "quantifier": "every JSON text, every place", "why_tests_cant": "unbounded documents, every combination of types", "anchors": ["codec/jaeger.go: ParseJaeger, jaegerObject, jaegerSpan, jaegerProcess", "proxy/id.go: Id.UnmarshalJSON", "handlers.go: handleSpans"]}
{"id": "C78", "title": "A request of which the end is missing is rejected", "statement": "In the body of every request that is accepted there is a first part that is needed: with anything else after it the same spans are stored, and if any number of bytes at the end of this part are missing, because the connection was closed or failed early, the request is rejected as a whole and no span is stored. For a document that describes spans, the needed part is the whole document.", "quantifier": "every body, every way of cutting it, every way of delivering it", "why_tests_cant": "the tests parse complete documents only", "anchors": ["codec/json-v1.go: ParseJsonV1", "codec/json-v2.go: ParseJsonV2", "codec/jaeger.go: ParseJaeger", "codec/hyperjson/bind.go: MakeSliceDecoder, MakeStructDecoder", "codec/hyperjson/parser.go: Parser"]}
{"id": "C79", "title": "Only JSON is accepted", "statement": "If no beginning of the body of a request is a JSON text (RFC 8259), the request is rejected.", "quantifier": "every body, all three formats", "why_tests_cant": "all byte sequences", "anchors": ["codec/json-v1.go: ParseJsonV1", "codec/json-v2.go: ParseJsonV2", "codec/jaeger.go: ParseJaeger", "codec/hyperjson/bind.go: MakeSliceDecoder, MakeStructDecoder", "codec/hyperjson/parser.go: Parser"]}
{"id": "C80", "title": "Delivered traces have exactly one root", "statement": "Every trace that a sink receives contains exactly one span that is its own parent or whose parent is not in the trace, provided that the converter keeps all spans and their ids.", "quantifier": "every run of the whole proxy, every such converter", "why_tests_cant": "all interleavings, all traces", "anchors": ["main.go: forwardSpansToChannels, MainWithRouting", "correct.go: createFakeRoot, finishTraces, ErrorCorrectSpans, tree.Roots, tree.Root"]}
{"id": "C81", "title": "Emitted traces are trees", "statement": "Every trace that the collector emits is a tree: one root from which all other spans descend by parent links.", "quantifier": "every history of spans and ticks", "why_tests_cant": "all traces, with all graphs of parent links", "anchors": ["correct.go: finishTraces, createFakeRoot, tree.Roots, tree.Root"]}
{"id": "C82", "title": "Broken clocks are repaired in emitted traces", "statement": "If the root of an emitted trace does not start before 2020, none of its spans does.", "quantifier": "every history of spans and ticks", "why_tests_cant": "all traces, all timestamps", "anchors": ["correct.go: correctTreeTimings, finishTraces, tree.ChildrenOf"]}
{"id": "C83", "title": "A span that is received again does not change a pending trace", "statement": "If a span is received again while its trace is pending (a retried request, or a message that Kafka delivers twice), the spans of all pending traces stay what they are.", "quantifier": "every history, every span that the pending trace has received", "why_tests_cant": "all histories, all orders of halves and repetitions", "anchors": ["correct.go: tree.AddSpan, mergeSpansInPlace, ErrorCorrectSpans, SpanSlice.GetSpanRef"]}
{"id": "C84", "title": "Only the order of spans with the same id matters", "statement": "If for every span id the spans received for a trace are the same in the same order, the emitted trace is the same, however spans with different ids are mixed and whenever they arrive.", "quantifier": "every two histories", "why_tests_cant": "all permutations, all schedules", "anchors": ["correct.go: tree.AddSpan, mergeSpansInPlace, ErrorCorrectSpans, SpanSlice.Append, finishTraces, correctTreeTimings, createFakeRoot"]}
{"id": "C85", "title": "Tags of a span are written only for that span", "statement": "A step of the collector writes to the map with the tags of a pending span only if it receives a span of the same trace with the same id. It never writes to the map of a span that was sent (another goroutine may be reading it), and no two spans that were sent have the same map.", "quantifier": "every history of spans and ticks, every iteration order of the maps", "why_tests_cant": "all histories; an alias shows only when a shared map is written later, perhaps by another goroutine", "anchors": ["proxy/span.go: AddTag", "correct.go: mergeSpansInPlace, tree.AddSpan, SpanSlice.Append, ErrorCorrectSpans, finishTraces", "codec/json-v2.go: ToSpan", "datadog/converter.go: Sink"]}
{"id": "C86", "title": "Spans of a trace that arrive quickly stay together", "statement": "If the spans of a trace (at most 8192 different ids) arrive with less than two seconds from one to the tick after it and within ten seconds in all, and never more than 100000 spans are waiting, then the trace does not leave before all of them are there. If no more of them come, it leaves once and whole, and if it has a root it is delivered as one trace by a tick at least eight seconds after its last span, provided that there is one within ten seconds after its first span.", "quantifier": "every history in which the trace id is new, with any other spans and ticks in between, every iteration order", "why_tests_cant": "all interleavings with other traces and all timings; tests have one trace and a fixed clock", "anchors": ["correct.go: ErrorCorrectSpans, finishTraces, newTree, tree.AddSpan, discardSuspiciousTraces"]}
{"id": "C87", "title": "The admin view shows the spans", "statement": "The page with the last spans is a JSON array with one object for each span of the buffer, in its order: ids with 16 digits, name, service and tags as strings that stand for those of the span, dates that denote the times exactly, the duration as a number, and exactly the timings that are known. It has no characters with a meaning in HTML.", "quantifier": "every list of spans, every time zone with an offset of whole minutes", "why_tests_cant": "all strings of bytes, all times, all zones", "anchors": ["buffer.go: ToSlice", "main.go: Main", "proxy/span.go: Span, Timings", "proxy/id.go: MarshalJSON", "proxy/timestamp.go: MarshalJSON"]}
{"id": "C88", "title": "Only the tokens of a document matter", "statement": "Two bodies that differ only in what stands between their tokens are parsed alike: both are rejected, or both give the same spans. For Zipkin 1 and 2 these separators are any of tab, line feed, vertical tab, form feed, carriage return, space, colon, comma, 0x85 and 0xA0, in any number (also none, where the tokens stay apart); for Jaeger they are the white space of JSON.", "quantifier": "every two bodies, every reader and every buffer in which the tokens fit", "why_tests_cant": "all documents, all ways to print them, all ways to deliver them", "anchors": ["codec/hyperjson/parser.go: symbolTable, skipWhitespace, NextType, ReadString, ReadNumber", "codec/json-v1.go: ParseJsonV1", "codec/json-v2.go: ParseJsonV2", "codec/jaeger.go: ParseJaeger"]}
{"id": "C89", "title": "Traces do not influence each other", "statement": "What the collector stores, refuses and sends for a trace depends only on the spans of this trace, their times and the times of the ticks: in two histories which agree in this, whatever other traces there are, the same is stored, refused and sent for it, provided that in both the load (number of pending spans, as the collector counts them) is at the same of the four levels, nothing is shed, and at most 1023 traces were blacklisted. Under different load this does not hold.", "quantifier": "every two histories of the collector, every iteration order of the maps", "why_tests_cant": "relates all pairs of histories; tests run one history at a time", "anchors": ["correct.go: ErrorCorrectSpans, finishTraces, tree.AddSpan, discardSuspiciousTraces, bufferConfigs"]}
{"id": "C90", "title": "Exactly which bodies are accepted, and what they stand for", "statement": "A request of Zipkin 1 or 2 is accepted if and only if its body begins with a text of a simple grammar (separators, strings, numbers, words of four or five bytes, brackets) for an array of spans: objects whose known members have values of the right kind, ids with at most 16 hexadecimal digits or a word with n, times with digits only, and any other members. The grammar gives every body at most one reading. The answer consists of exactly the spans of this reading: the last member with a name counts, unknown ones count for nothing. For version 1 the reading also says what the request does to pooled memory and which old cells it shows; acceptance does not depend on that memory.", "quantifier": "every body, every reader and every buffer in which the tokens fit, every content of the pool", "why_tests_cant": "equality of two sets of byte strings, and of two functions on them; tests only show members", "anchors": ["codec/hyperjson/parser.go: NextType, ReadString, ReadNumber, ReadBoolean, ReadNull, ReadLiteral", "codec/hyperjson/parser_skip.go: Skip", "codec/hyperjson/bind.go: MakeStructDecoder, MakeSliceDecoder, MakeArrayDecoder, MakeMapDecoder", "codec/json-v1.go: ParseJsonV1", "codec/json-v2.go: ParseJsonV2"]}
{"id": "C91", "title": "A request is answered as if it were the only one", "statement": "However requests overlap and follow each other, each is answered with the spans or the refusal that it would get from a server that was just started and has no other request; and one that is still being handled returns exactly if it would there. The pools of buffers and of memory for decoding, which all requests share, do not show.", "quantifier": "every schedule of any number of requests with any bodies, every choice of the pools", "why_tests_cant": "all interleavings, all histories of pooled memory; tests send a few requests", "anchors": ["codec/json.go: bufferPool", "codec/json-v1.go: ParseJsonV1, poolSpansV1, spanV1ValueDecoder", "codec/json-v2.go: ParseJsonV2", "codec/jaeger.go: ParseJaeger", "codec/hyperjson/parser.go: NewWithReader, bufferMore, require", "handlers.go: handleGzipRequestBody"]}
{"id": "C92", "title": "No span gets lost unnoticed", "statement": "When nothing is on its way to the collector or the sink, every span with ids of an accepted request met one of these fates: refused because its trace was on the blacklist; still in a trace of the collector; gone with a trace that was too large, too old, without a root, or discarded under load; merged into a span of a finished trace, of which the converter made nothing or a span without ids; or converted, and then in a batch discarded because eight were waiting, buffered, in a waiting batch, or sent to Datadog. Batches are sent in order, each span once, and no trace is divided between calls. A trace whose spans arrive quickly and that has a root is, when everything was sent, in one call as a whole.", "quantifier": "every schedule of all goroutines, every set of requests, every converter", "why_tests_cant": "all interleavings of all goroutines; a test sees one", "anchors": ["main.go: MainWithRouting, forwardSpansToChannels", "handlers.go: handleSpans, handleGzipRequestBody", "correct.go: ErrorCorrectSpans", "datadog/converter.go: Sink, submitTraces"]}
{"id": "C93", "title": "Every answer says what became of the request, and the metrics of the handlers count it", "statement": "Under every schedule of concurrent requests: a request is answered 202 with an empty body if its body was parsed; it is answered 400 with the text of the gzip error, with the text that only json is supported (version 1 only), or with the text of the parser behind 'parsing spans from json: ', for exactly these reasons, each with a line feed; only version 1 ever asks to close the connection. The meter of parsed spans has counted exactly the spans of the requests that passed it, so never more than were put into the channel, and exactly these when no handler is in between. The timer of a route has counted exactly the requests of this route whose body was parsed, well or badly.", "quantifier": "all requests, all environments of the handlers, all schedules", "why_tests_cant": "Tests send requests one by one, and look at the status only; what the metrics show during concurrent requests, or that no answer has the text of another, depends on the schedule.", "anchors": ["handlers.go: handleSpans, handleGzipRequestBody, parseSpansWithJSON"]}
{"id": "C94", "title": "Parsing a request nests a bounded number of calls", "statement": "While a body of version 1 or 2 is parsed, the number of calls of the parser that are active at the same time does not exceed a limit that is independent of the body; so the stack of the goroutine cannot overflow, which would end the process and could not be recovered from.", "quantifier": "all bodies, all ways to deliver them, all buffers, all contents of the pooled memory", "why_tests_cant": "the depth of a body is unbounded; tests use shallow ones", "anchors": ["codec/hyperjson/parser_skip.go: Skip, skip, skipArray, skipObject", "codec/hyperjson/bind.go: MakeMapDecoder, MakeSliceDecoder, MakeArrayDecoder, MakeStructDecoder"]}
{"id": "C95", "title": "A refused request is told where and why, in a short text that shows one byte of it at most", "statement": "If the body of a request of version 1 or 2 is refused, the client reads 'parsing spans from json: ', the place (list, element of which type, field), and what was wrong there, in a grammar of texts: another type of token was expected than the one with this name, which occurs in the body; a byte of the body that begins no token, is no digit or no hexadecimal digit; an id of a string in the body that is too long or has a character that is no hexadecimal digit; an escape that is too short; or the end of data. The text depends on the body only, not on how it was delivered, the buffer, the pool or other requests; it is valid UTF-8 even if the body is not; without the error of the connection, it has no more than 210 bytes, however long the body is. There is a text exactly if there is an error.", "quantifier": "all bodies, all ways to deliver them, all buffers in which the tokens fit, all contents of pooled memory, all schedules of handlers", "why_tests_cant": "the texts of all errors for all bodies; tests compare a few of them", "anchors": ["handlers.go: handleSpans, parseSpansWithJSON", "codec/hyperjson/parser.go: wrongTypeError, require, bufferMore, NextType, ReadString", "codec/hyperjson/type_string.go: String", "codec/hyperjson/string.go: decodeStringInPlace", "codec/hyperjson/bind.go: MakeMapDecoder, MakeSliceDecoder, MakeArrayDecoder, MakeStructDecoder", "codec/json-v1.go: ParseJsonV1", "codec/json-v2.go: ParseJsonV2", "proxy/id.go: ParseId"]}
{"id": "C96", "title": "Requests of which the end is missing are told so", "statement": "If a body of version 1 or 2 would have been accepted and the connection is closed before the end of the part that is needed, the text of the error ends with EOF; if the connection (or the decompression) fails there, it ends with the text of its error behind 'buffer more data: '. No other reason is given.", "quantifier": "all accepted bodies, all places to cut them, all ways to deliver the rest, all buffers, all texts of errors of the connection", "why_tests_cant": "all places where an arbitrary body can be cut; tests use a few", "anchors": ["handlers.go: handleSpans, parseSpansWithJSON", "codec/hyperjson/parser.go: wrongTypeError, require, bufferMore, NextType, ReadString", "codec/hyperjson/type_string.go: String", "codec/hyperjson/string.go: decodeStringInPlace", "codec/hyperjson/bind.go: MakeMapDecoder, MakeSliceDecoder, MakeArrayDecoder, MakeStructDecoder", "codec/json-v1.go: ParseJsonV1", "codec/json-v2.go: ParseJsonV2", "proxy/id.go: ParseId"]}
{"id": "C97", "title": "Parsing takes time proportional to the size of the request", "statement": "For every body of a request of version 2 or 1 whose strings and numbers are shorter than the buffer of the parser, accepted or refused, delivered in whatever pieces, whatever the pooled memory contains: the parser returns, and until then the iterations of its loops, the calls of Read, the bytes it moves in its buffer and the bytes of the tokens it hands to the decoders are together not more than 19 times the number of bytes of the body, plus the number of calls of Read that were answered by less than there was, plus 28. No body makes it work longer, in particular not one with long tokens across the end of a small buffer, with many escapes, or with many unknown fields.", "quantifier": "all bodies, all readers, all buffers, all contents of the pool", "why_tests_cant": "a test times some bodies; that there is none with quadratic effort needs an argument about every body", "anchors": ["codec/hyperjson/parser.go: bufferMore, skipWhitespace, readString, readNumber, require", "codec/hyperjson/string.go: decodeStringInPlace", "codec/hyperjson/bind.go: MakeSliceDecoder, MakeStructDecoder, MakeMapDecoder, MakeArrayDecoder", "codec/hyperjson/parser_skip.go: Skip"]}
{"id": "C98", "title": "The tests of the repository succeed", "statement": "What each test of the repository asserts about its input holds, for all random choices, orders of maps, sizes of reads, contents of buffers and of the pool: the bodies of TestParseJsonV1, TestParseJsonV2 and TestParseJaeger give the spans that are expected there; the three texts of TestParser_* give the expected tokens; the span of TestBinaryEncoding and every span sent by the balancer can be decoded again; the cache of TestLruCache_Get has at most 2 MiB and 5000 strings at the end, among them the last thousand, and in TestLruCache_RandomSet map and list always have the same number of elements; TestTree, TestMergeSpansInPlace_* and TestCorrectTimings find the expected spans.", "quantifier": "all permutations of the spans, all random numbers of the tests, all orders of maps, all ways a reader delivers the input, all clean pools", "why_tests_cant": "the tests run with one order of each map, one kind of reader and a hundred random permutations; the theorems cover all of them", "anchors": ["correct_test.go: TestTree, TestMergeSpansInPlace_Annotations, TestMergeSpansInPlace_BinaryAnnotations, TestMergeSpansInPlace_BinaryAnnotations_Reverse, TestCorrectTimings, threeSpans", "correct.go: newTree, AddSpan, GetSpan, Root, correctTreeTimings, mergeSpansInPlace", "codec/json-v1_test.go: TestParseJsonV1", "codec/json-v2_test.go: TestParseJsonV2", "codec/jaeger_test.go: TestParseJaeger", "codec/binary_test.go: TestBinaryEncoding", "codec/hyperjson/parser_test.go: doTest, TestParser_Read, TestParser_Compact, TestParser_Pretty", "balance/sender_test.go: TestEncodeDecode", "cache/lru_test.go: TestLruCache_Get, TestLruCache_RandomSet"]}
{"id": "C99", "title": "The collector spends bounded time on a span and on a tick", "statement": "Receiving a span takes at most 2 n + 2 log2 n + 5 steps plus the tags of the span and of the one it is merged into, where n is the number of spans its trace has so far; the timing correction of a trace of n spans takes exactly n + 1 steps for each span that is below the root (it looks at all spans to find the children of each), so n (n + 1) at most, and this is reached by chains; a tick takes at most 8221 steps for each span that is held, plus 1030, as long as no trace has 65536 spans or more.", "quantifier": "all histories of the collector, all orders of the maps, all clocks", "why_tests_cant": "time is measured by tests only for some loads; the bound is for all of them", "anchors": ["correct.go: ErrorCorrectSpans, finishTraces, AddSpan, Roots, ChildrenOf, correctTreeTimings, createFakeRoot, allTheSameParent, discardSuspiciousTraces, mergeSpansInPlace, GetSpanRef, Append"]}
{"id": "C100", "title": "Every accepted span meets its fate", "statement": "In every infinite execution in which no goroutine is forgotten (one that can always go on goes on; a handler that can push again and again, and the select of the collector, are served), whatever requests arrive meanwhile: every request that parses is answered with 202, every request that does not with 400; the collector receives all spans of an accepted request, in their order; every trace that the collector finishes gets to the sink and to the admin buffer, converted, in order. If the ticker also fires again and again, every span with ids leaves the collector: with its trace, or refused because its trace is blocked. From every state the system can reach it can go on in such a way.", "quantifier": "all infinite executions of all goroutines that are fair, all requests, all converters", "why_tests_cant": "liveness is a statement about infinite executions; a test sees a finite part of one of them", "anchors": ["main.go: MainWithRouting, forwardSpansToChannels", "handlers.go: handleSpans, parseSpansWithJSON", "correct.go: ErrorCorrectSpans, finishTraces", "datadog/converter.go: Sink", "buffer.go: ReadFrom"]}
{"id": "C101", "title": "What the collector finished gets to Datadog", "statement": "At any time, the calls of the transport are, in order and without gaps, one for each batch that was not discarded: every batch that the sink put into the channel is sent once, waits in the channel or is in the hands of the sender. In every infinite execution in which no goroutine is forgotten, every call of the transport returns and the ticker of the sink fires again and again, all traces the collector finished until any time are in the end, converted and in order, in batches of which each was given to the transport, or was discarded because eight others were waiting. From every state the system can reach it can go on in such a way.", "quantifier": "all reachable states; all infinite executions of all goroutines that are fair, all requests, all converters", "why_tests_cant": "liveness is a statement about infinite executions; a test sees a finite part of one of them", "anchors": ["datadog/converter.go: Sink, submitTraces", "main.go: MainWithRouting"]}
{"id": "C102", "title": "A healthy trace gets to Datadog as it is", "statement": "With the converter of the example program, in every execution in which no goroutine is forgotten and the sink gets ticks: a trace of at most 8192 spans with different ids below one root, with start times from 2020 on and without disagreement between client and server, whose spans arrive within 10 seconds, less than 2 seconds before each tick, while at most 100000 spans are waiting, is in the end sent to Datadog in one call, as one trace that has exactly these spans, each as it was received (only a minimal duration of 1 microsecond and a name for the resource are filled in); unless it was in a batch that was discarded because eight others were waiting, which does not happen if the sender keeps up. No other call, before or after, has a span of this trace.", "quantifier": "all fair executions, all healthy traces, all other requests meanwhile", "why_tests_cant": "this is the purpose of the whole program; a test would need the network, real clocks and an infinite execution", "anchors": ["main.go: MainWithRouting, forwardSpansToChannels", "correct.go: ErrorCorrectSpans, finishTraces, correctTreeTimings", "datadog/converter.go: Sink, submitTraces", "pkg/example/main.go: main"]}
{"id": "C103", "title": "A trace that is posted gets to Datadog with the values of its document", "statement": "With the converter of the example program, in every execution in which no goroutine is forgotten and the sink gets ticks: if a request of version 1 or 2, compressed or not, has as its body an array of spans (any white space, any order of fields, any other fields, anything after the array) that make up one trace as it should be (different ids, one root, times from 2020 on, at most 8192 spans; in version 1, the middle of the times of client and server of a span is the same), no other request has spans of this trace, and the spans come to the collector within 10 seconds, less than 2 seconds before each of its ticks, while at most 100000 spans are waiting, then the request is answered with 202, and in the end one call to Datadog has one trace with exactly one span for each span of the document: the same ids; service and name from the endpoint (in version 1, the first that is named); the resource is the name, or '(resource empty)'; start and duration in nanoseconds (in version 1, of the client, else of the server, else of the span), at least 1 microsecond, 1 millisecond if there was none; the tags and the version of the protocol; marked as an error if there is a tag for it that is neither 'false' nor '0'. No other call has a span of this trace. The only exception is a batch that is discarded because eight others are waiting.", "quantifier": "all fair executions, all bodies, all sizes of the buffer in which the tokens fit, all other requests meanwhile", "why_tests_cant": "the statement is about the whole process, from the bytes of a request to the calls of the transport, in infinite executions", "anchors": ["codec/json-v1.go: ParseJsonV1", "codec/json-v2.go: ParseJsonV2", "handlers.go: handleSpans", "main.go: MainWithRouting", "correct.go: ErrorCorrectSpans, finishTraces", "datadog/converter.go: Sink, submitTraces", "pkg/example/main.go: main"]}
{"id": "C104", "title": "In front of Kafka, every request is answered and every accepted span gets into the topic, in all fair executions", "statement": "Consider the proxy that writes to Kafka, an infinite execution in which every handler, the sender, the dispatcher of the producer and the goroutine of every partition get their turns, and requests all of whose spans are small enough for one Kafka message (for example: at most 786 000 bytes of text, counting 20 more for each tag). Then every parsed request is answered with 202 and every request that is not parsed with 400; every span of an accepted request is eventually in the partition that its trace id determines, where the consumer decodes it to the same values; and the spans of one request that are in one partition are there in the order of the request.", "quantifier": "All infinite executions with fair scheduling, any number of requests arriving at any times, any assignment of keys to partitions, from any reachable state.", "why_tests_cant": "Fairness and an unbounded future cannot be tested; a test stops after finitely many requests, and the handlers, the sender, the producer and the partitions interleave in unboundedly many ways around the channel of 256 spans.", "anchors": ["main.go: MainWithRouting", "balance/sender.go: NewSender, sendSpan"]}
{"id": "C105", "title": "Proxies that share a Kafka topic: every span gets to the collector of its trace, in all fair executions", "statement": "Consider any number of proxies that read from a topic they all write to, with an assignment of the partitions that does not change, and an infinite execution in which all goroutines of all proxies get their turns and all posted spans are small enough for one Kafka message. Then every request to any proxy is answered, with 202 if it was parsed and with 400 if not; every span of an accepted request is eventually received, with the values it was sent with, by the collector of the one proxy to which the partition of its trace id is assigned, and the spans of one request for one partition in the order of the request; and if the tickers of the collectors go on, each of these spans with a trace id leaves that collector in a finished trace, and every trace that is emitted gets through the conversion to the sink and to the buffer of the admin page. Messages that others write to the topic do not change this, whether they can be decoded or not.", "quantifier": "All infinite executions with fair scheduling, any number of proxies, any assignment of partitions and of keys to partitions, any requests to any proxies and any foreign messages at any times.", "why_tests_cant": "Fairness and an unbounded future cannot be tested, and the goroutines of several processes and of the broker interleave in unboundedly many ways; a test sees one schedule of a few spans.", "anchors": ["main.go: MainWithRouting", "balance/sender.go: NewSender, sendSpan", "balance/receiver.go: ConsumeClaim, decodeKafkaMessage", "correct.go: ErrorCorrectSpans, finishTraces"]}
{"id": "C106", "title": "A trace whose spans are posted in pieces to several proxies is sent to Datadog in one call, by one proxy", "statement": "Several proxies share a Kafka topic that only they write to, with an assignment of partitions that does not change. The spans of a healthy trace (each with its own id, one root, agreeing clocks, all from 2020 or later) are posted in any number of requests to any of the proxies, in any order, and nothing else is posted with this trace id. If the collector of the proxy to which the partition of the trace is assigned receives all of them within the time it waits, with at most 100000 spans waiting, then that proxy hands all of them to the Datadog transport together, as one trace in one call, or they were in a batch that was discarded because eight batches were already waiting; each span is sent at most once and nothing else is sent for this trace. No other proxy ever sends anything of this trace.", "quantifier": "All healthy traces, all ways to cut them into requests to any of any number of proxies, all assignments of partitions, all fair infinite executions, all schedules and map iteration orders.", "why_tests_cant": "The spans go through goroutines of several processes and a broker in unboundedly many interleavings; a test sees one schedule, and cannot see that no other proxy ever sends a span of the trace.", "anchors": ["main.go: MainWithRouting", "balance/sender.go: NewSender, sendSpan", "balance/receiver.go: ConsumeClaim, decodeKafkaMessage", "correct.go: ErrorCorrectSpans, finishTraces", "datadog/converter.go: Sink"]}
{"id": "C107", "title": "BinaryDecode: which error is returned, and which errors are final", "statement": "For every input, BinaryDecode returns a span, io.EOF, io.ErrUnexpectedEOF, or the error that names a string length that is negative or larger than 2147483647. A span and the error about a length do not depend on what follows the input. Both EOF errors are exactly the results that can change when more bytes follow: for every such input there is a continuation with which it decodes to a span that ends there, or with which a length is refused. If the encoding of a span is cut anywhere, the error is io.ErrUnexpectedEOF when the cut is within the bytes of a name, service, tag key or tag value and after the first of them, and io.EOF everywhere else, also right behind the length of a string. ConsumeClaim logs a line with the text of the error for exactly the messages it does not pass on.", "quantifier": "All byte sequences, all continuations, all spans and iteration orders of their tags, all positions of the cut.", "why_tests_cant": "A test tries some inputs and some cuts; which results more input can change is a statement about infinitely many continuations.", "anchors": ["codec/binary.go: BinaryDecode, readLong, readString, readMapString", "balance/receiver.go: ConsumeClaim, decodeKafkaMessage"]}
{"id": "C108", "title": "Proxies recover from crashes, losses and rebalances", "statement": "Take several proxies that share a topic, after any history: proxies were started, crashed and restarted, messages to Kafka got lost, partitions were assigned from any offset and revoked, others wrote to the topic. From then on, the proxies live on, the assignment stays, nobody is forgotten, and the spans that the proxies have on their way and those of later requests fit into a Kafka message. Then: all requests that are still open, and all later ones, are answered with 202 or 400; all spans of later requests are written to the topic, those for one partition in the order of the request; everything in a partition from the offset of its claim on is received by the collector of the proxy that has it, in order, whoever wrote it and whether or not it was read before; so each span of a later request gets to the collector of its trace, in addition to all that was received before, and leaves it. In particular, a proxy that is stuck with an oversized span works again after a restart.", "quantifier": "All histories with crashes, losses and rebalances, all fair continuations, all requests, partitions, claims and offsets.", "why_tests_cant": "Tests restart a process once or twice at chosen times; the statement is about every state that any interleaving of crashes, losses and assignments can leave behind, and about infinite executions after it.", "anchors": ["main.go: MainWithRouting", "balance/sender.go: NewSender, sendSpan", "balance/receiver.go: ConsumeClaim, decodeKafkaMessage", "correct.go: ErrorCorrectSpans, finishTraces", "handlers.go: handleSpans"]}
{"id": "C109", "title": "Decoding a Kafka message costs no more than the message", "statement": "BinaryDecode of a message of n bytes calls ReadByte at most n+1 times and writes at most one map entry for two of these calls, whatever counts and block sizes the message announces. If the message is decoded, all slices that were made together have at most n bytes. If it is refused, this is true as well, but for one slice of more than 8192 and at most 2^31-1 bytes, the last one, made for a string that is not there. A slice taken from the pool is put back before the next one is taken and before BinaryDecode returns, with or without an error.", "quantifier": "All messages (lists of bytes of any length), valid or not.", "why_tests_cant": "A test decodes some messages; hostile counts, negative block sizes and truncated strings at every position are infinitely many.", "anchors": ["codec/binary.go: BinaryDecode, readMapString, readString, readLong", "codec/json.go: bufferPool"]}
{"id": "C110", "title": "The admin view is read between two traces, while others are stored and read", "statement": "One goroutine stores traces in the spans buffer, any number of goroutines call ToSlice at any time. Every result is the view after some number of whole traces (as in C56): it has all that were stored when ToSlice was called, and no part of a trace that is just being stored; a trace that was stored last and fits into the buffer is shown with all its spans. Results returned later show no fewer traces. The slice is never read while it is written. Nothing panics, and as long as a trace waits to be stored or a call has not returned, somebody can proceed; every step other than the arrival of a trace or a call brings the end of all of this closer.", "quantifier": "All numbers of goroutines, all interleavings of their steps, all traces, all positive capacities.", "why_tests_cant": "The race detector and tests see the interleavings that happen to occur; a view torn in the middle of a trace needs a certain one.", "anchors": ["buffer.go: ReadFrom, ToSlice, NewSpansBuffer"]}
{"id": "C111", "title": "A trace whose spans are posted in batches, in any formats, is sent to Datadog in one call", "statement": "The spans of one trace come in any number of requests, each in Zipkin version 1, version 2 or Jaeger format, and each request may also have spans of any other traces. If these are the spans of a healthy trace (each with its own id, all below one root, times from 2020 on), and come quickly to a collector without load, then every request with spans is answered with 202 and in the end one call to Datadog has, as one trace, exactly one span for each span of the documents, with the ids, names, service, times, tags and error flag that the documents say; no other call, before or after, has a span of the trace. The same holds for several proxies with Kafka between them, whichever proxy each request comes to. (Exception: the trace was in a batch that was discarded because eight others were waiting for the sender.)", "quantifier": "All sets of requests in all formats, with all documents; all interleavings of handlers, collector, sink and sender; all other traffic.", "why_tests_cant": "Reporters batch spans of many traces, and services with different tracers take part in the same trace. Tests post single requests in one format.", "anchors": ["handlers.go: handleSpans, parseSpansWithJSON", "codec/json-v1.go: ParseJsonV1, spanV1.ToSpan", "codec/json-v2.go: ParseJsonV2, spanV2.ToSpan", "codec/jaeger.go: ParseJaeger, jaegerSpan.ToSpan", "balance/sender.go: NewSender, sendSpan", "balance/receiver.go: ConsumeClaim, decodeKafkaMessage", "correct.go: ErrorCorrectSpans, finishTraces", "datadog/converter.go: Sink, submitTraces"]}
{"id": "C112", "title": "Which texts a timestamp is read from", "statement": "UnmarshalJSON of a Timestamp succeeds exactly for null and for the dates YYYY-MM-DDThh:mm:ss in quotes that are on the calendar, with an hour of one or two digits, an optional fraction and a zone (Z, or a sign, two characters of hours, a colon and two of minutes); the result is then the instant that is written there, in nanoseconds, wrapped around at 64 bits. In two ways this is more than RFC 3339: the hours and minutes of the zone are any numbers of two digits, or a sign and a digit, and with more than nine digits a fraction counts as a number of nanoseconds, so that .0500000000 is half a second and .1500000000 is an error.", "quantifier": "All byte strings.", "why_tests_cant": "There is no bound on the length of a fraction, and 2^64 times wrap around to each result. The tests have no timestamp in JSON.", "anchors": ["proxy/timestamp.go: Timestamp.UnmarshalJSON"]}
{"id": "C113", "title": "Exactly which jaeger requests are accepted, and what they stand for", "statement": "A request in the jaeger format is accepted exactly if, after white space, it begins with the text of one JSON value, nested at most 10000 deep, that is null or an object in which every value of a known field has the type of the field; it is then answered with the spans that the value stands for. This is so for every body: with fields that occur several times, in several spellings, with null, and with strings that are not UTF-8. A name stands for the field of that name, or else for the first one that differs in case only. Of several values of a field the last one counts that is not null; for an id null is an error. Of several arrays the last one tells how many elements there are, but an element is read together with those at its place in the arrays before, back to the last one that was empty or null. Processes are collected until a null. Bytes that are not UTF-8 and halves of surrogate pairs become U+FFFD.", "quantifier": "All bodies, however they are delivered.", "why_tests_cant": "The set of bodies is infinite, and those that do not follow the format have no end of forms. The tests decode one well-formed document.", "anchors": ["codec/jaeger.go: ParseJaeger, jaegerSpan, jaegerObject", "handlers.go: parseSpansWithJSON"]}
{"id": "C114", "title": "Kafka messages are Avro", "statement": "The message written for a span is the Avro binary encoding of a record with the fields id, trace, parent, name, service, timestamp, duration, cs, cr, ss, sr and tags: the numbers are zigzag varints of minimal length, the strings have their length in front, and the tags are one block followed by an empty one. Any Avro encoding of such a record is read back as the span, whatever writer it comes from: with tags in several blocks, with the sizes of blocks, with varints of any length; the strings have to be shorter than 2 GiB. Exactly the following is accepted besides: numbers of more than 64 bits, of which the lower 64 count, blocks with a wrong size, and blocks with -2^63 entries, which are taken to be empty. A tag that occurs several times has the last value.", "quantifier": "All spans, all iteration orders of the tags, all byte sequences as messages.", "why_tests_cant": "The set of messages is infinite. A test of the round trip is satisfied by any format; here the format is described apart from the code.", "anchors": ["codec/binary.go: BinaryEncode, BinaryDecode, readLong, readString, readMapString, writeLong, encodeInt, writeString, writeMapString"]}
{"id": "C115", "title": "The proxy holds a bounded number of spans, however slow its targets are", "statement": "As long as no trace has 65536 spans at once, the channels and goroutines other than the collector hold at most 4829778 spans at any time, whatever requests arrive and however long a call to Datadog takes: 256 in the channel of the handlers, 579 traces of at most 8193 spans in the channels of the forwarder and at its ends, 2048 in the admin buffer, fewer than 1000 in the batch of the sink and at most 9192 in each of the 8 batches in its channel and in the one being sent. The collector holds at most 100000 spans and those received since its last tick. The traces that a tick has finished and not sent yet have at most 200000 spans and twice those received between the last two ticks. Without the condition the number of spans has no bound. The same holds for the part of a proxy behind Kafka, where no more callbacks wait with a span than partitions are assigned, after any crashes and rebalances.", "quantifier": "All requests, all schedules of the goroutines, all converters, all durations of calls to Datadog.", "why_tests_cant": "A load test shows the memory used under one load; that no schedule and no delay exceed the bound concerns all of them.", "anchors": ["main.go: MainWithRouting, forwardSpansToChannels", "correct.go: ErrorCorrectSpans, finishTraces, discardSuspiciousTraces", "buffer.go: SpansBuffer.ReadFrom", "datadog/converter.go: Sink, submitTraces"]}
{"id": "C116", "title": "No data races on the way of a finished trace", "statement": "Arrays of spans and of spans for Datadog pass from one goroutine to another. At any time, what one goroutine may write until its next operation on a channel, no other goroutine may read or write, and it is in no channel to be read later: the forwarder converts a trace in place only before anybody else has it, and the sink writes only reports that no batch refers to, while the sender reads earlier batches. A step changes nothing else; so what a goroutine was sent keeps its content until it has read it.", "quantifier": "All requests, all schedules, all converters.", "why_tests_cant": "The race detector sees the accesses of the schedules that happen to occur.", "anchors": ["main.go: forwardSpansToChannels", "datadog/converter.go: Sink, submitTraces", "buffer.go: SpansBuffer.ReadFrom"]}
{"id": "C117", "title": "A trace of hosts with different clocks is shown on one clock", "statement": "Let the hosts of a trace have clocks that are off by any amount, and let the calls that both caller and callee tell about (and the other spans) have happened at certain times. In the emitted trace, every span that descends from the root has the start at which it really started, as on the clock of the host where the trace began, off by at most half of the difference between the delays of request and answer, summed over the calls above it; exactly, if answers take as long as requests. The duration is the real one. So what happened during a call is shown within this call. This holds in whichever order the spans arrive.", "quantifier": "All histories of spans and ticks, all clocks, all traces with times from 2020 on (on the clock where it began).", "why_tests_cant": "Tests correct a few traces with the skews somebody thought of; the claim relates the output to what really happened.", "anchors": ["correct.go: correctTreeTimings, mergeSpansInPlace, createFakeRoot", "correct.go: finishTraces"]}
{"id": "C118", "title": "A root that is made up covers the spans below it", "statement": "In an emitted trace, a root that was made up starts no later and ends no earlier than the spans of which it is the parent.", "quantifier": "All histories of spans and ticks.", "why_tests_cant": "Whether it does depends on the order in which caller and callee tell about a call, and on their clocks.", "anchors": ["correct.go: createFakeRoot, finishTraces, correctTreeTimings"]}
{"id": "C119", "title": "The same span is the same in all formats", "statement": "A span with a parent, a start and a duration, told in Zipkin version 1 (annotations for start and end, binary annotations), in Zipkin version 2 (kind and tags) or in the jaeger format (references, process, string tags), becomes the same span except for the tag protocolVersion. So a program can change its format: the collector sends the same traces at the same times, up to this tag, if any of the spans come in other formats.", "quantifier": "All facts about spans (ids, names, services, times, roles, tags), all ways of writing them in each format, all histories of the collector.", "why_tests_cant": "Tests check each format for itself on an example; the claim relates three parsers to each other, for all spans and all mixtures of formats in a trace.", "anchors": ["codec/json-v1.go: spanV1.ToSpan, fillInTimestamp", "codec/json-v2.go: spanV2.ToSpan", "codec/jaeger.go: jaegerSpan.ToSpan", "correct.go: ErrorCorrectSpans, finishTraces"]}
{"id": "C120", "title": "Names, services, tags and times are only passed on", "statement": "Whether, when and why a trace leaves the collector and where its spans are in the tree does not depend on the names, the services, the tags and the times that programs tell (of the times, only whether a span has one of the server side); and in what is sent, the times depend on the times only, each name and each service on the names and the services, and the value of each tag on the values of this tag. So whoever does not look at some of them cannot notice what they are.", "quantifier": "All pairs of histories that differ in values nobody looks at, all choices of what is looked at, all orders of maps.", "why_tests_cant": "A test can compare two runs; the claim is about all pairs of runs.", "anchors": ["correct.go: ErrorCorrectSpans, finishTraces, mergeSpansInPlace, createFakeRoot, correctTreeTimings, discardSuspiciousTraces", "correct.go: tree.AddSpan, tree.Roots, tree.ChildrenOf"]}
{"id": "C121", "title": "A trace at another time is shown at this other time", "statement": "If all times that are told about one trace are later (or earlier) by the same amount, the same traces leave the collector at the same time for the same reasons. The other traces are the same, and the spans of this trace are the same but for being shown later by this amount, with the same durations; as long as the corrections cannot lead out of the years 2020 to 2116.", "quantifier": "All histories, all traces and amounts, all orders of maps; all spans of the trace told between two bounds such that the number of spans times the distance of the bounds does not reach back to 2020, before and after.", "why_tests_cant": "A test compares two runs for one trace; the claim is about every trace with every amount, including halves that are merged, roots that are made up and differences of clocks that add up.", "anchors": ["correct.go: correctTreeTimings, createFakeRoot, mergeSpansInPlace", "correct.go: ErrorCorrectSpans, finishTraces, discardSuspiciousTraces"]}
{"id": "C122", "title": "Every trace that is dropped is in the log", "statement": "Whenever the collector drops a trace without passing it on, a line of the log, at the default level, tells its id.", "quantifier": "All reachable states, all ticks, all orders of maps.", "why_tests_cant": "A test looks at the log of one run; the claim is about every state and every reason for dropping a trace.", "anchors": ["correct.go: finishTraces, discardSuspiciousTraces"]}
{"id": "C123", "title": "The log accounts for batches", "statement": "The sink logs a line for each batch that it discards, in order, with the number of different traces in it. The sender logs a line for each batch that it gets, in order, with the number of spans and of different traces in it. There are no other lines but that a batch was refused, and the spans in these batches, in those that wait, and in the next one are all spans received.", "quantifier": "All schedules of sink and sender, all traces, all orders of maps, any outcome of the transport.", "why_tests_cant": "A test looks at a few batches; the claim is about every schedule, including batches that are discarded while the sender is busy and traces that are divided between events.", "anchors": ["datadog/converter.go: Sink, submitTraces"]}
{"id": "C124", "title": "The meter of merged spans completes the account", "statement": "At any time the spans received with ids are as many as the spans refused, the count of the meter spans.merged, and the different spans in the traces that are pending or that left.", "quantifier": "All histories of spans and ticks, all orders of maps.", "why_tests_cant": "A test compares the meter with a few spans; the claim is about all histories, and that fake roots are never merged.", "anchors": ["correct.go: AddSpan, mergeSpansInPlace, finishTraces"]}
{"id": "C125", "title": "The histogram of message sizes gets every 128th message", "statement": "The values given to the histogram kafka.span.size are the sizes of the 128th message, the 256th, and so on, in order, whatever encoders they were made with, and no others.", "quantifier": "All histories of the pool of encoders, any number of messages, also more than 2^64.", "why_tests_cant": "A test makes a few hundred messages with one encoder; the claim is about every history, including buffers that are reallocated and the counter that wraps.", "anchors": ["balance/encoder.go: Encode, makeProducerMessage", "balance/sender.go: metricKafkaSpanSize"]}
{"id": "C126", "title": "What is sent to Kafka for a request is proportional to the request", "statement": "The messages for the spans of an accepted request have together, as Kafka counts them, at most a fixed number of times the size of the body.", "quantifier": "All bodies of the three JSON formats that are accepted, all orders of tags.", "why_tests_cant": "A test compares sizes for a few requests; the claim is that no request, however it is written, is amplified without bound.", "anchors": ["codec/json-v1.go: ParseJsonV1", "codec/json-v2.go: ParseJsonV2", "codec/jaeger.go: ParseJaeger", "balance/encoder.go: makeProducerMessage", "codec/binary.go: BinaryEncode"]}
{"id": "C127", "title": "How long it takes until a trace is with Datadog", "statement": "If the collector handles a tick in every period p1 and the sink in every period p2, all goroutines but the sender have nothing left to do at some moment within every d, and while a batch waits a call of the transport returns within every c, then: a request is answered and its spans are with the collector within d; a trace to which no span is added any more leaves the collector within 8 s + p1; every span with ids leaves it within 40 s + 1 ns + p1, whatever arrives meanwhile; and every trace that the collector finished is within d + 1.8 s + p2 + 9 c, as a whole, in a batch that was given to the transport or that was discarded because eight others were waiting. With ticks as in the code (0.1 s and 2 s) and no other delays a finished trace is with Datadog 11.9 s after its last span.", "quantifier": "All executions of all goroutines with any clock, all requests, all converters, all such bounds.", "why_tests_cant": "The bounds of the stages add up over goroutines with different tickers, and a skipped flush moves a batch to the next tick; a test sees some phases of the tickers.", "anchors": ["correct.go: ErrorCorrectSpans, finishTraces", "datadog/converter.go: Sink, submitTraces", "main.go: MainWithRouting, forwardSpansToChannels"]}
{"id": "C128", "title": "The root of a trace is sent with the parent id 0", "statement": "In every trace that a sink receives, the root candidates are exactly the spans with the parent id 0, provided that the converter keeps all spans and their ids.", "quantifier": "Every run of the whole proxy, every such converter.", "why_tests_cant": "The parent id of the root depends on the format in which it was told, on the halves of which it was merged and on whether it was made up; the tests look at one format at a time and not at what is sent.", "anchors": ["proxy/span.go: NewRootSpan, NewSpan, IsRoot", "correct.go: AddSpan, createFakeRoot, Roots", "codec/jaeger.go: ToSpan", "main.go: forwardSpansToChannels", "datadog/converter.go: Sink"]}
{"id": "C129", "title": "Under which load no batch is discarded", "statement": "If calls of the transport take at most c each, and the collector of a proxy that starts with nothing gets in every period of 40 s + 1 ns + p1 + d (p1 between its ticks, d for the goroutines to have nothing left to do) at most 4000 spans, and in a longer one at most one more for each e of the rest, where c (5.4 s + 2000 e) < 3600 s e, then no batch for Datadog is ever discarded; so every trace that the collector finished is within d + 1.8 s + p2 + 9 c, as a whole, in a call of the transport. As these periods overlap, the rate over a long time is about 100 spans per second at most; e says how evenly they come, and with c = 0.1 s any e from 166 us on will do. In general nothing is discarded if the batches come, beyond eight, more slowly than they are sent; in a period of length t there are at most (999 + the spans) / 1000 + 1 + t / 1.8 s batches; and in a period the sink gets at most one and a half times the spans that the collector got in it and the 40 s + 1 ns + p1 + d before.", "quantifier": "All executions of all goroutines with any clock that the sink reads too, all requests, all converters, all such bounds.", "why_tests_cant": "Batches are discarded when the queue of eight is full at the moment of a flush; whether this can happen depends on the arrival of spans over all periods, the made-up spans, the two reasons for a flush and the sender; a load test shows one arrival pattern.", "anchors": ["datadog/converter.go: Sink, submitTraces", "correct.go: ErrorCorrectSpans, finishTraces", "main.go: MainWithRouting, forwardSpansToChannels"]}
{"id": "C130", "title": "The log at the level Debug accounts for every trace", "statement": "At the level Debug, each tick of the collector writes the buffer time and the number of spans, and then for each trace that leaves, in order, why it is dropped, if it is (too large, too old, no unique root), with its id, the number of its spans and its tree, and whether a root was made up; a trace that is discarded because of load is only counted. It writes nothing else.", "quantifier": "All reachable states, all ticks, all orders of maps.", "why_tests_cant": "Log lines are not looked at by tests; which of them are written for a trace depends on all the ways in which it can leave.", "anchors": ["correct.go: finishTraces, debugPrintTrace, discardSuspiciousTraces, correctTreeTimings"]}
{"id": "C131", "title": "A more verbose level shows at least as much", "statement": "Whatever a tick of the collector writes to the log at one level, it also writes, in the same order, at every more verbose level.", "quantifier": "All reachable states, all ticks, all pairs of levels.", "why_tests_cant": "Tests run at one level, and do not look at the log.", "anchors": ["correct.go: finishTraces, debugPrintTrace, discardSuspiciousTraces"]}
{"id": "C132", "title": "Differences of clocks are in the log", "statement": "Whenever the clocks of client and server of a span that is passed on differ by more than 25 milliseconds, a line of the log tells so at the level Debug.", "quantifier": "All reachable states, all ticks, all spans.", "why_tests_cant": "The branch has no effect but on the log, so that no test notices whether it is ever taken.", "anchors": ["correct.go: correctTreeTimings"]}
{"id": "C133", "title": "Spans of a trace are found by their id and their parent", "statement": "In a trace made of any spans, GetSpan finds the one span with the given id if any was received, HasSpan tells whether there is one, Root finds the span with the id of the trace, the groups of ByParent are the spans with the same parent in the order of the trace, and ChildrenOf gives the spans of a group that are not their own parents.", "quantifier": "All sequences of received spans, all ids.", "why_tests_cant": "The lookup is a binary search in a list kept in descending order, which tests check for a few ids.", "anchors": ["correct.go: ByParent, GetSpan, Root, HasSpan, GetSpanRef, ChildrenOf", "proxy/span.go: HasParent, IsRoot", "proxy/id.go: OrZero, Or, Uint64OrNil, Int64, Uint64"]}
{"id": "C134", "title": "Times survive the conversion of units", "statement": "A number of microseconds is read back unchanged from the timestamp made of it.", "quantifier": "All 64 bit numbers.", "why_tests_cant": "The conversion goes wrong for numbers that only occur by mistake or on purpose.", "anchors": ["proxy/timestamp.go: Microseconds, ToMicros, ToMillis, ToNanos"]}
{"id": "C135", "title": "What is sent of a trace does not depend on when its spans arrive", "statement": "If the spans of a trace have different ids and all of them are sent, then what is sent, in one part or in several, are these spans with the same start and duration, whenever and in whatever order they arrived.", "quantifier": "All histories of the collector, all traces.", "why_tests_cant": "A trace is divided by the time at which its spans arrive, which tests do not vary.", "anchors": ["correct.go: ErrorCorrectSpans, finishTraces, correctTreeTimings"]}
{"id": "C136", "title": "No id is sent twice for a trace", "statement": "If all spans received for a trace have different ids, then no two spans that are sent for it have the same id.", "quantifier": "All histories of the collector, all traces.", "why_tests_cant": "It takes a trace that is sent in several parts, one of them without its root.", "anchors": ["correct.go: finishTraces, ErrorCorrectSpans"]}
{"id": "C137", "title": "The sink keeps a bounded amount of memory alive", "statement": "However many spans were received and however slow Datadog is: if no trace has more than L spans, at any time at most 3 + 9 * ((999 + L) / 4096 + 2) blocks of 4096 Datadog spans are referred to by the sink, its channel or the batch that is sent; for traces of up to 8193 spans these are 39 blocks. All blocks ever made have room for less than 4096 spans more than were received.", "quantifier": "All schedules of traces, ticks and the sender, all L.", "why_tests_cant": "A leak shows only after a long time, as a block stays alive because of a single span.", "anchors": ["datadog/converter.go: Sink, submitTraces"]}
{"id": "C138", "title": "A span that is received again is sent once", "statement": "If a span is received several times, as Kafka delivers some messages again after a rebalance, it is sent once.", "quantifier": "All histories of the collector, all spans.", "why_tests_cant": "Tests do not deliver spans again after their trace was sent.", "anchors": ["correct.go: ErrorCorrectSpans, finishTraces", "balance/receiver.go: ConsumeClaim"]}
{"id": "C139", "title": "Spans as the API of Zipkin describes them are accepted", "statement": "A request of version 2 whose body is a JSON array of spans as the published schema describes them is accepted, and as many spans are received as there are elements: trace ids of 16 to 32 hexadecimal digits, ids of 16, timestamps and durations of digits, strings, endpoints and tags; additional members may be anything.", "quantifier": "All documents of the JSON standard that conform to the schema, all ways to write them.", "why_tests_cant": "Tests have a few documents; the schema allows trace ids of 128 bits, members in any order, unknown members of any depth.", "anchors": ["codec/json-v2.go: ParseJsonV2, idValueDecoder", "proxy/id.go: ParseId"]}
{"id": "C140", "title": "Spans as version 1 of the API of Zipkin describes them are accepted", "statement": "A request of version 1 whose body is a JSON array of spans as the published schema describes them is accepted, whatever was decoded before, and as many spans are received as there are elements: trace ids of 16 to 32 hexadecimal digits, any number of annotations, binary annotations whose values are strings, numbers or booleans, additional members of any kind.", "quantifier": "All documents of the JSON standard that conform to the schema, all ways to write them, all states of the memory that is used again.", "why_tests_cant": "Tests have a few documents, and each begins with fresh memory.", "anchors": ["codec/json-v1.go: ParseJsonV1, spanV1ValueDecoder", "codec/json-v2.go: idValueDecoder", "proxy/id.go: ParseId"]}
{"id": "C141", "title": "The gauges say how much is pending, the histogram how large traces were", "statement": "After every tick, the gauges for spans and traces in flight are the numbers of spans and traces that are pending. The histogram of sizes receives, once and in order, the number of spans of every trace that left as sent, too large, too old or without root, and of no other.", "quantifier": "All reachable states, all ticks, all orders of iteration.", "why_tests_cant": "The gauges are wrong only at the ticks that remove something, and a test reads them after it has waited.", "anchors": ["correct.go: finishTraces, discardSuspiciousTraces"]}
{"id": "C142", "title": "Requests of moderate size do not stop ingestion", "statement": "With Kafka in between: no accepted request with at most 250 KiB after decompression makes a span whose message is larger than the producer takes (such a message stops ingestion for good, C70). So as long as all requests have at most this size, everything that was accepted gets to Kafka and every request gets its answer.", "quantifier": "All bodies in the three formats, all ways to deliver them, all histories of the pooled memory, all schedules.", "why_tests_cant": "The size of a message depends on what is left in pooled memory by earlier requests and on the sizes of lengths; a test has one sequence of requests.", "anchors": ["main.go: MainWithRouting", "balance/sender.go: sendSpan", "codec/json-v1.go: ParseJsonV1", "codec/json-v2.go: ParseJsonV2", "codec/jaeger.go: ParseJaeger"]}
{"id": "C143", "title": "Logging traces does not keep them from Datadog", "statement": "Whatever the configuration of logs: every batch that the sender is done with was given to the transport in one call, with all its spans, and the line that says that it is being sent is true. The sender takes all batches that are not discarded, in order.", "quantifier": "All schedules of sink and sender, all traces, all orders of maps, any outcome of the transport, all values of DD_LOG_TRACES.", "why_tests_cant": "Tests do not run with the variable set, and what is not sent does not show in the log.", "anchors": ["datadog/converter.go: submitTraces, Sink"]}
{"id": "C144", "title": "Headers of requests are understood as HTTP defines them", "statement": "A request with JSON whose headers say so is handled as its body demands, decompressed first if the headers say that it is compressed by gzip; a request of version 1 that is announced as something else than JSON is refused. Names of types and of codings are compared without regard to case, and parameters of types do not matter.", "quantifier": "All requests: all header values, all bodies, all ways to deliver them.", "why_tests_cant": "Clients of the tests spell headers in the usual way.", "anchors": ["handlers.go: handleSpans, handleGzipRequestBody"]}
{"id": "C145", "title": "Stopping a proxy loses nothing that it accepted", "statement": "When the server returns and the process ends, every trace of spans that were accepted (202) was given to the transport, or dropped for a reason. With Kafka, a span whose message was marked was.", "quantifier": "All executions of all goroutines with any clock, all requests, all converters, all moments to stop.", "why_tests_cant": "What a stop loses depends on where the spans are at that moment, and on times of up to a minute.", "anchors": ["main.go: MainWithRouting", "datadog/converter.go: Sink, submitTraces", "correct.go: ErrorCorrectSpans", "balance/receiver.go: Consume"]}
{"id": "C146", "title": "Decoding a document in memory", "statement": "A decoder over a slice (NewWithBytes) returns for every document, gives what it gives for the same bytes from a reader, and leaves the slice as it was, so that it can be decoded again.", "quantifier": "All decoders that look at a byte only after having made sure that there is one (in particular those for lists of spans), all documents.", "why_tests_cant": "A reader with a small buffer fails where a slice does not, and which bytes are overwritten depends on the escapes in the document.", "anchors": ["codec/hyperjson/parser.go: NewWithBytes, bufferMore, require, ReadString", "codec/hyperjson/string.go: decodeStringInPlace"]}
{"id": "C147", "title": "How long it takes with Kafka until a trace is with Datadog", "statement": "With any number of proxies that share a topic, if writing to the topic, reading from it and the other work are done within given delays and the ticks come in given periods, then a request that parses is answered within the delay for writing; each of its spans is with the collector of the proxy to which the partition of its trace is assigned within the delays for writing, reading and work, unchanged; 40 seconds and a period later at the latest it has left that collector; and all that the collector finished until then was, after 1.8 seconds, a period of the sink, the delay for work and nine calls of the transport, given to the transport in whole traces, or discarded because eight batches were waiting.", "quantifier": "All executions, all numbers of proxies, assignments of partitions, requests, delays, periods, clocks that do not go back.", "why_tests_cant": "The times depend on the interleaving of several processes and the broker.", "anchors": ["main.go: MainWithRouting", "balance/sender.go: NewSender, sendSpan", "balance/receiver.go: ConsumeClaim, decodeKafkaMessage", "handlers.go: handleSpans", "correct.go: ErrorCorrectSpans, finishTraces", "datadog/converter.go: Sink, submitTraces"]}
{"id": "C148", "title": "A trace that is posted in pieces is with Datadog, in one, in time", "statement": "If everybody is in time and the spans of a healthy trace are posted, in any pieces to any of the proxies, within 2 seconds less the delays on the way and a period of the ticks of the collector, and meanwhile at most 100000 spans wait in the proxy to which its partition is assigned, then at most 9.8 seconds and the delays after the last piece was posted that proxy has given exactly these spans to the transport in one call as one trace, or has discarded the batch they are in because eight were waiting; no other call, before or after, has a span of it, and no other proxy sends any. The same holds for one proxy without Kafka.", "quantifier": "All executions, all numbers of proxies, assignments, healthy traces, ways to divide them into requests, delays, periods, clocks that do not go back.", "why_tests_cant": "Needs the times of several processes and ten seconds; a test sees one schedule.", "anchors": ["handlers.go: handleSpans", "balance/sender.go: NewSender, sendSpan", "balance/receiver.go: ConsumeClaim", "correct.go: ErrorCorrectSpans, finishTraces", "datadog/converter.go: Sink, submitTraces", "main.go: MainWithRouting"]}
{"id": "C149", "title": "Under which load a trace that is posted in pieces is with Datadog for certain", "statement": "If everybody is in time and at most 4000 spans are posted to a proxy in any 40 s + 1 ns + p1 + 2 d (p1 between the ticks of the collector, d for the goroutines to have nothing left to do), and in longer periods at most one more for each e of the rest, where a call of the transport takes at most c with c (5.4 s + 2000 e) < 3600 s e, then at most 4000 spans ever wait in the collector and no batch is discarded: the spans of every healthy trace that are posted, in any pieces, within 2 s - d - p1 are at most 9.8 s and the delays later in exactly one call of the transport, as one trace, and in no other. With Kafka and several proxies the same holds for the proxy to which the partition of the trace is assigned, if the bound holds for what its collector receives, and no other proxy sends anything of it.", "quantifier": "All executions, all numbers of proxies, assignments, healthy traces, ways to divide them into requests, other requests within the load, delays, periods, clocks that do not go back.", "why_tests_cant": "A promise about every trace under every schedule and every arrival of other requests within the bound.", "anchors": ["handlers.go: handleSpans", "balance/sender.go: NewSender, sendSpan", "balance/receiver.go: ConsumeClaim", "correct.go: ErrorCorrectSpans, finishTraces", "datadog/converter.go: Sink, submitTraces", "main.go: MainWithRouting"]}
{"id": "C150", "title": "An even load below the capacity of Datadog", "statement": "If spans come evenly, in traces of one span each, at half the rate at which the sender can hand them to Datadog (500 in every 100 ms, calls of 100 ms for batches of 1000), then no batch is discarded.", "quantifier": "All executions of all goroutines without Kafka, with any clock and any requests that keep to this rate.", "why_tests_cant": "It is the change of the buffer time with the load that bundles what came evenly: it shows only after 8 seconds under a load of thousands of spans per second, and depends on when the ticks come.", "anchors": ["correct.go: ErrorCorrectSpans, finishTraces", "datadog/converter.go: Sink, submitTraces"]}
{"id": "C151", "title": "Rebalancing does not divide traces", "statement": "With Kafka, the spans of a trace, posted in any pieces to any proxies, are sent to Datadog by one proxy, in one call as one trace, also if proxies crash, start and partitions move from one proxy to another.", "quantifier": "All executions of any number of proxies with any number of partitions, and all upheavals: crashes, new proxies, revoked and assigned partitions, repeated messages.", "why_tests_cant": "Whether the spans of a trace meet in one proxy depends on where the partition is while they are posted and read. A test has no group of consumers that is rebalanced between two given messages.", "anchors": ["balance/receiver.go: Consume, ConsumeClaim", "balance/sender.go: NewSender", "correct.go: ErrorCorrectSpans"]}
{"id": "C152", "title": "Messages that wait in the topic are processed", "statement": "A message that Kafka has when a proxy is assigned its partition, and that no proxy has processed, is handed to the callback or reported.", "quantifier": "All histories of a partition: messages written, old ones deleted, claims by any proxies, marks, commits at any time, crashes at any point.", "why_tests_cant": "Where a claim starts is decided by a default of the library, and matters only if a proxy crashes before the first commit or all proxies are down for longer than the retention.", "anchors": ["balance/receiver.go: Consume, ConsumeClaim", "main.go: MainWithRouting"]}
{"id": "C153", "title": "A message that cannot be decoded is reported once", "statement": "For every message that ConsumeClaim cannot decode there is exactly one warning in the logs of all proxies.", "quantifier": "All histories of a partition: messages written, old ones deleted, claims by any proxies, marks, commits at any time, crashes at any point.", "why_tests_cant": "How often a message is read depends on what was marked and committed before the partition moves to another proxy.", "anchors": ["balance/receiver.go: ConsumeClaim"]}
{"id": "C154", "title": "After an outage of Kafka everything goes on", "statement": "If Kafka cannot be reached for some time, then afterwards the spans of all accepted requests get into the topic, each partition in the order in which they were sent, and every request is answered.", "quantifier": "All histories of a proxy in front of Kafka: any requests, any interleaving of handlers, sender, dispatcher and the goroutines of the producer, any number of outages at any times.", "why_tests_cant": "The result depends on whether a goroutine of the producer gives up a message during the outage, and shows only after hundreds of further spans of the same partition.", "anchors": ["balance/sender.go: NewSender, Send, sendSpan", "main.go: MainWithRouting"]}
{"id": "C155", "title": "The span that BinaryDecode returns together with an error", "statement": "When BinaryDecode returns an error, the span that it returns has exactly the fields before the first one that could not be read, and all others are zero; there are never tags, not even those that had been read. What is there does not change with bytes that follow, whether they complete the message or lead to an error later. For a message of BinaryEncode that is cut at any byte these are exactly the fields all bytes of which are before the cut.", "quantifier": "All inputs and all continuations of them; all spans whose texts and tags have lengths that BinaryDecode accepts, all orders of their tags, all cuts.", "why_tests_cant": "All places at which an input can end, in every field, and all inputs that are refused elsewhere.", "anchors": ["codec/binary.go: BinaryDecode, readMapString, readString, readLong, BinaryEncode"]}
{"id": "C156", "title": "The log tells which partitions a proxy reads", "statement": "At the level Debug, the log of a proxy with Kafka tells at any time which partitions it reads, and from which one a message comes that cannot be decoded; each session that ends with an error is in it once.", "quantifier": "All executions of the consumer: any sessions, generations, claims, orders of the map of claims, messages, errors of the library, and all levels of the logger.", "why_tests_cant": "Two states with the same log have to be compared, and the order of the lines depends on the iteration over a map.", "anchors": ["balance/receiver.go: Consume, Setup, Cleanup, ConsumeClaim"]}
{"id": "C157", "title": "Encoding spans for Kafka takes memory in proportion to what is sent", "statement": "All bytes that were ever allocated to build Kafka messages, those that became garbage included, are at most six times the size of the keys and values that were sent, plus 32 KB for each encoder; as long as no message is larger than 510 bytes, the overhead is at most one byte in 62. For the slice headers it is two for each message and at most 1022 for each encoder. A message that is not released keeps from being collected: one block of 32 KB however small the message is, at most three times the size of the message more if its value did not fit there, and one block of 1024 slice headers.", "quantifier": "All histories of the pool of encoders: any number of encoders, created and used in any order, and any spans.", "why_tests_cant": "All interleavings of encoders, all sequences of sizes of spans, and all sizes at which the value leaves the shared block.", "anchors": ["balance/encoder.go: Encode, makeProducerMessage, encoder", "codec/binary.go: BinaryEncode, writeLong"]}
{"id": "C158", "title": "The partitions of the topic get even shares of the traces", "statement": "Every message goes to an existing partition that its trace id alone decides, and each of the 12 partitions that main.go asks for gets between 7.4 and 9.4 percent of all trace ids (a twelfth is 8.3 percent), and between 6.2 and 10.2 percent of those that are positive as signed numbers. More generally, for all numbers of partitions that are coprime to the prime of the hash, and whatever the lower 56 bits of the id are, each partition gets its share of the values of the highest byte up to less than three. There are regular sets of ids that are not spread like this: if the number of partitions is even, the number of odd bytes of the id decides whether the partition is even, so that ids that consist of the same 32 bits twice only get to odd partitions.", "quantifier": "All trace ids, all numbers of partitions.", "why_tests_cant": "There are 2 ^ 64 trace ids; counting them takes a proof.", "anchors": ["balance/encoder.go: Encode", "main.go: MainWithRouting"]}
{"id": "C159", "title": "Proxies that share a topic get even shares of the traces", "statement": "Every partition is read by exactly one of the proxies of a group, and the numbers of partitions that two proxies read differ by one at most. With the 12 partitions that main.go asks for, k proxies and any of them: of all trace ids it gets at least 7.4 percent times 12/k rounded down, and at most 9.4 percent times 12/k rounded up. Up to 12 proxies all get a part; any further ones get nothing, since then each reads one partition at most.", "quantifier": "All numbers of proxies, all trace ids; for the number of partitions of each also all numbers of partitions.", "why_tests_cant": "There are 2 ^ 64 trace ids, and all sizes of a group.", "anchors": ["main.go: MainWithRouting", "balance/encoder.go: Encode", "balance/receiver.go: Consume"]}
{"id": "C160", "title": "Ids are only names", "statement": "If all spans are told with other ids for traces and spans, such that different ids remain different, 0 remains 0, and a span whose id is that of its trace remains such a span, then the same traces leave the collector at the same time for the same reasons, and the spans that are sent are the same up to the ids and the order within their trace. So neither the size of ids nor the order they induce has an influence on anything else.", "quantifier": "All histories of the collector, all such renamings (for each trace another one), all orders of maps.", "why_tests_cant": "Spans are kept sorted by id and looked up by binary search, and roots and children are visited in this order; tests use a few small ids, in ascending order.", "anchors": ["correct.go: ErrorCorrectSpans, finishTraces, AddSpan, GetSpanRef, Append, Roots, ChildrenOf, createFakeRoot, correctTreeTimings, discardSuspiciousTraces"]}
{"id": "C161", "title": "How a span is shown is decided by the spans above it", "statement": "Two traces are sent with the same root, at different times or by different proxies. If a span and all spans above it up to the root were received for both, with the same outcome of merging the reports of each, then the span is sent with the same parent, name, service, start, duration, timings and tags both times, whatever other spans belong to one of the traces, also if these are known to have other clocks.", "quantifier": "All histories of two collectors, all traces they sent, all spans that descend from the root.", "why_tests_cant": "The correction walks the whole tree and changes spans in place; a test compares one tree with one result, and not all trees that share a path.", "anchors": ["correct.go: correctTreeTimings, ChildrenOf, GetSpanRef, ErrorCorrectSpans, finishTraces"]}
{"id": "C162", "title": "A wrong clock of the proxy changes nothing", "statement": "If all readings of the clock of a proxy are later or earlier by the same amount, the same traces leave the collector in the same order for the same reasons with exactly the same spans, the same spans are refused, and the meters show the same. So the clock of the proxy is never compared with times that other hosts put into spans, only with itself, and traces of hosts whose clocks are far from that of the proxy are handled like others.", "quantifier": "All histories of the collector, all amounts, all orders of maps.", "why_tests_cant": "A test runs with one clock, which is right, and with spans whose times come from it.", "anchors": ["correct.go: ErrorCorrectSpans, finishTraces, newTree, AddSpan, createFakeRoot, discardSuspiciousTraces"]}
{"id": "C163", "title": "Decoders write only the field that they are for", "statement": "The decoders of JSON get untyped addresses: the address of a struct plus the offset of a field, or of an array plus the index times the size of an element. Every offset, size and type that is given to them is right: after decoding, the memory holds, with the types that Go expects, exactly the spans that the document describes, and all memory outside the target is as before, so no field, no neighbour in the array and nothing next to the slice is overwritten. That holds at any time of decoding, also if an error ends it, for fresh memory as well as for memory that is used again.", "quantifier": "All bodies, addresses, contents of memory, capacities and states of the parser.", "why_tests_cant": "The compiler does not check types behind unsafe.Pointer; a wrong offset or type only damages memory if the field occurs in a document, and may show up elsewhere and later.", "anchors": ["codec/hyperjson/bind.go: MakeStructDecoder, MakeSliceDecoder, MakeArrayDecoder, MakeMapDecoder, Uint64ValueDecoder, StringValueDecoder, OffsetOf", "codec/json.go: anyValueDecoder, endpointValueDecoder", "codec/json-v1.go: spanV1ValueDecoder, decoderSliceSpanV1", "codec/json-v2.go: idValueDecoder, spanV2ValueDecoder, decoderSliceSpanV2"]}
{"id": "C164", "title": "What the collector does is decided by what it receives", "statement": "If two collectors receive the same spans at the same times and have their ticks at the same times, the same traces leave them for the same reasons with the same spans, and the same spans are refused. Go iterates over maps in random orders, and sort.Slice is not stable; neither has an influence, except on the order in which the traces of a tick are sent.", "quantifier": "All histories of the collector, all pairs of orders of all maps.", "why_tests_cant": "Orders of maps are random, so that a test sees few of them, and the same test may succeed and fail.", "anchors": ["correct.go: ErrorCorrectSpans, finishTraces, discardSuspiciousTraces"]}
{"id": "C165", "title": "A tick leaves nothing undone", "statement": "After each tick, no pending trace is too large, too old or idle by the clock of this tick, at most 100000 spans are counted as pending and at most 1023 traces are blocked. Therefore a second tick at the same time finds nothing to do: no trace leaves, and pending and blocked are the same as before.", "quantifier": "All reachable states, ticks, readings of the clock and orders of iteration.", "why_tests_cant": "A trace that is overlooked at a tick leaves at a later one, so that tests of the final result do not show it.", "anchors": ["correct.go: finishTraces, discardSuspiciousTraces"]}
{"id": "C166", "title": "References to spans are valid, and what was sent is not touched any more", "statement": "The spans of a trace are in an array that moves when it grows, and are changed through pointers into it; a trace is sent without copying it, and the receiver overwrites it in place. With arrays and pointers the collector does the same as if traces were lists of spans: every pointer is used only as long as it points to the span it was made for, no index is out of range, no array belongs to two traces, and an array that was sent is never read or written again by the collector, whatever the receivers write to it.", "quantifier": "All sequences of spans and ticks, growths of arrays, contents of memory, and writes of other goroutines to arrays that are not those of pending traces.", "why_tests_cant": "A pointer to a span that has moved shows only if the array grew between two uses, and sharing shows only if the goroutines meet.", "anchors": ["correct.go: AddSpan, GetSpanRef, Append, Roots, ChildrenOf, createFakeRoot, correctTreeTimings, finishTraces, ErrorCorrectSpans, discardSuspiciousTraces", "main.go: forwardSpansToChannels"]}
{"id": "C167", "title": "The targets see what the collector sent, though all share one memory", "statement": "A finished trace is the slice of the collector itself: it is not copied on its way to the targets, the forwarder overwrites it in place with the converted spans, and all targets read the same array, at any time, while the collector receives other spans, moves them and sends other traces. Nevertheless every target reads exactly the converted traces of the collector in the order in which they were sent, and the pending traces hold exactly the spans that were received; nobody has a slice of an array of a pending trace; when nothing is on the way, every target has everything.", "quantifier": "All interleavings of spans, ticks, steps of the forwarder and of the targets, growths of arrays, converters with a state, numbers and capacities of targets.", "why_tests_cant": "A shared array shows only if the writer is at work while another goroutine reads.", "anchors": ["main.go: forwardSpansToChannels", "correct.go: ErrorCorrectSpans, finishTraces, AddSpan, Append"]}
{"id": "C168", "title": "A converter may write to the tags of its span", "statement": "The converter gets a copy of the span, but the map with its tags is the map of the span: a converter that calls AddTag writes to it in place. This changes the tags of no other span: the targets read exactly the spans that the converter gave for each span, whenever they read them, and pending spans and spans that wait for the forwarder have exactly the tags that they were received with. No map of a span that the targets have is written again.", "quantifier": "All histories of the collector, interleaved in any way with the steps of the forwarder, all iteration orders of maps; all converters that keep a state, write anything to the map of their span (also if they then give an error), and give the same map, a new one or none.", "why_tests_cant": "A map that two spans share shows only if a converter writes to it between two reads of another goroutine.", "anchors": ["main.go: forwardSpansToChannels, SpanConverter", "proxy/span.go: AddTag", "correct.go: mergeSpansInPlace, finishTraces", "pkg/example/main.go: main"]}
