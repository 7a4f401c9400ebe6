import Verif.Model.Json
import Verif.Model.Lru

/-!
# What the tests of the project expect

The inputs and the expected results of the tests in /repo, copied from there.
-/

namespace Verif.Spec

/-- codec/json-v1_test.go:67-108 `encodedJsonV1`. -/
def encodedJsonV1 : Str :=
  b!"[\n" ++
  b!"\t\t{\n" ++
  b!"\t\t\t\"traceId\": \"beaf\",\n" ++
  b!"\t\t\t\"id\": \"dead\",\n" ++
  b!"\t\t\t\"parentId\": \"beaf\",\n" ++
  b!"\n" ++
  b!"\t\t\t\"name\": \"span name\",\n" ++
  b!"\n" ++
  b!"\t\t\t\"timestamp\": 1560276900000000,\n" ++
  b!"\t\t\t\"duration\": 50000,\n" ++
  b!"\n" ++
  b!"\t\t\t\"annotations\": [\n" ++
  b!"\t\t\t\t{\n" ++
  b!"\t\t\t\t\t\"timestamp\": 1560276970000000,\n" ++
  b!"\t\t\t\t\t\"value\": \"cs\",\n" ++
  b!"\t\t\t\t\t\"endpoint\": {\"serviceName\": \"my-service\"}\n" ++
  b!"\t\t\t\t},\n" ++
  b!"\t\t\t\t{\n" ++
  b!"\t\t\t\t\t\"timestamp\": 1560276971000000,\n" ++
  b!"\t\t\t\t\t\"value\": \"cr\",\n" ++
  b!"\t\t\t\t\t\"endpoint\": {\"serviceName\": \"my-service\"}\n" ++
  b!"\t\t\t\t}\n" ++
  b!"\t\t\t],\n" ++
  b!"\n" ++
  b!"\t\t\t\"binaryAnnotations\": [\n" ++
  b!"\t\t\t\t{\n" ++
  b!"\t\t\t\t\t\"key\": \"http.path\",\n" ++
  b!"\t\t\t\t\t\"value\": \"/my/path\", \n" ++
  b!"\t\t\t\t\t\"endpoint\": {\n" ++
  b!"\t\t\t\t\t\t\"serviceName\": \"my-service\"\n" ++
  b!"\t\t\t\t\t}\n" ++
  b!"\t\t\t\t},\n" ++
  b!"\t\t\t\t{\n" ++
  b!"\t\t\t\t\t\"key\": \"http.status\",\n" ++
  b!"\t\t\t\t\t\"value\": 404, \n" ++
  b!"\t\t\t\t\t\"endpoint\": {\n" ++
  b!"\t\t\t\t\t\t\"serviceName\": \"my-service\"\n" ++
  b!"\t\t\t\t\t}\n" ++
  b!"\t\t\t\t}\n" ++
  b!"\t\t\t]\n" ++
  b!"\t\t}\n" ++
  b!"\t]"

/-- codec/json-v1_test.go:20-45. -/
def expectedV1 : Span where
  id := 0xdead
  trace := 0xbeaf
  parent := 0xbeaf
  name := b!"span name"
  service := b!"my-service"
  timestamp := 1560276970000000000
  duration := 1000000000
  tags := some (((∅ : TagMap).insert b!"http.path" b!"/my/path").insert b!"http.status" b!"404" |>.insert b!"protocolVersion" b!"json v1")
  timings := { CS := 1560276970000000000, CR := 1560276971000000000 }

/-- codec/json-v2_test.go:57-79 `encodedJsonV2`. -/
def encodedJsonV2 : Str :=
  b!"[\n" ++
  b!"\t\t{\n" ++
  b!"\t\t\t\"traceId\": \"beaf\",\n" ++
  b!"\t\t\t\"id\": \"dead\",\n" ++
  b!"\t\t\t\"parentId\": \"beaf\",\n" ++
  b!"\n" ++
  b!"\t\t\t\"name\": \"span name\",\n" ++
  b!"\n" ++
  b!"\t\t\t\"localEndpoint\": {\n" ++
  b!"\t\t\t\t\"serviceName\": \"my-service\"\n" ++
  b!"\t\t\t},\n" ++
  b!"\n" ++
  b!"\t\t\t\"tags\": {\n" ++
  b!"\t\t\t\t\"http.path\": \"/my/path\",\n" ++
  b!"\t\t\t\t\"http.status\": \"404\"\n" ++
  b!"\t\t\t},\n" ++
  b!"\n" ++
  b!"\t\t\t\"kind\": \"CLIENT\",\n" ++
  b!"\n" ++
  b!"\t\t\t\"timestamp\": 1560276970000000,\n" ++
  b!"\t\t\t\"duration\": 50000\n" ++
  b!"\t\t}\n" ++
  b!"\t]"

/-- codec/json-v2_test.go:20-41. -/
def expectedV2 : Span where
  id := 0xdead
  trace := 0xbeaf
  parent := 0xbeaf
  name := b!"span name"
  service := b!"my-service"
  timestamp := 1560276970000000000
  duration := 50000000
  tags := some (((∅ : TagMap).insert b!"http.path" b!"/my/path").insert b!"http.status" b!"404" |>.insert b!"protocolVersion" b!"json v2")
  timings := { CS := 1560276970000000000, CR := 1560276970050000000 }

/-- codec/jaeger_test.go:44-99 `encodedJaeger`. -/
def encodedJaeger : Str :=
  b!"\n" ++
  b!"{\n" ++
  b!"    \"data\": [\n" ++
  b!"        {\n" ++
  b!"            \"traceID\": \"dead\",\n" ++
  b!"            \"spans\": [\n" ++
  b!"                {\n" ++
  b!"                    \"traceID\": \"dead\",\n" ++
  b!"                    \"spanID\": \"beaf\",\n" ++
  b!"                    \"operationName\": \"getconnection\",\n" ++
  b!"                    \"references\": [\n" ++
  b!"                        {\n" ++
  b!"                            \"refType\": \"CHILD_OF\",\n" ++
  b!"                            \"traceID\": \"dead\",\n" ++
  b!"                            \"spanID\": \"aaaa\"\n" ++
  b!"                        }\n" ++
  b!"                    ],\n" ++
  b!"                    \"startTime\": 1560276970000000,\n" ++
  b!"                    \"duration\": 1000000,\n" ++
  b!"                    \"tags\": [\n" ++
  b!"                        {\n" ++
  b!"                            \"key\": \"component\",\n" ++
  b!"                            \"type\": \"string\",\n" ++
  b!"                            \"value\": \"postgres\"\n" ++
  b!"                        },\n" ++
  b!"                        {\n" ++
  b!"                            \"key\": \"internal.span.format\",\n" ++
  b!"                            \"type\": \"string\",\n" ++
  b!"                            \"value\": \"zipkin\"\n" ++
  b!"                        },\n" ++
  b!"                        {\n" ++
  b!"                            \"key\": \"span.kind\",\n" ++
  b!"                            \"type\": \"string\",\n" ++
  b!"                            \"value\": \"client\"\n" ++
  b!"                        }\n" ++
  b!"                    ],\n" ++
  b!"                    \"logs\": [],\n" ++
  b!"                    \"processID\": \"p1\",\n" ++
  b!"                    \"warnings\": null\n" ++
  b!"                }\n" ++
  b!"            ],\n" ++
  b!"            \"processes\": {\n" ++
  b!"                \"p1\": {\n" ++
  b!"                    \"serviceName\": \"core-services\",\n" ++
  b!"                    \"tags\": []\n" ++
  b!"                }\n" ++
  b!"            },\n" ++
  b!"            \"warnings\": null\n" ++
  b!"        }\n" ++
  b!"    ],\n" ++
  b!"    \"total\": 0,\n" ++
  b!"    \"limit\": 0,\n" ++
  b!"    \"offset\": 0,\n" ++
  b!"    \"errors\": null\n" ++
  b!"}\n" ++
  b!""

/-- codec/jaeger_test.go:19-41. -/
def expectedJaeger : Span where
  id := 0xbeaf
  trace := 0xdead
  parent := 0xaaaa
  name := b!"getconnection"
  service := b!"core-services"
  timestamp := 1560276970000000000
  duration := 1000000000
  tags := some ((∅ : TagMap).insert b!"lc" b!"postgres" |>.insert b!"protocolVersion" b!"jaeger")
  timings := { CS := 1560276970000000000, CR := 1560276971000000000 }

/-- codec/binary_test.go:11-36 `binaryTestSpan`. -/
def binaryTestSpan : Span where
  id := 0xdead
  trace := 0xbeaf
  parent := 0xbeaf
  name := b!"span name"
  service := b!"my-service"
  timestamp := 1560276970000000000
  duration := 1000000000
  tags := some ((∅ : TagMap).insert b!"http.path" b!"/my/path" |>.insert b!"protocolVersion" b!"json v1")
  timings := { CS := 1560276970000000000, CR := 1560276971000000000, SR := 1560276972000000000, SS := 1560276973000000000 }

/-- codec/hyperjson/parser_test.go:90-106 `jsonString`. -/
def jsonString : Str :=
  b!"\n" ++
  b!"{\n" ++
  b!"\t\"number\": 123,\n" ++
  b!"\t\"numberZero\": 0,\n" ++
  b!"\t\"boolean\": true,\n" ++
  b!"\t\"nullValue\": null,\n" ++
  b!"\t\"object\": {\n" ++
  b!"\t\t\"name\": \"name as string\",\n" ++
  b!"\t\t\"age\": 43,\n" ++
  b!"\t\t\"adult\": true\n" ++
  b!"\t},\n" ++
  b!"\t\"arrayWithNumbers\": [1, 2, 3],\n" ++
  b!"\t\"simple string\": \"some simple string\",\n" ++
  b!"\t\"string with escaped quote\": \"The pharse \\\"hello world\\\" is used very often.\",\n" ++
  b!"\t\"string with backslash\": \"the symbol '\\\\' is a backslash.\",\n" ++
  b!"\t\"string with unicode\": \"This is a bullet: \\u2022, and this is a triangle: \\u2023\"\n" ++
  b!"}"

/-- codec/hyperjson/parser_test.go:68-77: `json.Compact` of the text. -/
def jsonStringCompact : Str :=
  b!"{\"number\":123,\"numberZero\":0,\"boolean\":true,\"nullValue\":null,\"object\":{\"name\":\"name as string\",\"age\":43,\"adult\":true},\"arrayWithNumbers\":[1,2,3],\"simple string\":\"some simple string\",\"string with escaped quote\":\"The pharse \\\"hello world\\\" is used very often.\",\"string with backslash\":\"the symbol '\\\\' is a backslash.\",\"string with unicode\":\"This is a bullet: \\u2022, and this is a triangle: \\u2023\"}"

/-- codec/hyperjson/parser_test.go:79-88: `json.Indent` of the text. -/
def jsonStringIndented : Str :=
  b!"{\n" ++
  b!"  \"number\": 123,\n" ++
  b!"  \"numberZero\": 0,\n" ++
  b!"  \"boolean\": true,\n" ++
  b!"  \"nullValue\": null,\n" ++
  b!"  \"object\": {\n" ++
  b!"    \"name\": \"name as string\",\n" ++
  b!"    \"age\": 43,\n" ++
  b!"    \"adult\": true\n" ++
  b!"  },\n" ++
  b!"  \"arrayWithNumbers\": [\n" ++
  b!"    1,\n" ++
  b!"    2,\n" ++
  b!"    3\n" ++
  b!"  ],\n" ++
  b!"  \"simple string\": \"some simple string\",\n" ++
  b!"  \"string with escaped quote\": \"The pharse \\\"hello world\\\" is used very often.\",\n" ++
  b!"  \"string with backslash\": \"the symbol '\\\\' is a backslash.\",\n" ++
  b!"  \"string with unicode\": \"This is a bullet: \\u2022, and this is a triangle: \\u2023\"\n" ++
  b!"}"

/-- codec/hyperjson/parser_test.go:41-66: the tokens that the test reads. -/
def expectedTokens : List Str :=
  [b!"number", b!"123", b!"numberZero", b!"boolean", b!"true", b!"nullValue", b!"null", b!"object", b!"arrayWithNumbers",
   b!"simple string", b!"some simple string",
   b!"string with escaped quote", b!"The pharse \"hello world\" is used very often.",
   b!"string with backslash", b!"the symbol '\\' is a backslash.",
   b!"string with unicode", b!"This is a bullet: \u2022, and this is a triangle: \u2023"]

/-- `fmt.Sprintf("%016d", n)`, for at most 16 digits. -/
def sixteenDigits (n : Nat) : Str := (List.range 16).map fun k => UInt8.ofNat (48 + n / 10 ^ (15 - k) % 10)

/-- cache/lru_test.go:12-14 `format`. -/
def lruTestString (n : Nat) : Str := (List.replicate 16 (sixteenDigits n)).flatten

/-- correct_test.go:119-139 `threeSpans`. -/
def threeSpans (cs cr sr ss : Timestamp) : List Span :=
  let offset : Timestamp := 100000000
  [ { id := 1, trace := 1, parent := 1, timestamp := cs, duration := cr - cs, timings := { CS := cs, CR := cr } },
    { id := 2, trace := 1, parent := 1, timestamp := cs, duration := cr - cs, timings := { CS := cs, CR := cr } },
    { id := 2, trace := 1, parent := 1, timestamp := sr + offset, duration := ss - sr, timings := { SR := sr + offset, SS := ss + offset } },
    { id := 3, trace := 1, parent := 2, timestamp := sr + offset, duration := ss - sr, timings := { SR := sr + offset, SS := ss + offset } } ]

end Verif.Spec
