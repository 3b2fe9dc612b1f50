{"id": "C01", "title": "Unmarshal is total and never panics", "statement": "Unmarshal, UnmarshalNoCopy and UnmarshalString return on every input: either a value and a nil error, or an error. They never index outside the input, never slice out of range, and never loop forever.", "quantifier": "every byte slice, of any length, valid JSON or not, including truncated escapes, truncated UTF-8 and unbalanced brackets", "why_tests_cant": "the parser is a hand written index machine that looks ahead 1, 5 and 11 bytes and rewrites its own buffer; the set of inputs is infinite and a fuzzer only samples it", "anchors": ["unmarshal.go:unmarshalWithIter", "unmarshal.go:parseStrFromBytesForwardWithQuote", "unmarshal.go:handleEscapeUnicodeStartWithEnd", "unmarshal.go:iter.parseNumber", "jsonvalue.go:UnmarshalNoCopy"]}
{"id": "C02", "title": "Standard JSON is accepted with its standard meaning", "statement": "Unmarshal of an RFC 8259 text (surrogate escapes paired, numbers inside the documented int64/uint64/float64 range) succeeds and the resulting value has the structure, strings, booleans, nulls and number texts the text denotes; of repeated keys the last one is kept.", "quantifier": "every RFC 8259 document, any nesting depth, any whitespace placement, any escape spelling", "why_tests_cant": "the grammar is infinite and recursive; tests only contain a few dozen documents", "anchors": ["unmarshal.go:unmarshalWithIter", "unmarshal.go:unmarshalArrayWithIterUnknownEnd", "unmarshal.go:unmarshalObjectWithIterUnknownEnd", "unmarshal.go:skipBlanks"]}
{"id": "C03", "title": "Text that is not JSON is rejected", "statement": "If Unmarshal returns no error, the input was a JSON text: nothing malformed is silently accepted, and no trailing data after the value is ignored.", "quantifier": "every byte slice", "why_tests_cant": "needs the exact set of accepted inputs, i.e. a statement about every rejected and accepted byte string", "anchors": ["unmarshal.go:unmarshalWithIter", "unmarshal.go:unmarshalArrayWithIterUnknownEnd", "unmarshal.go:unmarshalObjectWithIterUnknownEnd", "unmarshal.go:iter.parseNumber"]}
{"id": "C04", "title": "In-place decoding never corrupts a parsed value", "statement": "Strings, keys and number texts handed out by UnmarshalNoCopy alias the input buffer, which the parser rewrites while it goes on; when parsing ends each of them still reads what it read when it was produced. Only bytes inside string literals are changed, whether parsing succeeds or fails: every literal that was read is overwritten from its beginning by its decoded text. A text without a backslash is left as it was. Unmarshal gives the same value as UnmarshalNoCopy and leaves the caller's slice unchanged.", "quantifier": "every input and every interleaving of reads and in-place writes during one parse", "why_tests_cant": "an aliasing bug shows only for particular escape/length combinations before particular later tokens", "anchors": ["unmarshal.go:parseStrFromBytesForwardWithQuote", "unmarshal.go:memcpy", "unmarshal.go:assignASCIICodedRune", "internal/unsafe/unsafe.go:BtoS", "jsonvalue.go:Unmarshal", "jsonvalue.go:UnmarshalNoCopy"]}
{"id": "C05", "title": "Parsed objects are maps: one entry per key, last one wins", "statement": "An object produced by Unmarshal has one member per distinct key. Get(key) gives the member written last in the text, and Len() is the number of distinct keys.", "quantifier": "every accepted object text, any number of members and repetitions", "why_tests_cant": "depends on all orders and multiplicities of keys", "anchors": ["unmarshal.go:unmarshalObjectWithIterUnknownEnd", "set.go:setToObjectChildren", "get.go:Len"]}
{"id": "C06", "title": "An accepted integer literal reads back as its exact value", "statement": "If Unmarshal accepts an integer literal n then Int64()/Uint64() equal n whenever n fits, and a literal that fits in neither int64 nor uint64 is rejected rather than silently wrapped.", "quantifier": "every integer literal of every length", "why_tests_cant": "the accumulator is a wrapping uint64; the wrong inputs are a sparse set of 20 digit numbers", "anchors": ["unmarshal.go:iter.parseNumber", "unmarshal.go:parsePositiveIntResult", "unmarshal.go:parseNegativeIntResult", "jsonvalue.go:Int64", "jsonvalue.go:Uint64"]}
{"id": "C07", "title": "Integers survive a marshal/unmarshal round trip", "statement": "NewInt64(i) marshals to the decimal text of i and unmarshals to a value whose Int64() is i and IsNegative() is i<0; likewise NewUint64(u) and Uint64(), including MinInt64, MaxInt64 and MaxUint64.", "quantifier": "all 2^64 int64 values and all 2^64 uint64 values", "why_tests_cant": "2^64 cases", "anchors": ["new.go:NewInt64", "new.go:NewUint64", "marshal.go:marshalNumber", "unmarshal.go:iter.parseNumber"]}
{"id": "C08", "title": "Strings survive a marshal/unmarshal round trip under every escaping option", "statement": "For a valid UTF-8 string s and any combination of OptUTF8, OptEscapeHTML and OptEscapeSlash, unmarshalling the marshalled NewString(s) gives String() == s. For any byte string the output is a well formed JSON string literal, invalid bytes being replaced by U+FFFD.", "quantifier": "every string, every code point including the supplementary planes, every option combination", "why_tests_cant": "1.1 million code points times positions times options, plus surrogate pair arithmetic", "anchors": ["conv.go:escapeStringToBuff", "conv.go:escapeGreaterUnicodeToBuffByUTF16", "conv.go:escAsciiControlChar", "option.go:parseEscapingFuncs", "unmarshal.go:handleEscapeUnicodeStartWithEnd"]}
{"id": "C09", "title": "Documents survive a marshal/unmarshal round trip", "statement": "For a value made of objects, arrays, valid UTF-8 strings, booleans, nulls and numbers with a JSON text, Unmarshal(v.Marshal(opts)) succeeds and is Equal to v, for every escaping option, every key order option (or none) and any OptIndent whose prefix and indent are blank.", "quantifier": "every value tree, every option combination, every hash map iteration order, every correct sort", "why_tests_cant": "unbounded trees times iteration orders chosen at random by the Go runtime", "anchors": ["marshal.go:marshalToBuffer", "marshal.go:marshalObject", "marshal.go:marshalArray", "unmarshal.go:unmarshalWithIter"]}
{"id": "C10", "title": "What Marshal returns without error is valid JSON", "statement": "If Marshal returns a nil error, the bytes are one RFC 8259 JSON text, so any standard decoder accepts them.", "quantifier": "every value reachable through the API, every option combination, every map iteration order", "why_tests_cant": "commas, braces and error propagation interact with option, order and nesting; only some combinations break", "anchors": ["marshal.go:Marshal", "marshal.go:writeObjectChildren", "marshal.go:marshalArray", "sort.go:marshalObjectWithLessFunc"]}
{"id": "C11", "title": "Escaping guarantees of the output", "statement": "By default Marshal output has no byte >= 0x80, no '<', '>' or '&', and no raw control character or DEL inside strings. With OptUTF8 it never contains U+2028/U+2029 unescaped. OptEscapeHTML(false) and OptEscapeSlash(false) only turn off the named escapes.", "quantifier": "every value whatever bytes its strings and keys hold, every option combination", "why_tests_cant": "a safety claim over all strings; one missed character is an injection hole", "anchors": ["option.go:parseEscapingFuncs", "conv.go:escapeStringToBuff", "conv.go:escapeGreaterUnicodeToBuffByUTF8", "option.go:OptEscapeHTML", "option.go:OptUTF8"]}
{"id": "C12", "title": "NaN and Inf are reported, or replaced as configured", "statement": "With default options Marshal returns an error whenever the value contains a NaN or infinity anywhere; with the OptFloatNaNTo*/OptFloatInfTo* options the configured replacement is emitted in its place, and an invalid replacement is reported.", "quantifier": "every value tree and position of the special number, every option combination", "why_tests_cant": "errors must propagate from arbitrary depth", "anchors": ["marshal.go:marshalNumber", "marshal.go:marshalNaN", "marshal.go:marshalInfP", "marshal.go:marshalInfN", "marshal.go:writeObjectChildren"]}
{"id": "C13", "title": "OptOmitNull removes exactly the null members of objects", "statement": "With OptOmitNull(true) the output decodes to the value with every null object member removed at every depth; array elements and everything else are kept.", "quantifier": "every value tree, every key order", "why_tests_cant": "depends on where nulls fall relative to other members in a random iteration order", "anchors": ["marshal.go:writeObjectChildren", "marshal.go:writeObjectKVInRandomizedSequence", "option.go:OptOmitNull"]}
{"id": "C14", "title": "OptDefaultStringSequence makes the output canonical", "statement": "With OptDefaultStringSequence the output bytes depend only on the contents of the value: two values with the same members give identical bytes whatever order members were set in, whatever the map iteration order and whatever the sorting algorithm; the members appear in ascending byte order of keys.", "quantifier": "every pair of values equal as maps at every level, every iteration order, every correct sort.Sort", "why_tests_cant": "map iteration order is random per run; tests cannot enumerate it", "anchors": ["sort.go:DefaultStringSequence", "sort.go:marshalObjectWithLessFunc", "sort.go:newSortObjectV", "option.go:OptDefaultStringSequence"]}
{"id": "C15", "title": "OptKeySequence puts listed keys first, in list order", "statement": "With OptKeySequence(seq) members whose key is in seq come first, ordered by position in seq (last position for a repeated entry), then the others in ascending key order; the output is independent of map iteration order.", "quantifier": "every value, every sequence, every iteration order", "why_tests_cant": "random iteration order and arbitrary sequences", "anchors": ["sort.go:newSortStringSliceV", "sort.go:sortStringSliceV.Less", "sort.go:marshalObjectWithStringSlice", "option.go:OptKeySequence"]}
{"id": "C16", "title": "OptSetSequence and RangeObjectsBySetSequence follow the order keys were last set", "statement": "After any history of Set, Delete and re-Set on an object, OptSetSequence marshals (and RangeObjectsBySetSequence visits) the members in the order of the last successful Set of each key; for a parsed object, in text order of the last occurrence.", "quantifier": "every history of sets and deletes of any length", "why_tests_cant": "histories are unbounded and the order is kept in a 32 bit counter", "anchors": ["set.go:setToObjectChildren", "sort.go:newSortStringSliceVBySetSeq", "iteration.go:RangeObjectsBySetSequence", "option.go:OptSetSequence"]}
{"id": "C17", "title": "Options combine left to right, the last one winning", "statement": "Among key order options the last given decides; escaping, null, NaN and Inf options are independent of each other and of their position unless they set the same thing; a plain Opt{} resets everything given before it, defaults included; SetDefaultMarshalOptions followed by Marshal equals passing those options first.", "quantifier": "every list of options of any length", "why_tests_cant": "option lists are unbounded sequences", "anchors": ["option.go:combineOptions", "option.go:combineOptionsFrom", "option.go:Opt.mergeTo", "option.go:SetDefaultMarshalOptions"]}
{"id": "C18", "title": "OptIndent changes layout only", "statement": "With OptIndent(prefix, indent), every non-empty container starts each member on a new line beginning with prefix followed by one indent per nesting level, closers one level less, empty containers stay on one line; the indentation level is restored after each container.", "quantifier": "every value tree, any depth, any prefix and indent", "why_tests_cant": "the level is a mutable counter shared by the whole recursion", "anchors": ["marshal.go:marshalObject", "marshal.go:marshalArray", "marshal.go:writeIndent", "option.go:OptIndent"]}
{"id": "C19", "title": "A value that was Set can be Got at the same path", "statement": "If Set(c).At(path...) succeeds then Get(path...) succeeds and returns c.", "quantifier": "every container value, every child, every path of any length mixing keys and indexes", "why_tests_cant": "paths and trees are unbounded, and intermediate containers are created on the way", "anchors": ["set.go:setter.At", "set.go:atObject", "set.go:atArray", "set.go:setAtIndex", "get.go:get"]}
{"id": "C20", "title": "Set changes nothing outside its path", "statement": "A successful Set(c).At(path...) leaves Get(q...) unchanged for every path q that leaves path at some step through a different key or index.", "quantifier": "every value, child, path and other path", "why_tests_cant": "pairs of unbounded paths", "anchors": ["set.go:setter.At", "set.go:atObject", "set.go:atArray"]}
{"id": "C21", "title": "A failed modification changes nothing", "statement": "If Set(..).At, Insert(..).Before/After, Append(..).InTheBeginning/InTheEnd or Delete returns an error, the value is exactly what it was before the call.", "quantifier": "every value, child, path and failure point along the path", "why_tests_cant": "failure can strike at each of unboundedly many intermediate steps, after containers were created", "anchors": ["set.go:setter.At", "insert_append_delete.go:Before", "insert_append_delete.go:After", "insert_append_delete.go:InTheBeginning", "insert_append_delete.go:InTheEnd", "insert_append_delete.go:delete"]}
{"id": "C22", "title": "Set creates missing containers by the documented rule only", "statement": "Set(..).At creates a missing object for a string step and a missing array for an integer step; the index into a created array must be 0, and the index into an existing array must address an element or equal its length. Otherwise it fails with ErrOutOfRange. An existing scalar on the path is never replaced by a container.", "quantifier": "every value and path", "why_tests_cant": "case analysis over arbitrary trees and paths", "anchors": ["set.go:atObject", "set.go:atArray", "set.go:posAtIndexForSet"]}
{"id": "C23", "title": "Insert Before/After place the element exactly", "statement": "Insert(c).Before(path..., i) puts c immediately before element i of the addressed array, After(path..., i) immediately after it, negative i counting from the end; all other elements keep their relative order and Len grows by one; an index outside the array is ErrOutOfRange.", "quantifier": "every array length, every index in int64, every path", "why_tests_cant": "all lengths times all indexes", "anchors": ["insert_append_delete.go:Before", "insert_append_delete.go:After", "insert_append_delete.go:insertToArr", "set.go:posAtIndexForInsertBefore", "set.go:posAtIndexForInsertAfter"]}
{"id": "C24", "title": "Append InTheBeginning/InTheEnd place the element exactly and create missing arrays", "statement": "Append(c).InTheEnd(path...) makes c the last element, InTheBeginning the first, of the addressed array, all others keeping their order; a missing array is created when the path is missing from an object; addressing a non-array is an error.", "quantifier": "every value, path and child", "why_tests_cant": "unbounded arrays and paths", "anchors": ["insert_append_delete.go:InTheBeginning", "insert_append_delete.go:InTheEnd", "insert_append_delete.go:insertToArr", "unmarshal.go:appendToArr"]}
{"id": "C25", "title": "Delete removes exactly one thing", "statement": "Delete(path...) succeeds iff Get(path...) does; afterwards an object no longer has the key (Get gives ErrNotFound), an array has the element removed with the later ones shifted down, Len drops by one and all else is unchanged.", "quantifier": "every value and every path of keys and indexes, given separately or as one slice", "why_tests_cant": "unbounded trees and paths", "anchors": ["insert_append_delete.go:delete", "insert_append_delete.go:deleteInArr", "insert_append_delete.go:delFromObjectChildren"]}
{"id": "C26", "title": "An object behaves as a finite map and an array as a list under any history", "statement": "For every sequence of Set, Delete, Caseless Delete, Get and Caseless Get on an object, Get(k) returns the value of the last Set(k) not followed by a Delete(k), and ErrNotFound otherwise; Len() is the number of such keys. For every sequence of Set, Insert, Append and Delete on an array the contents are those of the corresponding list.", "quantifier": "every history of operations of any length", "why_tests_cant": "histories are unbounded", "anchors": ["set.go:setToObjectChildren", "get.go:getFromObjectChildren", "insert_append_delete.go:delFromObjectChildren", "set.go:setAtIndex", "get.go:Len"]}
{"id": "C27", "title": "Caseless access stays coherent with the object", "statement": "After any history of modifications mixed with caseless accesses, Caseless().Get(k) returns the member k if it exists, otherwise some member whose lower-cased key equals the lower-cased k, and fails with ErrNotFound exactly when there is none; Caseless().Delete removes exactly such a member. No stale or missing entry is ever seen.", "quantifier": "every history of sets, deletes, caseless gets and caseless deletes, every key, every iteration order of the index", "why_tests_cant": "the lower case index is a lazily built cache updated incrementally; staleness needs particular histories", "anchors": ["get.go:initCaselessStorage", "get.go:getFromObjectChildren", "jsonvalue.go:addCaselessKey", "jsonvalue.go:delCaselessKey", "insert_append_delete.go:delFromObjectChildren"]}
{"id": "C28", "title": "A slice or array of path elements means the same as the elements given separately", "statement": "Get, Set(..).At, Insert, Append and Delete behave the same when called with f([]any{a, b, c}) as with f(a, b, c); a slice followed by further parameters is an error.", "quantifier": "every value and every non-empty path", "why_tests_cant": "unbounded paths", "anchors": ["conv.go:isSliceAndExtractDividedParams", "conv.go:isSliceAndExtractJointParams", "get.go:get", "set.go:setter.At", "insert_append_delete.go:Before"]}
{"id": "C29", "title": "Index rules", "statement": "On an array of length n an integer i, signed or unsigned of any width, addresses element i if 0<=i<n, element n+i if -n<=i<0, and otherwise gives ErrOutOfRange; a string on an array or an integer on an object is an error, never a wrong element.", "quantifier": "every n and every i", "why_tests_cant": "2^64 indexes times all lengths", "anchors": ["set.go:posAtIndexForRead", "set.go:childAtIndex", "conv.go:anyToInt", "get.go:getInCurrentArray"]}
{"id": "C30", "title": "Typed getters are total", "statement": "GetInt, GetUint, GetFloat64, GetBool, GetString, GetBytes, GetNull, GetObject, GetArray and the Int(), Bool()... accessors never panic; they return the converted value with nil error on the right type, the number parsed from a string with ErrTypeNotMatch for a numeric string, and zero with an error otherwise.", "quantifier": "every value (every string content) and every path", "why_tests_cant": "the string-to-number path runs the number parser on arbitrary user text", "anchors": ["get.go:getNumberAndErrorFromValue", "get.go:getNumberFromNotNumberValue", "get.go:getBoolAndErrorFromValue", "unmarshal.go:parseNumber"]}
{"id": "C31", "title": "MustXxx functions never hand out nil", "statement": "MustUnmarshal, MustUnmarshalString, MustUnmarshalNoCopy and MustGet return a NotExist value, not nil, when anything is wrong, so chained calls cannot panic.", "quantifier": "every input and path", "why_tests_cant": "must hold for all failing inputs", "anchors": ["jsonvalue.go:MustUnmarshal", "jsonvalue.go:MustUnmarshalString", "jsonvalue.go:MustUnmarshalNoCopy", "get.go:MustGet"]}
{"id": "C32", "title": "Equal is an equivalence", "statement": "Equal is symmetric and transitive on all values, and reflexive on exactly the values without a nil or NotExist part; it ignores member order, number spelling and set history, and distinguishes values that differ in type, string, boolean, length or key set.", "quantifier": "every triple of values", "why_tests_cant": "triples of unbounded trees", "anchors": ["compare.go:Equal", "compare.go:numberEqual", "compare.go:objectEqual", "compare.go:arrayEqual"]}
{"id": "C33", "title": "Number comparison is a total order consistent with Equal", "statement": "For number values exactly one of LessThan, Equal, GreaterThan holds; GreaterThanOrEqual is the negation of LessThan and LessThanOrEqual of GreaterThan; LessThan is transitive; any comparison with a value that is not a number (and not nil) is false.", "quantifier": "every pair and triple of values, any number text", "why_tests_cant": "all pairs of decimal texts", "anchors": ["compare.go:GreaterThan", "compare.go:greaterOrEqualThan", "compare.go:LessThan", "compare.go:LessThanOrEqual"]}
{"id": "C34", "title": "beta.Contains is a subset relation", "statement": "For a *V without nil parts as second argument, Contains never panics; Contains(v, v) holds for values without NotExist parts; Contains is transitive; for objects it means every key of sub is in v with a contained value; for arrays it means sub occurs as a consecutive run of Equal elements; for other types it is Equal. Any other Go value as second argument stands for the document encoding/json makes of it; one that cannot be imported is contained nowhere.", "quantifier": "every triple of values, every Go value as second argument", "why_tests_cant": "triples of unbounded trees, all Go data", "anchors": ["beta/contain.go:Contains", "beta/contain.go:objectHasSubset", "beta/contain.go:arrayHasSubset"]}
{"id": "C35", "title": "The shared allocation predictor never breaks concurrent Unmarshal", "statement": "Any number of goroutines may call Unmarshal concurrently in any interleaving: the shared size predictor never makes a call divide by zero, and never pre-allocates more values than the input has bytes.", "quantifier": "every number of goroutines, inputs (below 2^31 bytes) and interleavings of the atomic loads and stores", "why_tests_cant": "lost updates between non-atomic load/compute/store triples depend on the schedule", "anchors": ["jsonvalue_internal.go:internalLoadPredictSizePerValue", "jsonvalue_internal.go:internalAddPredictSizePerValue", "jsonvalue_internal.go:newPool"]}
{"id": "C36", "title": "Values of one parse never share a node", "statement": "During one Unmarshal the arena hands out each slot at most once, and falls back to fresh allocation after it is exhausted, so no two JSON values of the result are the same Go object.", "quantifier": "every arena size and number of requests", "why_tests_cant": "must hold for all sizes and request counts", "anchors": ["jsonvalue_internal.go:poolImpl.get", "jsonvalue_internal.go:newPool", "new.go:new"]}
{"id": "C37", "title": "The deprecated channel iterators never leak or deadlock", "statement": "IterArray and IterObjects deliver each child exactly once then close; the sending goroutine always runs to completion, even if the receiver stops early or never receives.", "quantifier": "every length and every interleaving of sender and receiver", "why_tests_cant": "schedules", "anchors": ["iteration.go:IterObjects", "iteration.go:IterArray"]}
{"id": "C38", "title": "Importing a *V deep copies it", "statement": "Import(v) (and New(v)) for a *V gives a value that answers every read like v (hence is Equal to v, unless a nil or NotExist value is stored in v) and shares no node with it: later modification of either through any path does not affect the other.", "quantifier": "every value graph and every later modification", "why_tests_cant": "aliasing must be excluded for all nodes and all later writes", "anchors": ["jsonvalue.go:deepCopy", "jsonvalue.go:children.deepCopy", "import_export.go:parseJSONValueDeepCopier"]}
{"id": "C39", "title": "Get returns the live child; Set stores the given child itself", "statement": "The *V returned by Get is the node inside the tree: modifying it is visible through the root. Set, Insert and Append store the given *V itself, and return it. Modifying a node reachable only from elsewhere does not change this tree.", "quantifier": "every heap of nodes, path and later modification", "why_tests_cant": "all heaps and later writes", "anchors": ["get.go:get", "set.go:setter.At", "insert_append_delete.go:Before", "insert_append_delete.go:InTheEnd"]}
{"id": "C40", "title": "Import follows encoding/json for plain Go data", "statement": "Import of booleans, integers, strings, byte slices, slices, arrays, string- and integer-keyed maps, pointers and tagged structs built from these yields the value whose JSON is what encoding/json.Marshal gives (tags name, omitempty, string and '-', embedded structs).", "quantifier": "every Go value of these kinds, any nesting", "why_tests_cant": "all shapes of Go data and tag combinations", "anchors": ["import_export.go:Import", "import_export.go:validateValAndReturnParser", "import_export.go:parseMapValue", "import_export.go:parseStructFieldValue", "import_export.go:readFieldTag"]}
{"id": "C41", "title": "SetBytes/GetBytes round trip", "statement": "For every byte slice b, NewBytes(b).Bytes() and SetBytes(b).At(p) followed by GetBytes(p) return b; the stored string is RFC 4648 base64.", "quantifier": "every byte slice", "why_tests_cant": "all lengths and contents", "anchors": ["new.go:NewBytes", "set.go:SetBytes", "get.go:getBytes", "jsonvalue.go:Bytes"]}
{"id": "C42", "title": "SortArray permutes the array into order", "statement": "SortArray(less) leaves the same elements with the same multiplicities, and for a strict weak ordering less leaves no later element less than an earlier one; it does nothing to a non-array.", "quantifier": "every array and every strict weak order", "why_tests_cant": "all arrays and orders", "anchors": ["sort.go:SortArray", "sort.go:sortArrayV.Less", "sort.go:sortArrayV.Swap"]}
{"id": "C43", "title": "Reading does not change a value", "statement": "Get, MustGet, GetXxx, Caseless().Get, Marshal, Equal and the Range functions leave everything observable about the value (members, order, ids, texts) unchanged.", "quantifier": "every value and every read operation", "why_tests_cant": "all values and operations", "anchors": ["get.go:get", "get.go:initCaselessStorage", "marshal.go:Marshal", "compare.go:Equal"]}
{"id": "C44", "title": "Number classification follows the number", "statement": "IsFloat is true exactly for numbers written with a fraction or exponent, IsInteger for the other numbers; IsNegative and GreaterThanInt64Max agree with the numeric value; the classification is the same after a marshal/unmarshal round trip.", "quantifier": "every number value, parsed or constructed", "why_tests_cant": "all number texts and constructors", "anchors": ["jsonvalue.go:IsFloat", "jsonvalue.go:IsInteger", "jsonvalue.go:IsNegative", "jsonvalue.go:GreaterThanInt64Max", "new.go:newFloat64f"]}
{"id": "C45", "title": "UnmarshalJSON and UnmarshalBinary are all-or-nothing", "statement": "(*V).UnmarshalJSON(b) and UnmarshalBinary(b) set the receiver to Unmarshal(b) on success and leave it unchanged on error; MarshalString and MustMarshal give the text of Marshal, and none with an error; MarshalJSON/MarshalBinary equal Marshal() with default options, so what MarshalBinary writes UnmarshalBinary reads into an Equal value, whatever the receiver held.", "quantifier": "every receiver and every input", "why_tests_cant": "all inputs and failure points", "anchors": ["marshaler_unmarshaler.go:UnmarshalJSON", "marshaler_unmarshaler.go:UnmarshalBinary", "marshaler_unmarshaler.go:MarshalJSON", "marshaler_unmarshaler.go:MarshalBinary"]}
{"id": "C46", "title": "Marshalled values contain no holes", "statement": "After any successful sequence of public calls a value contains no nil or NotExist descendant, so Marshal and Get on it cannot panic and cannot emit an element with no text.", "quantifier": "every history of public calls", "why_tests_cant": "all histories", "anchors": ["insert_append_delete.go:InTheEnd", "insert_append_delete.go:InTheBeginning", "insert_append_delete.go:Before", "set.go:setter.At", "import_export.go:parseArrayValue"]}
{"id": "C47", "title": "Marshal terminates", "statement": "Marshal returns for every value that can be built through the API.", "quantifier": "every reachable value graph", "why_tests_cant": "needs all graphs, including those in which a value was set into itself", "anchors": ["marshal.go:marshalToBuffer", "set.go:setter.At"]}
{"id": "C48", "title": "Less functions see the right key path", "statement": "The KeyPath passed to a MarshalLessFunc names, outermost first, the keys and indexes leading to the object being sorted; IsString is true exactly for object keys and IsInt for array indexes.", "quantifier": "every value tree and every position", "why_tests_cant": "all trees and positions; the path is a Go slice extended by append at each level", "anchors": ["sort.go:newParentInfo", "sort.go:marshalObjectWithLessFunc", "marshal.go:marshalArray", "sort.go:Key.IsString"]}
{"id": "C49", "title": "KeyPath.String shows the path", "statement": "KeyPath.String() on the path handed to a MarshalLessFunc returns the elements in brackets separated by blanks, indexes as decimal numbers and keys as escaped quoted strings, and does not panic, whether or not SetDefaultMarshalOptions was ever called.", "quantifier": "every path of any length, every default option list", "why_tests_cant": "all paths; depends on process-wide state that the tests set up", "anchors": ["sort.go:KeyPath.String", "conv.go:escapeStringToBuff", "option.go:SetDefaultMarshalOptions"]}
{"id": "C50", "title": "Range functions visit every child once", "statement": "RangeObjects and RangeObjectsBySetSequence call the callback once for each member, RangeArray once for each element in index order, each stopping exactly when the callback returns false; ForRangeObj and ForRangeArr return the same children. Nothing is called for a value of another kind or a nil callback.", "quantifier": "every value, every callback with state of its own, every iteration order", "why_tests_cant": "all callbacks and all iteration orders", "anchors": ["iteration.go:RangeObjects", "iteration.go:RangeObjectsBySetSequence", "iteration.go:RangeArray", "iteration.go:ForRangeObj", "iteration.go:ForRangeArr"]}
{"id": "C51", "title": "Numbers are compared by value, not by spelling or rounding", "statement": "Equal, LessThan, LessThanOrEqual, GreaterThan and GreaterThanOrEqual on two numbers agree with the comparison of the exact numbers that their decimal texts denote, whatever the number of digits, the position of the dot and the exponent.", "quantifier": "every pair of decimal number texts", "why_tests_cant": "all pairs of digit strings; float based implementations agree on all short examples", "anchors": ["compare.go:numberEqual", "compare.go:greaterThan", "compare.go:greaterOrEqualThan"]}
{"id": "C52", "title": "Values that are not shared behave as trees", "statement": "As long as a program stores every *V in at most one place, every value behaves as a tree of its own: whatever sequence of Get, Set, Insert, Append, Delete, SortArray and Import is applied to the values or to any node found in them, each root shows exactly the tree predicted by applying the calls to that tree alone, calls return the node at the predicted place or the predicted error, and no other root changes.", "quantifier": "every program of any length, every number of values, any nesting", "why_tests_cant": "refinement between a heap of mutable nodes and trees for all programs", "anchors": ["get.go:get", "set.go:setter.At", "insert_append_delete.go:Before", "insert_append_delete.go:InTheEnd", "insert_append_delete.go:delete", "sort.go:SortArray", "jsonvalue.go:deepCopy"]}
{"id": "C53", "title": "Import returns a usable value", "statement": "Import (and New) never panics on Go data; it returns a value or an error, and without an error the value is not nil and contains no nil, so that it can be read and marshalled; with an error the value is NotExist.", "quantifier": "every Go value: any kind, any nesting, any tags, with and without OptIgnoreJsonOmitempty", "why_tests_cant": "all shapes of Go data: tests only try a few structs", "anchors": ["import_export.go:Import", "import_export.go:validateValAndReturnParser", "import_export.go:parseStructFieldValue", "import_export.go:parseSliceValue", "import_export.go:checkAndParseMarshaler"]}
{"id": "C54", "title": "Goroutines may read at the same time", "statement": "While no goroutine modifies a value or uses Caseless on it, any number of goroutines may use Get, the typed getters, Len, the Range functions (with callbacks that only read), Marshal, Equal, Contains and the comparisons on it at the same time without a lock: there is no data race, and each call returns what it would return alone.", "quantifier": "every value graph, every number of goroutines and calls, every interleaving of their memory accesses", "why_tests_cant": "all interleavings of all readers; a race detector only sees the schedules that happened", "anchors": ["get.go:get", "get.go:getFromObjectChildren", "marshal.go:Marshal", "compare.go:Equal", "contains.go:Contains", "iteration.go:RangeObjects", "docs/en/07_iteration.md"]}
{"id": "C55", "title": "With a read-write lock every execution is serial", "statement": "If goroutines use the read lock of one sync.RWMutex for calls that only read and its write lock for Set, Insert, Append, Delete, Caseless and everything else, there is no data race and every execution amounts to one in which the locked sections ran one after the other.", "quantifier": "any number of goroutines, any calls under the write lock, any control flow depending on earlier results, every interleaving", "why_tests_cant": "all interleavings; serializability is a statement about all executions", "anchors": ["get.go:Caseless", "get.go:initCaselessStorage", "docs/en/07_iteration.md", "docs/en/08_caseless.md"]}
{"id": "C56", "title": "SetDefaultMarshalOptions is goroutine-safe", "statement": "SetDefaultMarshalOptions may be called while other goroutines marshal: there is no data race, and every Marshal uses one complete set of default options, either an earlier or a later one.", "quantifier": "every number of goroutines that marshal or set default options, every interleaving", "why_tests_cant": "all interleavings; the race detector needs the schedule to happen", "anchors": ["option.go:SetDefaultMarshalOptions", "option.go:getDefaultOptions", "marshal.go:Marshal"]}
{"id": "C57", "title": "Go data given to Set, Insert and Append", "statement": "Set, Insert and Append take any Go value and store the document encoding/json makes of it, so that Get finds that document afterwards; if the value cannot be imported they report the error and leave the receiver as it is.", "quantifier": "every Go value, receiver and path", "why_tests_cant": "all Go data at all places", "anchors": ["set.go:Set", "set.go:setter.At", "insert_append_delete.go:Insert", "insert_append_delete.go:Append", "import_export.go:Import"]}
{"id": "C58", "title": "Typed setters and getters agree", "statement": "After a successful SetX(x).At(path...), GetX(path...) and Caseless().GetX(path...) return x and no error, for X each of String, Bytes, Bool, Int, Int64, Int32, Uint, Uint64, Uint32, Float64, Float32, Null, Object and Array; the same at the place of the new element after InsertX and AppendX.", "quantifier": "every value of every type (all 64 bit patterns of the numbers), every receiver and path", "why_tests_cant": "all numbers, receivers and paths", "anchors": ["set.go:SetInt32", "set.go:SetFloat32", "set.go:SetBytes", "insert_append_delete.go:InsertInt64", "insert_append_delete.go:AppendUint32", "get.go:GetInt32", "get.go:GetFloat32", "get.go:GetBytes"]}
{"id": "C59", "title": "NewObject takes over every supported entry", "statement": "NewObject(M{...}) has exactly one member for each entry that is nil, a boolean, an integer, a string or a finite float, and no other member, whatever order the map is walked in; each member holds what encoding/json writes for the entry (a float32 counts as the float64 of the same value). Marshal of it does not panic.", "quantifier": "every map, every order of iteration", "why_tests_cant": "all maps and all orders of iteration", "anchors": ["new.go:NewObject", "new.go:parseNewObjectKV"]}
{"id": "C60", "title": "Floats are written as by encoding/json", "statement": "NewFloat64(f) and NewFloat32(f) are written exactly as encoding/json writes the float: the fewest digits that identify it, without an exponent from 1e-6 up to 1e21, otherwise with an exponent without leading zeros. The text is a JSON number of exactly the value of those digits.", "quantifier": "every finite float64 and float32", "why_tests_cant": "2^64 floats; the interesting ones are at the borders of the two formats", "anchors": ["new.go:NewFloat64", "new.go:NewFloat32", "new.go:newFloat64f"]}
{"id": "C61", "title": "Floats survive Marshal and Unmarshal", "statement": "For every finite float64 f, NewFloat64(f), Marshal with any options, Unmarshal and Float64 (or GetFloat64) return f, bit by bit.", "quantifier": "every finite float64, every list of options", "why_tests_cant": "2^64 floats; composition of printer and parser", "anchors": ["new.go:NewFloat64", "unmarshal.go:parseNumber", "marshal.go:marshalNumber", "jsonvalue.go:Float64"]}
{"id": "C62", "title": "NewFloat64f always makes a JSON number", "statement": "Whatever format byte and precision are given, also unknown and negative ones, NewFloat64f and NewFloat32f of a finite float give a number that is written as a JSON number, of exactly the value of the digits that strconv rounds the float to; with f and e it has exactly the requested number of digits after the dot.", "quantifier": "every float, every format byte, every precision", "why_tests_cant": "all floats, formats and precisions", "anchors": ["new.go:NewFloat64f", "new.go:NewFloat32f", "new.go:validateFloat64Format"]}
{"id": "C63", "title": "String describes every value", "statement": "String() never panics, on a nil *V, on nil children and on NotExist values neither. It returns the contents of a string byte for byte; the text of a number as it was parsed or made, which is also what Marshal writes; null, true, false; nil for nil; and for arrays and objects the descriptions of the children as [a, b] and {k: a, l: b}, the members of an object in any order. For arrays of numbers, booleans and nulls, nested to any depth, the description is JSON that reads back as an Equal value. ValueType().String() names the kind of every value.", "quantifier": "every value, every order of iteration", "why_tests_cant": "values of any depth, orders of iteration", "anchors": ["jsonvalue.go:String", "jsonvalue.go:bufObjChildren", "jsonvalue.go:bufArrChildren", "jsonvalue.go:ValueType"]}
{"id": "C64", "title": "Export hands over the contents", "statement": "Export into an interface{} gives nil, bool, float64, string, []interface{} or map[string]interface{} with exactly the contents of the value, whatever the default options; Export into a *V gives an Equal value; if Export reports an error, the target *V is as before.", "quantifier": "every value with valid UTF-8 strings and numbers in the range of float64 that nests at most 10000 deep, every default option, every json.Unmarshal that reads JSON texts with their meaning", "why_tests_cant": "values of any shape and size; the interplay with another JSON library", "anchors": ["import_export.go:Export"]}
{"id": "C65", "title": "Iteration callbacks may change the value", "statement": "The callback of RangeArray (or the body of a loop over ForRangeArr) may change the array it runs over: it is called once for every element that was there at the start, in order, and what it does is done to the array as it is at that moment. The callback of RangeObjects and RangeObjectsBySetSequence may replace or remove the member it is called with: it is called once for every member, and afterwards the object has exactly what the callback decided.", "quantifier": "every value, every callback, every growth strategy of append, every order of iteration", "why_tests_cant": "arrays of any length and capacity, arbitrary callbacks, and what Go leaves open about map iteration", "anchors": ["iteration.go:RangeArray", "iteration.go:ForRangeArr", "iteration.go:RangeObjects", "iteration.go:RangeObjectsBySetSequence", "insert_append_delete.go:deleteInArr"]}
{"id": "C66", "title": "Byte slices may be reused", "statement": "A []byte that was given to Unmarshal, UnmarshalJSON, UnmarshalBinary, NewBytes, SetBytes or Import, or was returned by Marshal, MarshalJSON, Bytes or GetBytes, may be overwritten by the caller without any effect on any value; the library never writes into such a slice. A slice given to UnmarshalNoCopy must not be written to or parsed again as long as the value or a copy of it or of parts of it is used; as long as it is not, the value stays as it is.", "quantifier": "every program: any sequence of parsing, marshalling, constructors, structural changes and writes by the caller", "why_tests_cant": "aliasing between any number of values and slices over time", "anchors": ["jsonvalue.go:Unmarshal", "jsonvalue.go:UnmarshalNoCopy", "jsonvalue.go:UnmarshalString", "jsonvalue.go:deepCopy", "marshaler_unmarshaler.go:UnmarshalJSON", "marshal.go:Marshal", "internal/buffer/buffer.go:NewBuffer"]}
{"id": "C67", "title": "Paths compose", "statement": "Walking a path in one call or in several makes no difference: if v.Get(p...) gives x, then v.Get(p..., q...) gives what x.Get(q...) gives, with the same error if it fails, and so do the getters with a type; if v.Get(p...) fails, v.Get(p..., q...) fails with the same error, and MustGet can be chained over missing values. Set, Append, Insert and Delete with the path p..., q... on v do to v exactly what the same call with q... on x does to x: nothing outside x changes, and they fail in the same cases.", "quantifier": "all values, paths (without slices in the first part) and new children; also where arrays and objects are created on the way", "why_tests_cant": "every way to split every path of every value", "anchors": ["get.go:Get", "get.go:MustGet", "set.go:At", "insert_append_delete.go:InTheEnd", "insert_append_delete.go:Before", "insert_append_delete.go:Delete"]}
{"id": "C68", "title": "Reformatting keeps the document", "statement": "Reading a document and writing it with OptSetSequence writes the same document: every number digit for digit, every string, the elements and members in their order, where of several members with one key the last stands; only white space and the escapes in strings change. What was written is read as that document again, reading and writing it once more changes nothing, and writing it with other options gives what these options would have given at first.", "quantifier": "every accepted document (rewriting twice: with valid UTF-8 strings) with less than 2^32 members per object, every list of options that ends up with the set sequence and keeps null members", "why_tests_cant": "documents of any depth and size, duplicate keys, all combinations of options", "anchors": ["jsonvalue.go:Unmarshal", "unmarshal.go:parseNumber", "marshal.go:Marshal", "option.go:OptSetSequence", "option.go:OptIndent"]}
{"id": "C69", "title": "Which calls panic", "statement": "On a value that was parsed or built by public calls, no method panics or runs forever, whatever the parameters, options, callbacks and earlier calls, as long as there is no nil *V in it; the one exception are conversions to a number of a string with nothing but white space, which always panic (of the empty string only by GetInt and the like). In a program of calls on one value, if any call panics it is such a conversion. On a nil *V, String, Set, After, InTheBeginning, Equal, Contains and SortArray without a function return; every other method panics.", "quantifier": "every value, every method with all arguments, every sequence of calls", "why_tests_cant": "all combinations of values, methods, parameters and histories", "anchors": ["jsonvalue.go:Unmarshal", "get.go:Get", "set.go:At", "insert_append_delete.go:Before", "insert_append_delete.go:Append", "insert_append_delete.go:Delete", "marshal.go:Marshal", "conv.go:getNumberFromNotNumberValue", "compare.go:Equal", "sort.go:SortArray"]}
{"id": "C70", "title": "Imported values are ordinary values", "statement": "A value made by Import or New, and a child made from Go data by Set, Insert or Append, can be used like one built by calls: its objects are maps in which caseless lookup is exact, and no later call on it panics except for conversions of blank strings. Excepted are data with a nil pointer to a type with MarshalJSON or MarshalText or a nil *V in a slice, and embedded fields of unexported types other than structs.", "quantifier": "all Go data as in C53, whose *V were themselves made by public calls; all later sequences of calls", "why_tests_cant": "unbounded Go data, nested structures and histories", "anchors": ["import_export.go:Import", "new.go:New", "set.go:Set", "insert_append_delete.go:Insert", "insert_append_delete.go:Append", "jsonvalue.go:deepCopy"]}
{"id": "C71", "title": "Edits undo each other and commute", "statement": "Setting back the old value, or deleting what Set has added, restores the contents. Delete exactly undoes Insert and Append, and Insert or Append a Delete from an array. The last of two Sets along a path wins, and a repeated Set changes nothing more. Two Sets to different members or elements, and any two edits below values that are apart from each other, give the same in either order. Sets along paths that skip array positions are excepted.", "quantifier": "all values, children, paths of any length, with negative indexes, whether or not containers are created on the way", "why_tests_cant": "pairs of edits on unbounded documents and paths", "anchors": ["set.go:Set", "insert_append_delete.go:Insert", "insert_append_delete.go:Append", "insert_append_delete.go:Delete", "get.go:Get"]}
{"id": "C72", "title": "A value inside encoding/json", "statement": "json.Marshal of a *V succeeds whenever Marshal does, and gives a JSON text for the same document, on one line and without <, > and &, whatever the default options; indentation among the default options makes no difference, and without OptUTF8, OptEscapeHTML(false) and indentation it is the very text of Marshal (for the same order of visiting the maps, see C76). What Marshal reports, json.Marshal reports; a nil *V becomes null. json.Unmarshal of the text into a *V gives an Equal value.", "quantifier": "every value, every default option that leaves nothing out, every syntax check of encoding/json that accepts JSON texts nested at most 10000 deep", "why_tests_cant": "values of any shape and size; all default options; the interplay with another JSON library", "anchors": ["marshaler_unmarshaler.go:MarshalJSON", "marshaler_unmarshaler.go:UnmarshalJSON", "marshal.go:Marshal", "option.go:SetDefaultMarshalOptions"]}
{"id": "C73", "title": "The errors of Unmarshal", "statement": "For every faulty text Unmarshal reports the error constant that belongs to what stands where the text stops conforming: ErrNotValidBoolValue, ErrNotValidNullValue and ErrNotValidNumberValue for what begins like a bool, null or a number and is none (as documented at the constants), ErrNotArrayValue and ErrNotObjectValue for a container cut off between its tokens or an object without key, colon or value, ErrIllegalString for bytes or surrogates that are no characters, ErrRawBytesUnrecognized for any other character or for something after the value, ErrNilParameter for the empty input only. A document cut off anywhere but in white space or within a number is refused, never with ErrRawBytesUnrecognized; and where the error is ErrRawBytesUnrecognized (and not only white space was given), it is the same whatever is appended.", "quantifier": "every byte sequence; every continuation", "why_tests_cant": "unbounded set of faulty texts, errors at any depth and offset", "anchors": ["unmarshal.go:unmarshalWithIter", "unmarshal.go:unmarshalArrayWithIterUnknownEnd", "unmarshal.go:unmarshalObjectWithIterUnknownEnd", "errors.go:ErrNotValidNumberValue", "errors.go:ErrNotValidNullValue"]}
{"id": "C74", "title": "Unmarshal takes time linear in the length of the text", "statement": "The number of byte accesses that Unmarshal and UnmarshalNoCopy make is bounded by a constant times the length of the input, whether it is accepted or not, however it is nested and whatever the strings and keys in it are; there is no input on which the parser goes back and forth.", "quantifier": "every byte sequence, also malformed ones", "why_tests_cant": "a bound for all inputs, also those made by an adversary; benchmarks measure some", "anchors": ["jsonvalue.go:Unmarshal", "jsonvalue.go:UnmarshalNoCopy", "unmarshal.go:unmarshalArrayWithIterUnknownEnd", "unmarshal.go:parseStrFromBytesForwardWithQuote"]}
{"id": "C75", "title": "No text exhausts the stack", "statement": "There is a bound for the number of nested calls of the parser that holds for every input, so that Unmarshal of untrusted bytes cannot run into the stack limit of the Go runtime (which ends the process and cannot be recovered from); encoding/json refuses texts that nest deeper than 10000.", "quantifier": "every byte sequence", "why_tests_cant": "inputs of any depth; the failure would end the test process", "anchors": ["unmarshal.go:unmarshalArrayWithIterUnknownEnd", "unmarshal.go:unmarshalObjectWithIterUnknownEnd", "jsonvalue.go:Unmarshal"]}
{"id": "C76", "title": "Which texts Marshal may give", "statement": "Go visits the members of a map in another order at every call. Without a key order option Marshal may therefore give any of the texts that differ in the order of the members, at every object independently, and no others. With OptDefaultStringSequence, a non-empty OptKeySequence, or OptLess with a function that decides by the keys, the bytes are the same at every call; also with OptSetSequence, for parsed documents and objects made by any history of operations (less than 2^32 members or calls of Set per object).", "quantifier": "every value tree, every order of visiting each map, every list of options", "why_tests_cant": "the order is chosen by the runtime and cannot be controlled or enumerated by a test; values of any shape", "anchors": ["marshal.go:marshalObject", "marshal.go:Marshal", "sort.go:marshalObjectWithLessFunc", "sort.go:marshalObjectWithStringSlice", "option.go:OptSetSequence", "option.go:OptKeySequence"]}
{"id": "C77", "title": "Equal values behave alike", "statement": "Two values that Equal finds equal cannot be told apart by a program that gets by path, asks for types, lengths, strings and null, and calls Set, Insert, Append and Delete: the same sequence of calls returns the same errors and stores the children at the same places, and the values are Equal again after every call, whatever their order of members, numbering, caches and spelling of numbers. So a program can go on with a value read back from its text, and the order in which Go visits maps is invisible to it. Only looking into a number (IsFloat, conversions, its text), caseless lookups that fit several keys, and the order of members in the text can differ.", "quantifier": "all pairs of Equal values of any shape, all paths, all sequences of changes of any length with Equal children", "why_tests_cant": "relates two runs of arbitrary programs on arbitrary pairs of values", "anchors": ["compare.go:Equal", "get.go:Get", "set.go:At", "insert_append_delete.go:Before", "insert_append_delete.go:After", "insert_append_delete.go:InTheBeginning", "insert_append_delete.go:InTheEnd", "insert_append_delete.go:Delete"]}
{"id": "C78", "title": "How big values and texts may get", "statement": "A parsed value holds no more bytes and nodes than its text has bytes. Marshal without OptIndent writes less than six bytes for each byte of the value, whatever the options; so reading any text and writing it again makes it less than six times as long. With OptIndent the length is bounded by the size of the value times the length of the longest line break, for a rewritten text by a multiple of the square of its length. Neither bound can be improved: DEL characters take six bytes each, nested brackets take the square.", "quantifier": "every text, every value whose numbers have a text, all options", "why_tests_cant": "bounds for all inputs, also those made by an adversary", "anchors": ["jsonvalue.go:Unmarshal", "marshal.go:Marshal", "conv.go:escapeStringToBuff", "option.go:OptIndent"]}
{"id": "C79", "title": "The errors of path access", "statement": "The error of Get, Delete, Set, Insert and Append says what is wrong with the path, at the first parameter that does not lead on: ErrNotFound from Get and Delete exactly if the path leads to an object without the next key, ErrOutOfRange exactly if it leads to an array and the next index is not in it, ErrParameterError for a parameter that is not a key on an object, other errors for scalars. Delete fails exactly when Get does, with the same error. Set and Append make what is missing and never report ErrNotFound; Set fails only for unfit parameters, for an index beyond the end, or if the rest of the path cannot be made (an index other than 0 in a new array), and never where Get finds something. Insert and Append report ErrTypeNotMatch if there is something other than an array.", "quantifier": "every value, every path of any length, every child", "why_tests_cant": "unbounded paths and values; programs branch on errors.Is", "anchors": ["get.go:get", "get.go:getInCurrentArray", "get.go:getInCurrentObject", "set.go:At", "insert_append_delete.go:Before", "insert_append_delete.go:InTheBeginning", "insert_append_delete.go:Delete", "errors.go:ErrNotFound", "errors.go:ErrOutOfRange"]}
{"id": "C80", "title": "Messages of Unmarshal and the positions in them", "statement": "The text of the error of Unmarshal wraps the error constant and is true: at the position it gives stands what it speaks of (the character shown, the value in the place of a key or colon, the key shown without a value, the number, the literal, the bad escape). The position of the messages about an unexpected character, trailing data, a missing key, a missing colon and illegal UTF-8 is exactly that of the first byte with which the text cannot go on to be an accepted one: what stands before can be completed, nothing longer can, and what follows does not change the message. For trailing data what stands before is accepted as it is. Messages that only miss a closing bracket, brace or quote, or the beginning of a value, mean that the text can be completed; a text that can be completed is never blamed on a byte.", "quantifier": "every text of any length and nesting, every completion and every continuation of it", "why_tests_cant": "the position is that of the longest prefix of any accepted text, over infinitely many completions; tests look at single messages", "anchors": ["unmarshal.go:unmarshalWithIter", "unmarshal.go:unmarshalArrayWithIterUnknownEnd", "unmarshal.go:unmarshalObjectWithIterUnknownEnd", "unmarshal.go:parseStrFromBytesForwardWithQuote", "unmarshal.go:handleEscapeUnicodeStartWithEnd", "unmarshal.go:numErrorf", "unmarshal.go:parseNull"]}
{"id": "C81", "title": "Numbers are read as the nearest float64", "statement": "Float64 (and GetFloat64) of a number anywhere in a parsed document is the float64 nearest to the number that is written, of two equally near ones the one whose last bit is 0, with the sign that is written (also for -0.0); whatever the number of digits and the way it is written. A literal with a fraction or an exponent is refused exactly if that would be infinity or if its integer part is one the parser cannot read.", "quantifier": "every document, every number in it (written exponents below 100000)", "why_tests_cant": "infinitely many literals of any length; ties and neighbours of each of the 2^64 floats", "anchors": ["unmarshal.go:parseFloatResult", "unmarshal.go:parseNumber", "jsonvalue.go:Float64", "get.go:GetFloat64"]}
{"id": "C82", "title": "Int64 and Uint64 of integers written with a fraction or an exponent", "statement": "If the number written is an integer, Int64() returns it if it is from -2^63 to below 2^63 - 512, and Uint64() if it is from 0 to below 2^64 - 1024, also when it is written with a fraction or an exponent as in 1.0 or 12e3.", "quantifier": "every document, every number in it, every way of writing an integer", "why_tests_cant": "all integers in all spellings", "anchors": ["unmarshal.go:parseFloatResult", "jsonvalue.go:Int64", "jsonvalue.go:Uint64"]}
{"id": "C83", "title": "Numbers are read as the nearest float32", "statement": "Float32 (and GetFloat32) of a number in a parsed document is the float32 nearest to the number that is written, if that is finite.", "quantifier": "every document, every number in it", "why_tests_cant": "depends on what all 2^32 floats have between them; the wrong cases are about one in 2^29", "anchors": ["jsonvalue.go:Float32", "get.go:GetFloat32", "unmarshal.go:parseFloatResult"]}
{"id": "C84", "title": "float32 numbers survive Marshal and Unmarshal", "statement": "For every finite float32 g, NewFloat32(g), Marshal with any options, Unmarshal and Float32 (or GetFloat32) return g, bit by bit.", "quantifier": "every finite float32, every list of options", "why_tests_cant": "2^32 floats; composition of printer and parser", "anchors": ["new.go:NewFloat32", "unmarshal.go:parseNumber", "marshal.go:marshalNumber", "jsonvalue.go:Float32"]}
{"id": "C85", "title": "A parsed document is the same after any further round trip", "statement": "A document that came from Unmarshal (its strings and keys being valid UTF-8), written by Marshal with any options for order, escaping and blanks and read again, is indistinguishable from the first: the same sequence of Set, Insert, Append and Delete returns the same on both, every Get, typed getter and method of the values returns the same afterwards, also Caseless if no two keys of an object are alike in lower case, and Marshal with OptDefaultStringSequence writes the same bytes. For a value that was built by other means the first round trip is enough.", "quantifier": "every document, every list of options but OptOmitNull, every sequence of changes, every path", "why_tests_cant": "two values have to be compared under all programs; numbers have a text, a sign, a class and three conversions that all have to agree", "anchors": ["unmarshal.go:Unmarshal", "marshal.go:Marshal", "get.go:Get", "jsonvalue.go:IsFloat", "set.go:At", "new.go:NewInt64"]}
{"id": "C86", "title": "Numbers with up to 15 digits survive float64", "statement": "If a number in a parsed document is written with at most 15 significant digits, NewFloat64 (or SetFloat64) of its Float64 gives a value that is Equal to it and that Marshal writes as the same number. The same for NewFloat32 of Float32 and six digits.", "quantifier": "every document, every number in it with at most 15 (or 6) significant digits, every list of options", "why_tests_cant": "10^15 numbers for each exponent; depends on how dense decimal and binary numbers are", "anchors": ["jsonvalue.go:Float64", "new.go:NewFloat64", "new.go:NewFloat32", "marshal.go:marshalNumber", "compare.go:Equal"]}
{"id": "C87", "title": "Export and Import undo each other", "statement": "Exporting a value to an interface{} and importing the data gives an Equal value. Importing data made of nil, bool, float64, string, []interface{} and map[string]interface{} and exporting the value to an interface{} gives the same data.", "quantifier": "every value and all such data, of any size and nesting, all default options", "why_tests_cant": "goes through Marshal, encoding/json, strconv and package reflect; depends on all numbers inside", "anchors": ["import_export.go:Export", "import_export.go:Import", "import_export.go:parseMapValue", "import_export.go:parseSliceValue", "compare.go:Equal"]}
{"id": "C88", "title": "Marshal takes time linear in the length of the text that it gives", "statement": "Without an option that orders the members, the number of steps of Marshal (bytes read and written, members and elements visited, turns of loops) is bounded by a constant times the length of its result plus the number of null members left out by OptOmitNull; so a text that is read and written again in one line costs no more than a constant times its length.", "quantifier": "every value, of any size and nesting, all options without an order of members", "why_tests_cant": "a bound for all values, also those made by an adversary; benchmarks measure some", "anchors": ["marshal.go:Marshal", "marshal.go:marshalToBuffer", "marshal.go:marshalObject", "marshal.go:marshalArray", "marshal.go:writeIndent", "conv.go:escapeStringToBuff"]}
{"id": "C89", "title": "A value is of exactly one kind, and the text tells which", "statement": "For every value that is not a nil pointer the questions IsObject, IsArray, IsString, IsNumber, IsBoolean, IsNull and ValueType answer without a panic and as for exactly one kind (none for a value that does not exist); a number is either IsFloat or IsInteger, either IsNegative or IsPositive, other values are neither. What Unmarshal returns is of the kind that the first character after white space tells, with an error of no kind; Marshal writes a text of the same kind; Equal values are of the same kind.", "quantifier": "every value, every text, all options of Marshal", "why_tests_cant": "all values and texts; the kind is set in a different place of the parser for each first character and asked for in a dozen functions", "anchors": ["jsonvalue.go:IsObject", "jsonvalue.go:IsArray", "jsonvalue.go:IsString", "jsonvalue.go:IsNumber", "jsonvalue.go:IsBoolean", "jsonvalue.go:IsNull", "jsonvalue.go:ValueType", "unmarshal.go:unmarshalWithIter"]}
{"id": "C90", "title": "Ordering members with a less function costs no more than linear storage", "statement": "Marshal with a MarshalLessFunc (OptDefaultStringSequence included) makes a key path for each element and member; the storage taken for all key paths in one call is linear in the length of the text that it gives.", "quantifier": "every value, every less function, all options, every way in which append may grow a slice", "why_tests_cant": "a bound for all values; the storage depends on how paths of siblings share the arrays behind the slices, at every depth", "anchors": ["sort.go:newParentInfo", "marshal.go:marshalArray", "sort.go:marshalObjectWithLessFunc"]}
{"id": "C91", "title": "Comparing values costs no more than reading them", "statement": "Equal, and the comparisons of two numbers, take time linear in the lengths of the two texts the values come from, with a factor that does not depend on the values; Contains takes time linear in the sizes of the two values.", "quantifier": "every pair of texts that Unmarshal takes, every pair of values for Contains", "why_tests_cant": "a bound for all pairs of values; the cost is hidden in the integers that the decimals are turned into", "anchors": ["compare.go:Equal", "compare.go:numberEqual", "compare.go:GreaterThan", "beta/contain.go:Contains"]}
{"id": "C92", "title": "Import returns", "statement": "Import returns for all Go data, also where pointers, interfaces, maps and slices lead back to data that are being imported; what it returns depends only on what can be reached along fields that are not left out.", "quantifier": "every arrangement of Go values in memory, cyclic ones included, every value in it to begin with, every depth of the stack", "why_tests_cant": "whether a recursion over pointers ends is about all data a program can build; a test of one that does not end cannot fail, only hang or crash", "anchors": ["import_export.go:Import", "import_export.go:validateValAndReturnParser", "import_export.go:parsePtrValue", "import_export.go:parseStructFieldValue"]}
{"id": "C93", "title": "Equal, Contains and copying return", "statement": "Equal and Contains return for any two values built through the API, and importing a value (which copies it) returns; the answer does not depend on the order in which Go goes through maps.", "quantifier": "every program that builds values, every two of its values, every order of the members, every depth of the stack", "why_tests_cant": "about all graphs of values that programs can build, cyclic ones included, and about every order of iteration; a call that does not return cannot be observed by a test", "anchors": ["compare.go:Equal", "compare.go:objectEqual", "compare.go:arrayEqual", "beta/contain.go:Contains", "jsonvalue.go:deepCopy"]}
{"id": "C94", "title": "Less functions see the right parent", "statement": "When a less function (OptKeySequenceWithLessFunc) is called to compare two members of an object, `Parent` of the parent information is that object; for the members of the outermost value the parent information is nil.", "quantifier": "every value, every less function, every combination of options, every correct sorting algorithm", "why_tests_cant": "which calls are made depends on the sorting algorithm and on where in the value the object stands; a test sees a few objects at a few places", "anchors": ["sort.go:newParentInfo", "sort.go:marshalObjectWithLessFunc", "marshal.go:marshalArray", "sort.go:ParentInfo"]}
{"id": "C95", "title": "Marshal and Equal take no more than the memory of the values calls for", "statement": "What Marshal has to write for a value, and the work of Equal on it, is in proportion to the size of all values that exist, each counted once, no matter in how many places of others it was stored.", "quantifier": "every program of calls of the API on any number of values, every value it holds, every list of options", "why_tests_cant": "the cost depends on how often pointers to the same value were stored and on how deep these are below each other; a test shares a value once or twice and never sees the growth", "anchors": ["insert_append_delete.go:InTheEnd", "set.go:At", "marshal.go:marshalToBuffer", "marshal.go:marshalArray", "compare.go:Equal"]}
{"id": "C96", "title": "Values inside other Go data survive encoding/json", "statement": "Wherever values of this package are held in Go data, as *V or as V in slices, arrays, maps and structs, json.Marshal writes each of them at its place, and json.Unmarshal of the text into a new variable of the same type gives Equal values at all these places.", "quantifier": "all Go data built of slices, arrays, maps and structs around values, given itself or by pointer; all values as in C72; all default options that leave nothing out", "why_tests_cant": "whether MarshalJSON and UnmarshalJSON are called at all depends on how the value is held (pointer or not, addressable or not, null or not); tests pass a pointer to a value at top level", "anchors": ["marshaler_unmarshaler.go:MarshalJSON", "marshaler_unmarshaler.go:UnmarshalJSON", "jsonvalue.go:V"]}
{"id": "C97", "title": "A V copied by assignment stays the same value", "statement": "After w := *v (or when a struct or slice element holding a V is copied), calls through either variable act on one and the same JSON value: members set, replaced or deleted through one are seen through the other, in Get, caseless Get and in the order of setting; a deep copy is independent.", "quantifier": "all objects, all programs of Set, Delete, Get (plain and caseless), calls through members, assignments and deep copies, with any number of variables; all arrays, all capacities, all operations on them", "why_tests_cant": "what is shared depends on which field of the struct is a map, a slice header or a number, on the capacity of the backing array and on whether the index of lower-case keys had been made before the assignment; tests copy pointers", "anchors": ["jsonvalue.go:V", "jsonvalue.go:children", "get.go:initCaselessStorage", "set.go:setToObjectChildren", "insert_append_delete.go:deleteInArr"]}
{"id": "C98", "title": "A removed element is let go of", "statement": "After an element of an array was removed with Delete or replaced with Set, the array keeps no pointer to it (unless it is an element in another place), so that the garbage collector can free it, in every history of Append, Insert, Set, Delete and SortArray.", "quantifier": "all arrays, all histories of calls on them, all ways in which append lets a slice grow", "why_tests_cant": "Whether a pointer is left in the backing array behind the last element cannot be seen through the API; a test with a finalizer observes one history and one capacity, while what is kept depends on the whole history of lengths, positions and reallocations.", "anchors": ["insert_append_delete.go:282-286", "insert_append_delete.go:627-632", "set.go:401-412", "unmarshal.go:168-173", "sort.go:63-65"]}
{"id": "C99", "title": "A value may be changed while its channel iterator is read", "statement": "Whatever the caller does to an array or object after IterArray or IterObjects has returned, the channel gives the children the value had at the moment of the call, each once, arrays in order; the goroutine behind the channel ends even if nobody receives; and the program goes on.", "quantifier": "all arrays, capacities and growth strategies of append, all objects, all interleavings of the goroutine with the caller's receives and changes", "why_tests_cant": "The goroutine reads the children whenever the scheduler lets it run; in a test it nearly always finishes before the first change, so the losing schedules are never seen.", "anchors": ["iteration.go:79-95", "iteration.go:128-142", "insert_append_delete.go:282-286", "insert_append_delete.go:627-632", "set.go:401-412"]}
{"id": "C100", "title": "Options are values", "statement": "An option says what it was given when it was made: assigning afterwards to an element of the slice given to OptKeySequence, or of the MarshalKeySequence of an Opt, changes neither what a later Marshal with that option gives nor the defaults set with SetDefaultMarshalOptions.", "quantifier": "all programs that make options, assign to their own slices, set and reset the defaults and call Marshal; all values; all sorting algorithms", "why_tests_cant": "A test makes its options just before it uses them; the text changes only if a slice is reused between making the option and some later Marshal, maybe in another part of the program that only sees the defaults.", "anchors": ["option.go:47-56", "option.go:190-192", "option.go:210-243", "option.go:317-332", "sort.go:257-264"]}
{"id": "C101", "title": "Keeping one part of a parsed document lets the rest go", "statement": "While a program holds one value it got from a parsed document and nothing else of it, only the values inside the one it holds stay in memory; the rest of the document can be collected.", "quantifier": "all inputs; all sizes of the arena; all positions of the document", "why_tests_cant": "Memory that is not given back gives no wrong result: a test sees nothing, and a leak shows only in a long-running process that keeps small parts of many large documents.", "anchors": ["jsonvalue_internal.go:85-108", "unmarshal.go:839", "unmarshal.go:262", "jsonvalue.go:245-251", "jsonvalue.go:496-526"]}
{"id": "C102", "title": "Caseless access pays for its index once", "statement": "Reading, setting and deleting members of an object, caseless or not, takes a bounded number of steps per call on average: over any history the steps are at most a constant for each call and for each member the object had at the start, however large the object and in whatever order reads and changes are mixed.", "quantifier": "all objects made with the API or parsed; all histories of Set, Delete and Get, caseless and not; all iteration orders of the maps; all behaviours of ToLower", "why_tests_cant": "A test compares times of a few calls on one size; an index that is built again after each change, or that keeps keys of removed members to be tried, is wrong by a factor that grows with the size of the object and the length of the history.", "anchors": ["get.go:60-96", "jsonvalue.go:165-193", "set.go:167-174", "insert_append_delete.go:524-556"]}
{"id": "C103", "title": "Changing the end of an array costs a constant on average", "statement": "Over any history of changes of an array (Append, Insert, Set, Delete, swaps of a sort) the number of elements written is at most a constant for each call plus the elements that lie behind the place of each insertion and deletion plus, once, the length of the array at the start: used as a stack an array costs a constant for each call, whatever its length.", "quantifier": "all arrays, with any capacity; all histories; all growth strategies of append that add at least a quarter", "why_tests_cant": "Each call gives the right array; only the sum over a long history shows whether arrays are copied too often.", "anchors": ["insert_append_delete.go:282-286", "insert_append_delete.go:627-632", "set.go:401-411", "unmarshal.go:168-173"]}
{"id": "C104", "title": "Goroutines may change values that share nothing at the same time", "statement": "Goroutines that each read and change only what can be reached from their own values, no V being reachable from the values of two of them, and that only read the values they have in common, need no lock: however they are interleaved there is no data race, each one gets the results and leaves its values in the state it would have alone, everything else stays as it is, and all executions to the end leave the same memory. Caseless access to their own values, which writes the lower case index, and callbacks of the Range functions that change values are allowed.", "quantifier": "all heaps; any number of goroutines; all programs made of Get (caseless or not), looking at values, Marshal, Equal, Contains, comparisons, Range loops, and of making values and Set, Insert, Append and Delete with them; all interleavings, of any length", "why_tests_cant": "Interleavings cannot be enumerated, and whether two documents share memory somewhere inside the library does not show in a test of one goroutine.", "anchors": ["set.go:167-174", "set.go:214-241", "insert_append_delete.go:198-212", "insert_append_delete.go:247-265", "insert_append_delete.go:444-474", "insert_append_delete.go:524-632", "get.go:60-133"]}
{"id": "C105", "title": "Goroutines may build documents at the same time", "statement": "Goroutines that also make new values (NewXxx, Unmarshal, Set.At and Append with paths for which containers are made, deep copies, also of values they have in common) need no lock either, as long as each one changes only what can be reached from its own values, which share nothing, and what it has made: however they are interleaved there is no data race, no V of one ever becomes reachable from the values of another or from what is common, common values stay as they are, and no step of one goroutine changes the document below a value of another.", "quantifier": "all heaps without dangling pointers; any number of goroutines; all programs made of the calls of C104, NewXxx, Unmarshal, UnmarshalJSON, Set.At, Insert, Append and Delete with any path, SortArray, deep copies, and loops over children that do all this; all interleavings, of any length", "why_tests_cant": "Interleavings cannot be enumerated; that the library links no new V into a foreign document has to hold at every step of every call.", "anchors": ["new.go:232-248", "set.go:176-312", "insert_append_delete.go:180-286", "insert_append_delete.go:430-632", "sort.go:24-66", "jsonvalue.go:496-526", "jsonvalue.go:135-163"]}
{"id": "C106", "title": "What a goroutine gets does not depend on the others", "statement": "Goroutines that each keep to their own values, to new ones and (reading) to common ones get the same results as if each were alone. Whatever the others parse, build, change, copy or marshal meanwhile, and however the steps are interleaved: Unmarshal of a text gives the document of that text or its error, a deep copy of a common or own document is that document, and Marshal of what was parsed or copied, or of a document given at the start, gives the text that it gives alone, with the default options of the start. Get finds what it finds alone, Equal and Contains of parsed documents answer for the documents of the texts, and after any calls of Set, Insert, Append and Delete on a parsed document, with new documents and at most one parameter, or of Set, Insert, Append and Delete with any paths and the containers Set and Append make on the way, Marshal gives the text of the document changed in this way.", "quantifier": "all texts, documents, options and heaps without dangling pointers; any number of goroutines running any programs of the calls of C105; all interleavings, of any length; any choice of addresses for new objects", "why_tests_cant": "The addresses of new values depend on the schedule; that nothing observable depends on them cannot be seen from any number of runs.", "anchors": ["jsonvalue.go:238-251", "jsonvalue.go:496-526", "marshal.go:38-53", "marshaler_unmarshaler.go:22-29", "get.go:42-133", "set.go:176-312", "insert_append_delete.go:180-286", "insert_append_delete.go:430-520", "insert_append_delete.go:561-632"]}
