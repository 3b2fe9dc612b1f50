# Formal model of go.jsonvalue in Lean 4

Everything lives in `lean/Verif`. `lake build` in `lean/` checks all of it.

* `Verif/Model/*`  — the code, function by function; each definition cites file and lines of /repo.
* `Verif/Spec/*`   — what the properties mean: JSON grammar, UTF-8, finite maps, lists. These
  files never mention model functions.
* `Verif/Proofs/*` — helper lemmas.
* `Verif/Props/*`  — one theorem (or a few) per property, with `example`s showing that the
  hypotheses are met by a non-trivial case, and witnesses where the code breaks a property.

## How the Go program is represented

* A byte slice is `List UInt8`. Reading or slicing out of range is an explicit `panic` result.
  Loops run on fuel; running out is an explicit `diverge` result. So "never panics" and
  "terminates" are theorems, not artefacts of totality.
* `error` values are an enumeration of the package's error kinds (`Err`). Message texts are not modelled.
* `*V` is an inductive tree `V` with explicit `nil` and `NotExist`. Aliasing between nodes is
  not visible in the tree; the properties about aliasing (C36, C38, C39, C47, C52) use a separate
  heap model with addresses (Model/Heap), which is proved to refine the tree model on unshared values.
* A Go map is a list of entries with distinct keys; the list order stands for the iteration order
  the runtime happens to pick. Theorems quantify over all orders (permutations).
* int64 / uint64 / uint32 are `BitVec`, wrapping as in Go. `int` is 64 bit.
* float64 is its 64 bit pattern. Conversions and strconv's float parsing/printing are
  uninterpreted parameters collected in `Env`; hypotheses on them appear in the theorem that needs them.
* The parser exists twice: `Model/ParseBuf` is the code as written, working with offsets on one
  mutable buffer and handing out *references* into it; `Model/Parse` is the same program on
  immutable suffixes. `ParseBuf` is proved to refine `Parse` (this is C01 and C04), the
  rest of the properties are then proved on `Parse`.

## Plan per property

| id | what is modelled | how it is proved |
|----|------------------|------------------|
| C01 | ParseBuf: every index expression may panic, fuel | loop invariant `sectEnd <= i <= len`, measure `len - offset`; induction on fuel |
| C02 | RFC 8259 grammar as an inductive relation text -> document | induction on the derivation, for an arbitrary continuation; exactly which documents are read (C02_exact) by uniqueness of the derivation in the accepted language |
| C03 | the lenient language really accepted, as a relation | false as stated: witnesses; exact characterisation (iff) proved, trailing data rejected |
| C04 | ParseBuf values are (start,end) references into the final buffer | frame invariant: writes stay inside the current literal, before the read position, and are the decoded text; the buffer after an error by Model/LeftBuf, which follows the same loops (`left_ok`: it agrees with ParseBuf after a success) |
| C05 | setToObjectChildren inside the parse loop | induction over members; distinct keys invariant |
| C06 | 64 bit wrapping accumulator | induction over digits, mod 2^64; false for some 20 digit literals: witness |
| C07 | NewInt64/NewUint64 with a decimal printer | printer/parser inverse by strong induction |
| C08 | escapeStringToBuff over decoded runes, all option combinations | induction over code points, bit-vector arithmetic for UTF-8/UTF-16 |
| C09 | Marshal with arbitrary iteration order, then Parse | output lies in the grammar of C02, composed; C09_exact by unambiguity of the lenient grammar (`ltext_unique`) |
| C10 | same | mutual structural induction; false with OptOmitNull, nested NaN: witnesses; exactly when the output is JSON (C10_exact, C13_exact_*): the written layout is determined by the text (Proofs/DocExact) |
| C11 | same | structural induction over emitted bytes |
| C12 | marshalNumber and the NaN/Inf option handlers | false for nested numbers: witness; top level theorem |
| C13 | writeObjectChildren with its firstWritten flag | lenient grammar of C03 accepts it; strict output false: witness |
| C14 | sort as any function returning a sorted permutation | uniqueness of sorted permutations for a strict total order |
| C15 | sortStringSliceV ordering | same |
| C16 | ids from incrID, sort by id | history invariant; 2^32 wrap is a stated hypothesis with a witness |
| C17 | combineOptions as a fold | induction on option lists |
| C18 | indent counter state | structural induction; layout specification given as a separate printer |
| C19 | Set.At and Get, tree model | induction on path; false for out-of-range intermediate index: witness; C19_exact shows the condition necessary |
| C20 | same | induction on path |
| C21 | operations return the tree also on error | case analysis and induction |
| C22 | same | induction; intermediate index rule false: witness |
| C23-C25 | Insert/Append/Delete | induction on path, list algebra |
| C26 | operation histories | refinement to finite map / list by induction on history |
| C27 | lowerCaseKeys cache with explicit lazy initialisation | invariant over histories |
| C28 | parameter extraction | case analysis |
| C29 | index arithmetic on BitVec 64 | omega / bit-vector lemmas |
| C30 | typed getters | case analysis; panics on blank strings: witness |
| C31 | MustXxx | case analysis; MustUnmarshal of empty input is nil: witness |
| C32, C33, C51 | Equal and comparisons; `decimal.NewFromString` as a parameter (C32, C33) and after its published source (C51) | mutual induction; order axioms of the rationals |
| C34 | beta.Contains | mutual induction |
| C35 | any number of goroutines, one step per atomic load or store of the two shared words | inductive invariant over all traces; overflow of the predictor: witness by induction on the number of calls |
| C36 | the parser with its arena threaded through, values carrying their Go objects | refines Parse; invariant on handed out nodes by induction on fuel |
| C37 | buffered channel and goroutine | state machine invariant, measure |
| C38 | heap of Go objects, deepCopy on it; two parts of a program with disjoint pointers | fresh objects by induction on fuel; region invariant over all programs |
| C39, C52 | the operations on the heap | refinement to the tree model on unshared values; every call writes one object below its receiver |
| C47 | the recursion of Marshal on the heap | exact condition (no cycle below the value); false for a value set into itself: witness; step lemma on new pointers |
| C40 | Go data as an inductive type, tags as records | mutual induction against a separate encoding/json specification; witnesses for deviations |
| C53 | Model/Import | mutual induction over Go data; witnesses for nil results and the panic; for all data the outcome is that of the first bad part in the order of `looked` (Spec/GoFate) |
| C41 | base64 quantum by quantum, after the library's source | against RFC 4648 on bits: induction in groups of three bytes and four characters |
| C42 | SortArray with sort as contract | permutation and sortedness |
| C43 | read operations return the new state; readers as programs of memory accesses | case analysis: only the caseless cache may change; structural induction: no write |
| C44 | classification | case analysis; NewFloat64 never IsFloat: witness |
| C45 | UnmarshalJSON/Binary, MarshalJSON/Binary; the former also on the heap (`hload`) | case analysis over C01 result; round trip through C09; on the heap the objects of the new value are new |
| C46 | histories | invariant; Append of NotExist: witness |
| C48 | key paths; once more as slices in shared arrays (Model/KeyPathSlice) | structural induction; simulation with a frame condition on the arrays; empty key reported as int: witness |
| C49 | KeyPath.String with the global default | exact panic condition, text against a printer specification |
| C50 | Range functions with stateful callbacks | induction on the list of children |
| C54 | goroutines as programs of reads and writes, interleaved (Model/Threads) | invariant over interleavings: memory unchanged, the rest of each program gives the same result |
| C55 | the same with a sync.RWMutex | simulation of a serial execution in which those inside have not entered yet |
| C56 | the pointer to the default options as shared memory | race: witness; with atomic words: invariant over interleavings |
| C57 | Set, Insert, Append with Go data: Import, then the tree operation | composition of C40 and C19; Append: witness |
| C58 | typed variants | case analysis over C19, C23, C24 and the accessors |
| C59 | NewObject(M), map in any order | induction over the entries |
| C60 | NewFloat64/32 and the layout of digits by strconv (published source), digits as a parameter | against the rule of ECMAScript 6 that encoding/json documents; exact condition for equality; witnesses |
| C61 | the same with Marshal and Parse | composition; integers out of range: witnesses |
| C62 | NewFloat64f/32f, every format and precision | list algebra, exact rational values |
| C63 | String(), ValueType (Model/Describe) | mutual induction against an inductive description |
| C64 | Export, json.Unmarshal as a parameter with stated assumptions (Model/Export) | composition of C10 and C45 with the assumption; unambiguity of the JSON grammar shows that the assumption can be met; exact conditions as for C72 |
| C65 | Range* with callbacks that change the value: slices with backing arrays, maps as in Go's specification (Model/RangeMut) | refinement of slices by lists for any capacity; loop invariants; witnesses |
| C66 | all byte arrays of a program, values with texts as ranges of them (Model/Buffers), on top of the parser with a mutable buffer | invariant: arrays the caller can write to are referred to only after UnmarshalNoCopy |
| C67 | no new model: Get, Set, Insert, Append and Delete with a path in two parts | induction over the first part, with the location it addresses |
| C68 | no new model: Unmarshal followed by Marshal with the order of the last Set | induction over the document: the value of a document is written as the document without overwritten members; the grammar of C01 reads it back |
| C69 | all methods of `*V` as one type of calls, run on a value (Model/Calls) | invariant over the histories of calls (C46): no nil pointer inside, keys without duplicates; then case analysis over the methods; programs by induction |
| C70 | no new model: Import, then the calls of C69 | mutual induction over the Go data: the result is a value built by Set, Append, parsing and copying; then the invariant of C69 |
| C71 | no new model: two edits of C19–C25 in a row | the trees are compared node by node at every location: apart from, at or below, or above the edited place (from C19, C20, C22); `Same` follows from agreement of shapes at every location. The array laws and `C71_apart` are equalities, from C23–C25 and C67 |
| C72 | json.Marshal and json.Unmarshal of a `*V` (Model/StdJson), with the syntax check as a parameter and compaction specified (Spec/StdJson) | compaction followed along the JSON grammar (`compact_text`): same document, no control characters; along the layout of the tree (`compact_doc`, `kept_doc`): the same for every layout; depth of the document compared with the nesting of the value; the byte-level grammar agrees with RFC 8259 on texts whose strings are written by Marshal, so the exact condition of C10 carries over (Proofs/StdGrammar, Proofs/StdExact) |
| C73 | no new model: the errors of the parser of C01 | the faulty texts and their errors as an inductive grammar beside that of the accepted texts (Spec/Errors); soundness by the induction of C01 over the parser's steps, completeness by induction over the grammar; C73_final by induction over the grammar |
| C74 | the byte accesses of the parser (Model/Work): for each function of Model/Parse one that follows the same calls and counts | amortisation: accesses plus seven times the length of the rest never exceed seven times the length of the text (plus the pending key), by the induction of the parser |
| C75 | the depth of the same calls | depth bounded by the opening brackets of the rest, by the same induction; counterexample by induction over the number of brackets |
| C76 | Marshal on the same value with its maps visited in another order (`Shuffled`, Spec/Describe) | lists related position by position (`Al`); both directions by induction over `Shows`; determinism by uniqueness of sorted permutations |
| C77 | Get, Set, Insert, Append, Delete on two values related by `Alike` (Spec/Alike) | a bisimulation: `Alike` with any relation on leaves is kept by every operation (induction over the path), then over the sequence; instances: Equal, the same up to order, shuffled maps |
| C78 | Unmarshal and Marshal as modelled; `weight` (Spec/Size) counts the bytes of a value | induction over the grammar (`lval_size`), the tree (`toV_weight`) and the document printer (`print_size`); two families of texts for the lower bounds |
| C79 | Get, Delete, Set, Insert and Append as modelled; the reasons for failing as relations (Spec/PathErr) | equivalence of "returns error e" and the relation, by induction over the path; corollaries for ErrNotFound and ErrOutOfRange in terms of Get |
| C80 | the parser of C02 again with positions and messages (Model/Message); what a message means in Spec/Message | the model erases to the one of C02; induction over the fuel of the two loops, taken as one: what is accepted does not depend on what follows, errors that point at a byte do not depend on what follows it, every state of a loop can be closed |
| C81 | the parser and the accessors as modelled; IEEE 754 formats, nearest number, and what strconv and Go's conversions are documented to do in Spec/Ieee | rational arithmetic: the nearest number exists, is unique and monotone; the token read is the number written (C06, `TextValue`); a witness for integers that wrap |
| C82 | the same, with the conversions of floats to integers | an integer that is a float64 is its own nearest float64, others cannot be read back; bounds on rounding near 2^63 and 2^64 |
| C83 | the same, with the conversion to float32 | rounding twice: exact condition (`round_twice`) from the position of the midpoints, which are float64 numbers; a witness |
| C84 | the same, with the fewest digits that strconv finds (`Fewest`) | C83 on the digits of C60; the digits of the two numbers at the limits 2^63 and 2^64 are computed from their definition |
| C85 | Model/Parse, Model/Marshal, Model/Modify, Model/Access; `Identical` (Spec/Stable): alike part by part, leaves equal | C09 with texts instead of values of numbers, a number being determined by its text (`Canon`); C77 (`Alike`) for programs, extended to Caseless |
| C86 | the same as C81 and C60 | the distance of two floats is at most the 2^52th part of the number (`val_gap_le`), that of two decimal numbers with 15 digits more than the 10^15th part, so no two of these round to the same float (`decimal_unique`); the fewest digits are no more than 15. Float32: no number with six digits comes close enough to the middle of two float32 numbers for rounding twice to matter; for each power of ten and of two two neighbouring convergents of the continued fraction certify it (`cert_sound`, `all_far` by `decide +kernel` over all 83 · 255 pairs that can occur, `six_mid` shows that no others can) |
| C87 | the same as C64 and C40; `interface{}` data as package reflect shows it (`anyGo`) | Import by mutual recursion over the data (`import_any`), Export by C64; the two relations `Exported` and `FromAny` together say where a number can differ (`exported_equal`), C86 says that 15 digits do not |
| C88 | the steps of Marshal (Model/MarshalWork): for each function of Model/Marshal one that follows the same calls and counts | amortisation: every visit is paid for by a byte that is written (a comma, a bracket, a colon), by mutual recursion over the value with the depth of lines as a parameter; counterexample by induction over the number of brackets |
| C89 | the accessors of jsonvalue.go (Model/Access, Model/Describe) | case distinction over the value; the grammar of accepted texts (C03) for what Unmarshal returns; the printed document (C08) for Marshal |
| C90 | Marshal with key paths as slices of arrays with any growth of append (Model/KeyPathSlice, as in C48); the storage is the sum of the lengths of all arrays | false: witness for any growth, by the depths at which the array of a path is full; upper bound by induction over the value and the sorted members |
| C91 | for each function of Model/Compare one that counts calls, bytes, keys and decimal digits of the integers compared (Model/CompareWork) | false: witnesses; bounds by induction over the values, with the number of digits of a rescaled decimal |
| C92 | Import over values that refer to each other by address, with a bound on nested calls (Model/ImportGraph) | false: witnesses; accessibility of what is followed gives a depth at which the run is that over the unfolded tree; a value returned gives accessibility back; pigeonhole for finitely many values |
| C93 | Equal and Contains on the heap of Model/Heap with a bound on nested calls (Model/HeapCompare); looking alike as a bisimulation (Spec/HeapCompare) | false: witnesses; the run is bounded by a read of either value; a true answer gives a bisimulation and a finite read, and back |
| C94 | `ParentInfo.parent` through writeMembers and marshalElems; the parent at a location stated with `V.at` (Spec/Marshal `ParentAt`) | false: witness; induction over the value with the location and its parent as invariant |
| C95 | the heap of Model/Heap; the size of a tree (`weight`, Spec/Size) against the sum over the objects (Spec/Sharing `memory`) | false: witness for every n; sums over the list of objects that a tree is made of (`Hangs`); the exponential bound by induction over the set of objects that may still occur |
| C96 | Go data around values (Spec/Holder `Hold`), json.Marshal and json.Unmarshal of it (Model/Holder) | false: witness; else induction over the data, with C72 at the places and the grammar of JSON unambiguous |
| C97 | variables over shared maps, indexes and backing arrays (Model/Copies), families of members (Spec/Copies) | false: witnesses; else refinement of the families for every program, with the invariants that each index is sound, or exact and shared |
| C98 | backing arrays and slice headers as in Model/RangeMut (C65); the cells behind the last element are `spare` in Spec/Retain | the effect of each slice operation on these cells, then induction on the history; negation by a history of four calls |
| C99 | Model/ChanMut: value with its backing arrays, goroutine (range expression evaluated when it runs, one read per element), buffered channel, caller that receives and changes; IterObjects with the runtime's fatal error | invariants over all interleavings; runs constructed by induction on the array for the negative results |
| C100 | Model/OptionAlias: options that hold references to slices, programs over them | refinement to Model/Option by reading the slices: one simulation for programs that leave the slices alone, one for all programs |
| C101 | Model/PoolKeep: pointers between values, arena and text as an inductive relation over the parser with nodes (Model/Pool) | induction over the relation gives its closed form; one induction over both parser loops shows which values are in the arena |
| C102 | Model/CaselessWork: the functions on one object with their steps | potential method: five steps for each member until the index is there; the exactness of the index (C27) bounds the keys tried |
| C103 | Model/ArrayWork: the elements written by the operations on slices of Model/RangeMut | potential method: credit 5*len - 4*cap pays for the next larger array |
| C104 | Model/ThreadsWrite: the changing calls as programs of memory accesses | a program keeps to a part of the memory; simulation of each goroutine by itself alone, invariant over all interleavings |
| C105 | Model/ThreadsMake: the allocating calls as programs of memory accesses | the own part of each goroutine grows by what it allocates; invariant over all interleavings |
| C106 | Spec/ThreadsSame: known parts of the memory, the document below a pointer; Spec/ThreadsEdit: code that changes a value by Set, Insert, Append and Delete, one call after the other, and by Set, Insert, Append and Delete with any paths | a predicate on programs that holds for all addresses of new objects, with a frame rule (what the code need not know stays); for paths, documents whose objects are in one place each, by recursion on the path; invariant over all interleavings on top of that of C105 |

## Trusted base

* The Lean 4 kernel. Axioms: at most `propext`, `Classical.choice`, `Quot.sound`; AXIOMS.txt lists them per
  theorem (written by tools/axioms.py). No `sorry`, no `native_decide`, no `bv_decide`, no added axioms.
* The reading of the Go code recorded in the comments of `Verif/Model`. Nothing was generated from the Go
  sources and nothing was executed: the model is a transcription.
* Go's language semantics as stated above, `int` having 64 bits.
* Standard library functions, as parameters of the theorems: `Env` (strconv.ParseFloat, float to integer conversions,
  strings.ToLower, unicode.IsSpace trimming, json's float format). Where a theorem needs a fact about one of them it is a hypothesis.
* IEEE 754 (C61, C81 to C84): `Ieee E` says that ParseFloat and Go's conversions round to the nearest number, `GoDigits O` that FormatFloat with
  precision -1 finds the fewest digits that read back, and of these the nearest. `ieeeEnv_ok` and `goDigitsFn_ok` show that both can be met.
* json.Unmarshal, called by Export: a parameter with the contract `GoodDec` (what it must give for a document is specified on the grammar, Spec/Export);
  `C64_decoder_exists` shows that the contract can be met. Likewise its syntax check, `GoodCheck` (`C72_check_exists`), which takes exactly
  the texts of the byte-level grammar `GText` (Spec/StdGrammar: like RFC 8259, but any bytes from 0x20 on in strings and any four hexadecimal digits
  after `\u`) that nest at most 10000 deep, and what it does to the text of a MarshalJSON (`compact`, after the source of encoding/json).
* The stack: parsing, Marshal, Equal, deepCopy and the like recurse with the depth of the document. Go's limit (1 GB by default) is not modelled:
  a call on a document nested millions deep may end the program instead of returning what the theorems say.
* sort.Sort and sort.Slice: `SortFn` with the contract `GoodSort` (permutes; sorts if Less, called on different
  positions, is a strict weak order). `insertionSort_good` shows that the contract can be met.

## What is modelled, and what is not

Modelled: unmarshal.go (all of it, including in-place unescaping and the number lexer); Unmarshal*, MustUnmarshal*, UnmarshalJSON/Binary;
Is*, Int/Uint/Float/String/Bool accessors; New* for scalars, objects and arrays; Get and the typed getters, caseless included;
Set, Insert, Append, Delete with their Must variants; Marshal with every option; the arena and size predictor (with interleaved goroutines); IterObjects/IterArray with their goroutine; the option merging and SetDefaultMarshalOptions;
escaping; the three key orders; KeyPath; Range*, ForRange*; SortArray; Equal and the four comparisons; beta.Contains for a `*V` and for Go data; Set, Insert and Append with Go data; their typed variants; NewObject(M).
Not in the repository but modelled after their published source: base64.StdEncoding (NewBytes, Bytes, GetBytes); `decimal.NewFromString` and decimal comparison (shopspring/decimal v1.4.0); the layout of digits in strconv.FormatFloat (the digits themselves are a parameter).
On a heap of objects: deepCopy, and Get, Set, Insert, Append, Delete, SortArray and UnmarshalJSON on shared values.

Import for every kind of Go data (the kinds are listed in Model/Import, `GoVal`) with OptIgnoreJsonOmitempty; the value of MarshalJSON and MarshalText of foreign types is data. encoding/json is specified independently after its documentation (Spec/GoJson).

Goroutines (Model/Threads): the reading calls and caseless Get as programs of single reads and writes, any interleaving, sequentially consistent;
a data race is a state in which two goroutines are about to make conflicting accesses (Go's memory model promises sequential consistency to programs without races).
The modifying calls are not given as such programs; C55 covers them as arbitrary code under the write lock.

String() and ValueType (Model/Describe); Export into an `any` and into a `*V`, with json.Unmarshal as a parameter (Model/Export); other destinations are not covered.

json.Marshal and json.Unmarshal of a `*V` at top level (Model/StdJson); as part of other Go data in Model/Holder (no nil slices or maps, no omitempty, no embedded fields; for reading: texts with the elements and keys of the data).

Loops whose callback changes the value (Model/RangeMut): arrays as slices of backing arrays with any growth of append, maps with any order and any choice for added keys.

Byte slices (Model/Buffers): which arrays strings, keys and number texts point into. All calls that only move values about are one abstract operation there.

Model/Calls lists the methods of `*V` with all their arguments as one inductive type; `Call.run` maps each to its model, keeps the value
afterwards and drops the result. Convenience methods that only make the child (SetInt, …) are the general call with that child (C58).

Model/Work has the costs of Unmarshal (byte accesses, nested calls) as functions beside those of Model/Parse; where the parser goes on is decided
by the results of the functions of Model/Parse, so that the costs are those of the same run. What is counted is listed at the top of the file.

**Order of visiting maps** (C76). A map is a list of members in the order in which the runtime visits it. One call of Marshal is `marshal` on some list order; theorems that compare two calls on the same `v` (C17, C18, C72_same_text, C72_indent) compare them for the same order, so they say that the same texts are possible. C76 says which these are, and when there is only one.

Exactness (Props/Exact): for the properties that are false as stated the condition under which they hold is shown to be necessary as well as sufficient.
`JsonOK` (Spec/Exact) describes the values whose output is JSON; it knows nothing of the printer. `hF` in C10_exact and C13_exact_* is what is assumed of
strconv.FormatFloat: finite floats are rendered as JSON numbers.

Messages: Model/Message.lean is the parser of Model/Parse.lean with the index into the text and with the message of each error (its kind and what is put into it) instead of the wrapped constant; `unmarshalM_forget` proves that without messages and positions it is Model/Parse.lean. The wording of messages is only in comments.

Floating point numbers: formats, values, nearest numbers and fewest digits (Spec/Ieee), as the documented behaviour of strconv and of Go's conversions; subnormal numbers, infinity and -0 included, NaN is never read.
Model/MarshalWork has the steps of Marshal in the same way, for options that do not order members (with them, what the sort costs would come in).

import_export.go once more over values in memory that may refer to each other (Model/ImportGraph), for C92.

compare.go `Equal` and beta/contain.go `Contains` once more on the heap (Model/HeapCompare), for C93.

Model/ChanMut has IterArray and IterObjects with a caller that changes the value meanwhile (C99). Memory is sequentially consistent there; a write to a map while the goroutine ranges over it always ends the program (the Go runtime does not notice every time).

Model/OptionAlias has options that hold references to the caller's string slices (C100).

Model/PoolKeep has what the garbage collector keeps while one value of a parsed document is held (C101).

Model/CaselessWork has the steps of reading, setting and deleting a member, with the index of lower-cased keys (C102).

Model/ArrayWork has the elements written while an array is changed (C103).

Model/ThreadsWrite has the changing calls as sequences of memory accesses (C104).

Model/ThreadsMake and Model/ThreadsPath have the calls that make values, those with paths, SortArray and Unmarshal as sequences of memory accesses (C105).

Not modelled (yet): texts of errors that do not come from Unmarshal; performance apart from C74, C75, C88, C90, C91, C95, C102 and C103.

## Deviations found in the code

Each is a theorem (negation of the stated property with a concrete witness, or an exact characterisation).

| property | what happens | theorem |
|----------|--------------|---------|
| C02 | some standard number literals of 20 and more characters made of zeros are refused | `C02_counterexample` |
| C03 | `[,]`, missing commas and other non-JSON texts are accepted; the accepted language is characterised | `C03_counterexample` |
| C04 | UnmarshalNoCopy refuses `"\u0022` followed by blanks, and accepts the same slice afterwards | `C04_second_try` |
| C06 | `28446744073709551616` is accepted with a wrapped value | `C06_counterexample` |
| C08, C10, C11 | U+000B is written raw into strings | `C08_counterexample`, `C10_counterexample`, `C11_counterexample` |
| C09 | NewFloat64f(1e20, 'f', -1, 64) is written as an integer that the parser refuses | `C09_counterexample` |
| C10, C12 | a NaN below the root gives `{"a":}` and no error | `C10_counterexample_nan`, `C12_counterexample` |
| C10, C13 | OptOmitNull drops a comma | `C10_counterexample_omitnull`, `C13_counterexample` |
| C10 | `-05` is read and written back | `C10_counterexample_number` |
| C15 | OptKeySequence with an empty list sorts nothing | `C15_empty_counterexample` |
| C16 | after 2^32 calls of Set the order wraps | `C16_counterexample` |
| C19, C20, C22 | an out of range index in the middle of a path appends instead of failing | `C19_counterexample`, `C20_counterexample`, `C22_counterexample` |
| C28 | a slice in the middle of the parameters is taken for the whole path | `C28_counterexample` |
| C29 | a uint64 index of 2^63 or more counts from the end | `C29_counterexample` |
| C30 | number getters panic on a blank string | `C30_counterexample`, `C30_getInt_empty_panics` |
| C69 | Before and InTheEnd panic on a nil `*V` where After and InTheBeginning return an error; a nil child is accepted by Append and Insert and makes later calls panic | `C69_nil_receiver`, `C69_nil_child` |
| C31 | MustUnmarshal of empty input returns nil | `C31_counterexample` |
| C35 | 2^30-4 calls of Unmarshal on `null` followed by 2^31-1 on `1` overflow the size predictor to 0; every later call panics (division by zero) | `C35_counterexample`, `C35_counterexample_forever` |
| C40 | Import differs from encoding/json: nil slices and nil `[]byte` are `[]` and `""`; `type ID []byte` is an array of numbers; omitempty acts through pointers and on map values, but not on `[0]T`; string acts on elements of slices but not on strings; the tag `-,` drops the field; names in tags are trimmed; embedded structs with a name in the tag, embedded nil pointers and embedded maps; no rules for fields of the same name; nil pointers to a Marshaler are dropped; NaN is accepted | `C40_nil_slice` … `C40_nan` |
| C53 | Import returns nil without an error for a nil `*time.Time`; a nil in a slice becomes a nil element and Marshal panics; Import panics on `struct{ list }` with `type list [][]byte` | `C53_nil_result`, `C53_nil_element`, `C53_nil_embedded`, `C53_panic` |
| C44 | IsFloat is false for NewFloat64(1.5) | `C44_counterexample` |
| C46 | Append(&V{}) leaves a NotExist element | `C46_counterexample` |
| C47 | `v.Set(v).At("a")` makes a cycle, and Marshal then recurses until the stack is exhausted | `C47_counterexample` |
| C48 | an empty key is reported as an index | `C48_kinds_counterexample` |
| C48 | a KeyPath kept by the less function may read differently later | `C48_kept_counterexample` |
| C56 | SetDefaultMarshalOptions, documented as goroutine-safe, races with Marshal | `C56_counterexample` |
| C49 | KeyPath.String panics unless SetDefaultMarshalOptions was called | `C49_counterexample` |
| C57 | Append of a value that Import refuses reports no error and adds a NotExist element; Marshal then writes `[,1]` | `C57_append_channel`, `C57_counterexample` |
| C59 | NewObject(M) writes float32(0.1) as 0.10000000149011612 | `C59_float32` |
| C60 | NewFloat64(0) is written as `0e+00`, 1e-7 as `1e-07`, NewFloat32(1e-6) as `1e-06` | `C60_exact`, `C60_differences` |
| C61 | NewFloat64(3e19) is written as an integer that Unmarshal reads as 11553255926290448384 without an error; 1e20 is refused | `C61_wraps`, `C61_refused` |
| C64 | a string with U+000B cannot be exported | `C64_counterexample` |
| C64, C72 | a value that nests deeper than 10000 is marshalled, but cannot be exported or passed to json.Marshal | `C64_too_deep`, `C72_json_marshal_partial` |
| C72 | json.Marshal fails for a string with U+000B | `C72_counterexample` |
| C73 | `nulx` is reported as ErrNotValidBoolValue (unmarshal.go:648), `nul` as ErrNotValidNullValue | `C73_literals`, `C73_counterexample` |
| C73 | ErrNotValidNumberValue is never reported: numErrorf wraps no constant | `C73_listed` |
| C73 | an unclosed string is an error without a constant | the examples beside C73 |
| C75 | the parser has no limit on nesting; a text of some hundred megabytes of `[` exceeds Go's stack limit of 1 GB, which is fatal | `C75_counterexample`, `C75_unclosed` |
| C65 | a RangeArray callback that deletes element i each time leaves every second element; deleting in the callback skips elements, shows others twice, and calls the callback with nil | `C65_removes_half`, `C65_skips`, `C65_nil_child` |
| C34 | Contains panics on a nil part of the second argument | `C34_nil_panics` |
| C51 | 1e-3000000000 is Equal to 0 | `C51_counterexample` |
| C51 | NaN, +Inf, -Inf and 0 are all Equal | `C51_counterexample_special` |
| C80 | `expect at least L remaining bytes, but got G` has its two numbers exchanged | `C80_short_rune` |
| C80 | for `{"a"::1}` the position is that of the key, not of a colon | `C80_colons_counterexample` |
| C80 | `-01234567890123456789` is said to be too large although it fits and is only badly written | `C80_range_counterexample` |
| C61 | NewFloat64(-9223372036854775808) is written as -9223372036854776000, which Unmarshal refuses | `C61_bits` and the example after it |
| C81 | integers from 2^64 on wrap, also for Float64 | `C81_counterexample` |
| C82 | Int64() of 9007199254740993.0 is 9007199254740992 | `C82_counterexample` |
| C83 | Float32() of 7.038531e-26 is not the nearest float32 (it is rounded twice) | `C83_wrong` |
| C84 | NewFloat32 of 7.038531e-26 (bits 15ae43fd) comes back from Marshal and Unmarshal as the next float32 | `C84_wrong` |
| C44 | GreaterThanInt64Max of 9223372036854775296.0 is true though it is below the largest int64; `-0` is negative, `-0.0` is not | `C44_greater_counterexample`, `C44_zeros` |
| C85 | IsFloat of NewFloat64(1.5) is false, of what is read back from its text true | `C85_counterexample` |
| C86 | 4.9e-324 is read as the smallest float64, for which NewFloat64 writes 5e-324; 30000000000000000000 wraps | `C86_subnormal`, `C86_wraps` |
| C87 | 9007199254740993.0 comes back from Export and Import as 9007199254740992; Import takes a string with U+000B that Export then refuses | `C87_counterexample`, `C87_vertical_tab` |
| C88 | with OptIndent and an empty indentation the time is quadratic in the length of the text: the loop of writeIndent counts up to the depth of the line and writes nothing | `C88_counterexample`, `C88_quadratic` |
| C89 | Unmarshal of the empty text returns nil together with the error, on which IsNull and the others panic | `C89_text`, `C89_nil` |
| C90 | Marshal with a less function (OptDefaultStringSequence) takes storage quadratic in the text for deep arrays with many elements: each element copies the path to it | `C90_quadratic`, `C90_counterexample` |
| C91 | Equal, LessThan and the like of short numbers with large exponents build integers with as many digits as the exponents differ: two texts of 14 bytes together ask for 2147483648 digits | `C91_counterexample`, `C91_huge` |
| C92 | Import of cyclic Go data (`m["m"] = m`, a doubly linked list) recurses until the stack is exhausted, where encoding/json returns an error | `C92_counterexample`, `C92_never` |
| C93 | Equal and Contains of a value that was set into itself recurse until the stack is exhausted; for two such values, whether Equal returns can depend on map iteration order | `C93_counterexample`, `C93_order` |
| C94 | `ParentInfo.Parent` is the object being sorted if that object is a member of an object, but the enclosing array if it is an element of an array | `C94_counterexample`, `C94_called_with` |
| C95 | a value stored in several places is written once for each: 3n + 1 calls of NewArray and Append make a value with a text of 5 * 2^n - 3 bytes | `C95_doubling`, `C95_counterexample` |
| C96 | a V in a map, or in a struct passed to json.Marshal by value, is written as {} without an error; null in a *V is read back as a nil pointer | `C96_counterexample`, `C96_places`, `C96_null` |
| C97 | V copied by assignment: caseless Get misses keys set through the other copy, set order is lost, deletion from an array leaves a nil pointer or a doubled element in the other copy | `C97_counterexample`, `C97_order_counterexample`, `C97_array_nil` |
| C98 | An element deleted from an array can stay in memory as long as the array, because Delete does not clear the cell behind the new end | `C98_counterexample` |
| C99 | IterArray and IterObjects read the value in a goroutine: a change by the caller meanwhile loses, repeats or adds elements, leaks the goroutine, or ends the program (map) | `C99_counterexample`, `C99_missed`, `C99_skipped`, `C99_leak`, `C99_objects_fatal` |
| C100 | OptKeySequence and Opt keep the caller's slice: assigning to it later changes what Marshal gives, also through the defaults | `C100_counterexample`, `C100_reuse` |
| C101 | a number, array or object taken from a parsed document keeps the whole document in memory | `C101_counterexample`, `C101_whole` |
