# Formal model of suiyunonghen/dxsvalue in Lean 4

## Layers of the model

* `Verif/Base.lean` – bytes (`List UInt8`), the result type `Res` (`ok`/`err`/`panic`/`loop`),
  big/little endian helpers, decimal printing.
* `Verif/Env.lean` – the functions that live outside /repo (package DxCommonLib and the Go
  standard library: `ParserEscapeStr`, `EscapeJsonbyte`, `StrToIntDef`, `StrToFloatDef`, `ParseFloat`,
  `ParserJsonTime`, `strings.EqualFold`, float/time conversions). They are *parameters* of the model
  (a structure `Env`); every theorem is for every `Env`, laws that a theorem needs are explicit
  hypotheses and a concrete `Env` satisfying them is exhibited.
* `Verif/Val.lean` – `Val`, the tree a `*DxValue` denotes (data type, raw/unescaped string, 8-byte
  scalar cell, ext type, ordered members, nil pointers).
* `Verif/MsgPack*.lean`, `Verif/Bson*.lean`, `Verif/Json*.lean` – the codecs, function by function, on `Val`,
  and independent specifications of the wire formats (inductive relations).
* `Verif/Heap*.lean` – nodes addressed by pointers, shared constants, caches and the pool; the mutating
  API (SetKey…, SetIndex…, clone, MergeWith, ForcePath, FreeValue…).
* `Verif/Yaml*.lean`, `Verif/IO*.lean`, `Verif/Conc*.lean`, `Verif/Reflect*.lean` – YAML line parser,
  file functions, interleavings of lazy key unescaping, conversion from/to Go data.
* `Verif/Props/*.lean` – the property theorems (statement files), with non-vacuity examples.

Conventions: an index out of range / nil dereference in Go is `Res.panic`; a returned `error` is
`Res.err`; a Go loop is structural recursion, or recursion on a fuel argument whose sufficiency is proved
(`Res.loop` = fuel exhausted; theorems show it is not reached, or, for YAML, that it is reached for every fuel).
Floats are bit patterns. Memory is little endian (amd64), as the code's `unsafe` accesses assume.

## The heap layer

* `Heap/Model.lean`: a memory of nodes (`Heap`): pointers are numbers, 0–4 are the shared constants
  `valueNULL/True/False/NAN/INF`; caches are lists of slots (the Go slice `Value[]`), a length, and `fisroot`; the
  `sync.Pool` is a list from which any cache may be taken (`pick`), growth of slices is an arbitrary function (`grow`).
* `Heap/Alloc.lean`: the allocator invariant `Inv` and what each allocation does.
* `Heap/Rep.lean`: `Rep mem v p F` – pointer `p` denotes tree `v` using exactly the nodes `F`; `Good` = proper tree
  whose nodes are not available to the allocator; `Upd` = an operation that turns one good tree into another
  without touching any other live node (frame). `Heap/Tree.lean`, `Heap/Ops.lean`, `Heap/Force.lean`: every mutating
  operation is an `Upd` to the tree given by a pure function on `Val`.
* `Heap/Step.lean`, `Heap/CopyStep.lean`: what every operation does to the allocator, on arbitrary memories (trees or not).
* `Heap/Copy.lean`: Clone, AddFrom, CopyFrom, Equal, MergeWith, binaries. `Heap/Calls.lean`: the type `Call` of all
  modelled API calls with arbitrary pointers as arguments, and histories of them.
* `Heap/World.lean`: several values in use at once (`WInv`): each is a tree with its own nodes and its own caches, the pool
  contains caches nobody uses. `Heap/Mut.lean`: each node operation on a node of any type. `Heap/Prog.lean`: programs with
  variables over these operations; a node is named by a variable and the member positions leading to it. Left out of the
  programs: operations on shared constants (they leave hidden fields in the constant that a later `SetKey` on the same
  constant finds), a value stored inside itself, `Clear`/`FreeValue` of inner nodes, keeping the result of `ExtractValue`
  (its node may be a slot of the cache of the value it came from, so `Clear` of that value recycles it), copying values with
  own nodes of type True/False/NAN/INF.
* `Heap/Clone.lean`: `clone`, `AddFrom`, `CopyFrom` on trees: the tree they make (`cloneVal`), exactly when they panic (a nil
  inside), how much fuel they need (`height`); the copies are made of nodes that were available (`Made`). The loops of
  `AddFrom` and `CopyFrom` read the source again in each round and append the member before its value is copied; that slot
  is taken to be nil (in Go it may hold an old pointer after `RemoveKey` or `ExtractValue` shortened the list).
* `Heap/Self.lean`: `AddFrom` of a value to itself never ends.
* `Heap/Equal.lean`: `Equal` on trees: its result as a function of the two trees (`eqVal`), and what it leaves behind (the
  same trees with some names and strings unescaped, `Softer`); comparing a value with itself.
* `Heap/Merge.lean`: `MergeWith` on trees: arrays (values without pending escapes, which `Equal` leaves alone) and objects
  (`mergeM`, as long as no container or constant of `v` is met under a common name).

## The YAML layer

* `Yaml/Model.lean`: the line parser of yamlparse.go on the memory of nodes: stack of pointers, named values (`&x`), copies
  (`*x`), merges (`<<`), parsers from a pool with stale fields. The pool of caches and the memory are arbitrary.
* `Yaml/Young.lean`: aliases can make the result share nodes, so trees (`Rep`) do not describe the state; what is kept
  instead: the nodes made since the start have no nil child (except while members are copied into them), only children among themselves, no cycle (`Young`).
* `Yaml/Ends.lean`: `Ends` – with every fuel the same result or out of fuel, no panic. `Yaml/Safe.lean`, `Yaml/Loop.lean`:
  every step of the parser keeps this. `Yaml/Pool.lean`: parsers that differ in `ifFirstObjEle` only.
* `Yaml/Flat.lean`, `Yaml/Nested.lean`: texts of block mappings (`YMap`), the stack between two lines (`Pos`), and the tree under
  the open object after each line (`block`, `flat`).
* What `LoadFromYaml` leaves in memory after an error is modelled in `Yaml/Keep.lean` (`parseErr`), for the histories of `Load/Ops.lean`.

## Files

* `IO/Model.lean`: `ReadFile` against an arbitrary operating system (`Os`: sizes of reads, early end of file, errors, growth of
  the slice, bytes scribbled behind the data); `Value2File` as a list of actions on the file that may be cut anywhere, or
  whose writes may fail; `os.OpenFile` as far as its flags matter for the code. A file without `O_WRONLY` refuses writes.

## Go data

* `Reflect/Model.lean`: Go data handed to `SetValue` (`Go`: scalars, byte slices, times, maps in the order in which the iteration hands
  out their entries, slices, structs) and `SetValue`, `SetKeyvalue`, `SetIndexvalue` on the memory of nodes. `Reflect/Spec.lean`: which trees
  mirror which data, without reference to the order of entries; another order of the same data (`Order`). `Reflect/Proof.lean`: simulation.
* `Reflect/Std.lean`: `ToStdValue` on trees, for maps, slices and pointers to structs (types `Ty`, Go values `GV` with the capacity of slices).
* Times are identified with their Delphi number. Registered converters and `DxValueUnMarshaler` are arbitrary functions (C111). Not
  modelled: types with `DxValueMarshaler`, fields of interface type, unexported fields (reflection refuses to set them: panic), pointers inside the data.

## Byte arrays (`Verif/Buf`)

* The other layers keep strings and binaries as lists of bytes. `Buf/Model.lean` models the three parsers once more with references: own
  bytes, or a window (array, offset, length, capacity) into the input. The memory does not change during the parse. `FastByte2String`
  (external) is a window, `ParserEscapeStr` (external) is taken to return own bytes.
* `Buf/MsgPack.lean`, `Buf/Json.lean`, `Buf/Bson.lean`: the parsers with references against the parsers on trees.
* `Buf/Ops.lean`: `SetBinary`, `SetExtType`, `Binary` and writes of the caller on slices, with Go's `append` (in place if it fits, else a new
  array with arbitrary spare capacity).
* Not modelled with references: the `LoadFrom…` methods on existing values, and everything that only passes strings on (strings of
  Go cannot be written to; after `sharebinary` they change with the input).

## Goroutines

* `Conc/Model.lean`: lookups of names and `String` by several goroutines on one value: each read or write of a field is one step, the
  steps come in any order (a schedule is a list of goroutine numbers). Strings are read and written whole.
  `Conc/Proof.lean`: the invariant of the object and of each goroutine.

## Loaders in memory (`Verif/Load`)

The format layers return trees. `Load/MsgPack.lean` and `Load/Json.lean` model the same parsers as they build values in memory, with
nodes taken from a cache (a recycled one may hold old contents) or from the allocator; `Out` is the outcome with the memory after it.
`Sim` says that a parser in memory does what the parser on trees does: same error or panic, or a new tree in memory that was
available, nothing else changed. `canon` forgets the upper half of the cells of Float values, which `SetFloat` does not write. After an
error the nodes made so far are abandoned, or freed where the code frees them (`ErrOk`). `Load/Bson.lean` is the BSON decoder in memory,
`Load/BsonSim.lean` its simulation by the tree decoder (bit for bit). `Load/Into.lean` and `Load/IntoJson.lean`
are the parsers that change an existing value (`LoadFromMsgPack`, `LoadFromJson`). `LoadFromJson` appends a
member before it reads the key, as the code does, so that what an error leaves behind is modelled; simplifications: inside an object that is
made new (and abandoned after an error) the member is appended when its value is complete, and the appended member is empty (the code
shows the contents of an earlier use of that memory until they are overwritten).

`Load/Ops.lean`: histories of all exported operations (`Op`), with arbitrary pointers as arguments and also after errors. The comment
at its head says which exported functions are sequences of others. The members of nodes after a `LoadFromJson` are over-approximated
(arbitrary), because an appended member may show old contents. A call that panics ends the history, also when the panic is recovered.

`Load/Prog.lean`: programs (`PCmd`) over variables: those of `Heap/Prog.lean` and parsing. `Load/Fill.lean` and `Load/BsonFill.lean` say what
loading leaves in a value (a tree, and nothing else changed), also after an error; `Load/World.lean` carries this to several values in use.
After a failed JSON document the members of all nodes the parser may have touched are arbitrary, and the value is not used any more.

## Per property: what is modelled, how it is proved

| id | model | proof |
|----|-------|-------|
| C01 | decoder `parseMsgPackValue` on bytes with tail; spec relation of MessagePack | induction over the spec derivation |
| C02 | encoder `Value2MsgPack`; same spec relation | structural induction over values |
| C03 | both | corollary of C01, C02 |
| C04 | `writeInt` | case split on the 9 ranges + arithmetic |
| C05 | all encoders with an explicit dst buffer | structural induction |
| C06 | decoder with explicit panics; `Stuck` (`MsgPack/Stuck.lean`), the inputs that panic, as a grammar | counterexamples; `C06_exact`: a panic exactly on the words of that grammar |
| C07 | decoder | induction on fuel |
| C08 | decoder | extension lemma + C03 |
| C09 | `writeExtCode`, ext decoding | theorem for all lengths but 1, 2, 4, 8, 16; for these: the bytes are never a serialisation of the extension, what they are read as and what is left over is given exactly, and exactly five such extensions (one of each length, type 0xc7) are read back as they were |
| C10 | `parseMsgPack2Value` on heap/target | case analysis, counterexample for strings |
| C11 | heap decoders over arbitrary dirty caches refine the tree decoders | simulation |
| C12 | BSON writer with explicit back-patching | structural induction |
| C13–C17 | BSON reader and writer | induction; counterexamples for the defective kinds |
| C18 | JSON decoder; grammar relation | induction over the derivation |
| C19,C20 | JSON writers land in the grammar | structural induction, then C18 |
| C21 | JSON decoder with explicit panics and fuel | induction on fuel |
| C22–C27 | JSON scanner functions | induction on lists; counterexamples |
| C28,C41 | lazy key unescaping | induction over key lists; counterexample |
| C29–C34 | heap operations refine operations on trees | simulation; corollaries on association lists |
| C35 | heap invariant over all exported operations (`Load/Ops.lean`) | invariant induction over histories |
| C36 | cell level model of the scalars | bit-vector facts |
| C37 | heap clone | induction on the tree, frame lemma |
| C39,C40 | mergeObject, MergeWith on heap | simulation on trees, then union of association lists; counterexamples |
| C42 | String() then encoders | counterexample + partial |
| C69,C70 | heap clone | as C37 |
| C38,C71,C72 | heap Equal | simulation by `eqVal`, then induction over pairs of trees; counterexamples |
| C43,C44 | allocator state machine | invariant over all histories |
| C45–C48,C73,C74 | YAML machine | counterexamples (every fuel), invariant, induction over lines |
| C49 | reader loop against an arbitrary read schedule | induction |
| C50,C51,C75,C76 | file state machine | computation, counterexample |
| C52,C77,C78 | small step semantics of any number of goroutines | invariant over all schedules; counterexample schedules |
| C53,C54,C79 | Go data as an inductive type | induction; counterexamples |
| C81 | `parseJson2Value` on heap/target | reduction to the parser in memory; counterexamples |
| C82,C83 | `parseBsonDocument` on heap | simulation by the tree decoder under an invariant (`Solid`: what the decoder meets is never a shared constant); counterexamples |
| C84–C87,C89 | getters and enumeration on nodes (`Heap/Read.lean`) | a node of a good tree shows its value; case analysis on the kind; counterexamples |
| C88 | `Visit` as a loop over any callback with state | induction over the remaining members; counterexamples |
| C90,C91 | mergeObject with an arbitrary merge function | the simulation of C39 with the answers as a parameter; counterexample on the path |
| C92,C93 | the three parsers with references into the input (`Buf/Model.lean`) | simulation of the tree parsers (`RR`); all references own / inside the input |
| C94–C97 | `SetBinary`, `SetExtType`, `Binary` on slices (`Buf/Ops.lean`) | separation: each cell has its own array; counterexamples by aliasing |
| C98,C99 | `ToStdValue` with the other destinations (`Reflect/Std.lean`) | induction over the members; case analysis; counterexamples |
| C100–C102 | YAML lists (`Yaml/Block.lean`) | spec `YB` of nested blocks; induction over blocks with a position predicate on the parser stack; counterexamples |
| C103 | AddFrom and CopyFrom with their loops over growing lists | disjoint trees: `addFrom_spec`, `copyFrom_spec`; induction on the fuel of the loop; counterexamples |
| C104 | the decoders on trees | induction on the fuel of the decoders: each adds parts without nil; counterexample for the reserved code |
| C105 | the loaders in memory, with what they leave after an error | `BFill` (proper tree) and `HoldS` (no nil below the value) also after an error; counterexamples |
| C106 | `ADoc.eval` says what a text with anchors, aliases and merges stands for (`YV`); it has no value where the parser deviates | the line-by-line parser leaves exactly that value in memory, as a tree; fuel is the number of lines; counterexamples for the deviations |
| C107 | `Doc` and `Says`: a document by itself and what a value in memory says about it; `chain` runs encoders and decoders one after the other | each conversion keeps `Says` for portable documents, so does every chain; counterexamples for escapes and names; for MessagePack and BSON alone the exact set, from C138 and C15 |
| C108 | `marshal`, `unmarshal` are the calls for `*DxValue`; `unmarshalByValue` copies the node and shows what the original sees of the shared slices | C19 and C81 together; by value nothing (or nil members) arrives |
| C109 | `newValueFromMsgPackFile`, `newValueFromYamlFile`, `setBinaryFromFile` over the same operating system as C49 | C49 for all read schedules; errors; other types ignore the file |
| C110 | `mergeObject` with containers; `Merged`: up to the first common container, into it, then no further | `mergeD` says what becomes of the members; simulation in memory (`mergeObject_deep`), then induction on the other object; counterexample |
| C111 | Registered converters (`Reflect/Reg.lean`, `Props/Reg.lean`): the table is any function from types to functions; spec `FilledR` | false for slices and for the destination itself (`C111_slice_panics`, `C111_top_ignored`); fields at any depth `C111_fields_partial`, `C111_field` |
| C112 | New values (`Props/TreeSem.lean`): `zeroVal` gives the zero of each type | false for numbers in recycled nodes (`C112_recycled_counterexample`, `C112_reset_counterexample`); `C112_newValue`, `C112_insertValue` for all types, `C112_newCached_partial`, `C112_reset_partial`, `C112_setKey_partial` |
| C113 | Tree semantics `Tree/Sem.lean` (`Mut.onTree`, `Cmd.onTree`: trees only, no memory; an oracle `Orc` for what the memory decides); refinement `Tree/Exact.lean`, `Tree/Refine.lean` | `C113_programs_partial`, `C113_operation`, `C113_unique` |
| C114 | `Tree/Det.lean`: `Cmd.plain` forgets caches, `sureAll` says that nothing of the memory shows, `canon` drops the unused half of a Float's word | `C114_transparent_partial`; false in general: `C114_recycled_counterexample` |
| C115 | `Tree/Parse.lean`: `PCmd.means` says as a relation on trees what each statement of `Load/Prog.lean` does (parsers by the decoders on trees, loads by the functions of C129, `ForcePath` by `forceVal`, Go data by `goVal` and `Mirrors`, merges by `mergeD`) | `Holds.pexec` per statement from the simulation theorems; `C115_programs_partial` by induction, `C115_others` |
| C116 | `Tree/ParseDet.lean`: `PCmd.onTree` is a function, `PCmd.sure` the statements of `PCmd.means` that determine the visible part, `PCmd.plain` forgets caches and pools | `C116_transparent_partial`; false in general: `C116_recycled_counterexample` |
| C117 | `Yaml/Keep.lean`: `parseErr` gives the memory a refused text leaves; `Yaml/Refuse.lean`: the text is cut at the refused line, `parseLine_refused` says what that line has done | `C117_lines` (the lines before count as a text of their own), `C117_load_partial`; false in general: `C117_item_counterexample`, `C117_merge_counterexample` |
| C118 | `Heap/Ask.lean`: getters and writers as statements with output (`Get`, `Ask`, `OCmd`), `soften` is what the writers change in memory; `Tree/Ask.lean`: the same on trees (`Get.onTree`, `Ask.onTree`, `softened`); `Tree/AskProg.lean`: programs (`OMeans`). `Equal` of values of two variables with its exact effect (`compared`, proved in `Heap/Equal.lean`, `Heap/EqualKeep.lean`); of two positions of one variable only without escapes (`calm`) | `C118_outputs_partial`, `C118_question`, `C118_effect`, `C118_equal` |
| C119 | `Tree/AskProg.lean`: `OCmd.sure` (no `Bool`, `ToBson` or `Equal` where a Float is involved), `OCmd.onTree` | `C119_transparent_partial`; false in general: `C119_bool_counterexample`, `C119_bson_counterexample`, `C119_equal_counterexample` |
| C120 | `Heap/EqualAgain.lean`: `compared` is what a comparison leaves; comparing that again changes nothing and finds no new equality | `C120_repeat_partial`, `C120_settled_partial`; false in general: `C120_true_counterexample` (`EqualFold` the first time, `==` the second) |
| C121 | `Load/Outcome.lean`: two runs of a parser in two memories end alike (`Alike`, `JAlike`, `BAlike`), by the recursion of the parser; `Out.ends` forgets the memory | `C121_msgpack_partial`, `C121_json_partial`, `C121_bson_partial` and the `_tree` versions, `C121_json_accepted`, `C121_returns`, `C121_json_safe`; false in general: `C121_empty_counterexample`, `C121_trailing_counterexample` |
| C122 | `Load/Ends.lean`, `Yaml/NoLoop.lean`: a statement ends in every state that a program reaches (`Sound`: the values are trees); `.loop` is the end of the fuel, so the theorem says the given fuel (length of the text, height of the value) is enough | `C122_programs_partial`, `C122_statement_partial`, `C122_printing_partial`, `C122_question`; false in general: `C122_yaml_counterexample` |
| C123 | `Props/Twice.lean`: on trees `Ask.onTree` applied to what it leaves gives the same answer and leaves the same (`Ask.again`); `Holds.oexec` carries that to memory | `C123_twice`, `C123_program_partial` |
| C124 | `Props/Twice.lean`: `UpToEscapes` (values equal once all escapes are undone) is kept by every question; `settled` (nothing to unescape) values are changed by none | `C124_escapes_only`, `C124_firm_partial`, `C124_settled_partial`, `C124_order_partial`, `C124_others_partial`; false in general: `C124_type_counterexample`, `C124_int_counterexample`, `C124_json_counterexample`, `C124_msgpack_counterexample` |
| C125 | `Yaml/Pure.lean`: the YAML parser on trees (`pparse`: positions instead of pointers); `Yaml/PureRun.lean`: `newTree`, `loadTree`, `loadLeft` | simulation `parse_sim` line by line; `C125_new`, `C125_load`, `C125_load_left` |
| C126 | `Yaml/PureLoad.lean`: both start states run over the same lines (`Ahead`); `Level`: no second root without indentation | `C126_partial`, `C126_accept_partial`; false in general: `C126_word`, `C126_indented`, `C126_second_root` |
| C127 | `Tree/Go.lean`: `goVal`, `goKey`, `goIdx` say what all Go data makes of any tree, panics included; `Does`: the memory behaves like that | mutual induction over the data (`goKey_does` …), two memories compared with `Does.two` |
| C128 | `newValueFrom` (`Load/Prog.lean`); `Fills`: data that is stored | `goVal_new`; `C128_lost`: all other data becomes `{}` or an Int |
| C129 | `Tree/Into.lean`, `Tree/IntoBson.lean`: the three loaders as functions on trees (`Filled`: the value is there after an error, too) | `Into`, `BInto`: the memory does the same step by step; `SameEnd` compares two calls |
| C130 | `TakesM` (`Tree/IntoFit.lean`), `TakesJ`: which document fits which value | the loaders on trees of C129 against the decoders, branch by branch; `Mixed`: an array that got an index never becomes the decoded map |
| C131 | `Stays` (`Props/Reload.lean`): the value again, leaf by leaf; for JSON `Reads` (C19), for BSON `Same` (C13) | round trips (C03, C13, C19) composed with the loads on trees (C129, C130); `Keeps1` for the leaves that keep more than MessagePack carries; `PCmd.det` for programs |
| C132 | the bytes themselves; `Times`, `Steady`, `Firm` (`Props/Rewrite.lean`) say which times and floats are read as they were written | by the round trips the value read is `Same` (C03, C13) or `denote` of the written data (C18); induction: the writer does not see the difference; equal names: `C132_msgpack_names` |
| C133 | the value itself; `Kept`, `Full` (`Props/Again.lean`) say which leaves and containers a format carries | `Given`: what a reader can give, by induction over the reader; then the round trips (C03, C13), where `Same` together with `Given` leaves one value; for JSON the grammar of C134 and C18; the exceptions by example; the converse for BSON and MessagePack from C15 and C138 |
| C134 | `Item`, `Items`, `Members` (`Json/Grammar.lean`): an inductive grammar with the text that follows | both directions by induction, on the derivation and on the fuel; refusals by C21; `item_text` back to the grammar of C18 |
| C135 | `Wire`, `Wires`, `Pairs` (`MsgPack/Wire.lean`): an inductive grammar with the bytes that follow; the irregular rules carry `loose = true` | both directions by induction, on the derivation and on the fuel; with `loose = false` the grammar is `Enc`/`Fits`/`Denotes` of C01 (`C135_regular`); refusals by C07 and `Stuck` |
| C136 | `Simple`, `Doc`, `Body`, `Elem`, `Items` (`Bson/Wire.lean`): an inductive grammar over the bytes that are left, with the value that is being filled and the number of bytes left to the document | both directions by induction, on the derivation and on the fuel, over one lemma for one element each of documents and arrays; the invariant `Given` of C133 makes the lookup of names plain; `C136_overrun`, `C136_beyond`, `C136_unknown` show where the language is wider than BSON |
| C58 (exact) | `DocStuck`, `BodyStuck`, `ElemStuck`, `ItemsStuck` (`Bson/Stuck.lean`): a grammar of the inputs on which the BSON decoder panics | both directions, with the grammar of C136 for the part that is read before; `C136_errors`: document, stuck or refused, and only one of these |
| C137 | `reading` (`Bson/Reading.lean`): what a document of the specification is read as, a plain function; `Fixed`: the values that come back as they were | a derivation in the grammar of C136 for each document, by induction; with C12 this gives the exact round trip (`C13_exact`) and its fixed points (`C13_iff`); `C16_grows` iterates it; `readAll` (`Bson/ReadingAll.lean`) does the same with empty documents and arrays, whose final zero the package takes for an element type and the bytes behind for its name (`C137_all`, `C15_exact`, `C15_comes_back`), by induction on the decoder itself |
| C138 | `mval` (`MsgPack/Back.lean`): what an item is read as, a plain function; `Stays`: the values that come back as they were | a derivation in the grammar of C135 for each serialisation of each item, by induction, and C135's parser lemma; `Stays` by induction on the value |
| C26 exactly | `CutValue`, `CutMembers`, `CutItems` (`Json/CutKey.lean`): the texts that end inside a name | both directions by induction, on the derivation and on the fuel, using the grammar of C134 for what comes before |
| C80 | Go struct types and values | the loop over the members writes each field at most once; induction; counterexamples |
| C59,C60 | JSON number tokens and float printing | C18 on the printed text; counterexamples |
| C61,C65 | all encoders | structural induction, exact sets of dropped/panicking values |
| C62,C64,C68 | BSON reader | symbolic execution on a generic document; counterexamples; `C68_exact` by induction over the elements of an array with any names, against the plain function `storing` (`Bson/Index.lean`); `C64_exact` likewise, over the members that begin before the end the length field gives (`upTo`) |
| C63 | decoders with repeated keys, `Verif/Assoc.lean` (association lists) as specification | the induction of C01/C13 generalised to an accumulator |
| C66,C67 | JSON/MessagePack number tokens | computation on generic input |
| C55–C58 | BSON reader with the spare capacity of its input as a parameter | induction on fuel; counterexamples |

## Trusted base

* Lean's kernel (4.33.0) and the axioms `propext`, `Quot.sound`, `Classical.choice` only.
* The reading of /repo documented in the comments (file:lines) beside each definition.
