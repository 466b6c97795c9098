{
 "claims": [
  {
   "property": "C01",
   "status": "proved",
   "theorems": [
    "Dxs.MsgPack.C01_decode_spec",
    "Dxs.MsgPack.C01_newValueFromMsgPack"
   ],
   "note": "For all documents, also with repeated keys (C63)."
  },
  {
   "property": "C02",
   "status": "proved",
   "theorems": [
    "Dxs.MsgPack.C02_encode_spec"
   ],
   "note": "For all supported values (see Supported: lengths below 2^32, no NAN/INF, extension payload lengths other than 1,2,4,8,16; the latter are C09)."
  },
  {
   "property": "C03",
   "status": "proved",
   "theorems": [
    "Dxs.MsgPack.C03_roundtrip"
   ],
   "note": "Same domain as C02 plus pairwise different keys."
  },
  {
   "property": "C04",
   "status": "proved",
   "theorems": [
    "Dxs.MsgPack.C04_int64"
   ],
   "note": ""
  },
  {
   "property": "C05",
   "status": "proved",
   "theorems": [
    "Dxs.Bson.C05_bson_appends",
    "Dxs.Json.C05_json_appends",
    "Dxs.Json.C05_json_format_appends",
    "Dxs.MsgPack.C05_msgpack_appends"
   ],
   "note": ""
  },
  {
   "property": "C06",
   "status": "partial",
   "theorems": [
    "Dxs.MsgPack.C06_counterexample_map",
    "Dxs.MsgPack.C06_counterexample_ext",
    "Dxs.MsgPack.C06_no_panic_partial",
    "Dxs.MsgPack.C06_exact",
    "Dxs.MsgPack.C06_spec"
   ],
   "note": "False as stated (two counterexamples proved); the set of inputs on which it panics is described exactly (C06_exact)."
  },
  {
   "property": "C07",
   "status": "proved",
   "theorems": [
    "Dxs.MsgPack.C07_prefix_and_termination",
    "Dxs.MsgPack.C07_any_fuel"
   ],
   "note": ""
  },
  {
   "property": "C08",
   "status": "proved",
   "theorems": [
    "Dxs.MsgPack.C08_truncation_spec",
    "Dxs.MsgPack.C08_truncation"
   ],
   "note": ""
  },
  {
   "property": "C09",
   "status": "partial",
   "theorems": [
    "Dxs.MsgPack.C09_counterexample",
    "Dxs.MsgPack.C09_ext_roundtrip_partial",
    "Dxs.MsgPack.C09_fixext_wrong",
    "Dxs.MsgPack.C09_fixext_exact",
    "Dxs.MsgPack.C09_fixext_iff",
    "Dxs.MsgPack.C09_fixext_five"
   ],
   "note": "Proved for all payload lengths but 1,2,4,8,16. For these the bytes written are never a serialisation of the extension (C09_fixext_wrong); what is read back, and the two bytes left over, are given exactly (C09_fixext_exact); reading back gives the same value for exactly five of these extensions, one of each length, and for no other (C09_fixext_five)."
  },
  {
   "property": "C10",
   "status": "partial",
   "theorems": [
    "Dxs.Heap.C10_load_partial",
    "Dxs.Heap.C10_string_counterexample",
    "Dxs.Heap.C10_binary_counterexample",
    "Dxs.Heap.C10_empty_counterexample",
    "Dxs.Heap.C10_array_counterexample",
    "Dxs.Heap.C10_time_counterexample",
    "Dxs.Heap.C10_ext_counterexample"
   ],
   "note": "Proved for every value of every type in every ordered memory and every document that decodes to an integer, float, double, bool, null, non-empty array or non-empty map (the last not into an array value). False for strings, binaries, extensions, times, empty containers, maps into arrays, doubles into DateTime, integers with a BSON type (counterexamples). C130 gives the exact condition."
  },
  {
   "property": "C11",
   "status": "partial",
   "theorems": [
    "Dxs.Heap.C11_msgpack_partial",
    "Dxs.Heap.C11_json_partial",
    "Dxs.Heap.C11_texts",
    "Dxs.Heap.C11_recycled_counterexample",
    "Dxs.Heap.C11_json_recycled_counterexample"
   ],
   "note": "All documents, all memories with the allocator invariant, any cache: same errors, same trees up to the upper half of the cells of Float values; same MessagePack and JSON texts. The upper halves are not reset in recycled nodes and Bool reads them (counterexamples)."
  },
  {
   "property": "C12",
   "status": "proved",
   "theorems": [
    "Dxs.Bson.C12_framing",
    "Dxs.Bson.C12_document",
    "Dxs.Bson.C12_toBson_bare"
   ],
   "note": "C12_framing holds for every value; C12_document gives the exact bytes for every value that has a BSON serialisation."
  },
  {
   "property": "C13",
   "status": "partial",
   "theorems": [
    "Dxs.Bson.C13_roundtrip_partial",
    "Dxs.Bson.C13_exact",
    "Dxs.Bson.C13_iff"
   ],
   "note": "False as stated (see C14-C17); proved for all objects of any depth built from surviving values, for any key law-abiding StrToIntDef. For objects without empty containers the exact result is given (C13_exact), and exactly which objects come back as they were (C13_iff)."
  },
  {
   "property": "C14",
   "status": "partial",
   "theorems": [
    "Dxs.Bson.C14_int_partial",
    "Dxs.Bson.C14_negative_wrong"
   ],
   "note": "Proved for all int64 except negative 32-bit ones; proved wrong (n comes back as n+2^32) for every one of those."
  },
  {
   "property": "C15",
   "status": "partial",
   "theorems": [
    "Dxs.Bson.C15_empty_object_rejected",
    "Dxs.Bson.C15_nested_empty_object_wrong",
    "Dxs.Bson.C15_nested_empty_array_rejected",
    "Dxs.Bson.C15_nonempty_partial",
    "Dxs.Bson.C15_exact",
    "Dxs.Bson.C15_comes_back",
    "Dxs.Bson.C13_roundtrip_partial"
   ],
   "note": "False: no object with an empty object or array in it comes back as it was. Proved exactly: C15_exact says which objects come back, C15_comes_back what each comes back as or how it is refused (for all objects BSON can carry, without subtype-2 extension values)."
  },
  {
   "property": "C16",
   "status": "partial",
   "theorems": [
    "Dxs.Bson.C16_binary_wrong",
    "Dxs.Bson.C16_tagged_partial",
    "Dxs.Bson.C16_grows"
   ],
   "note": "False for every generic binary (ext code 0, any payload below 2^30 bytes): as the member of an object it comes back with a zero byte in front, and one more on each further round trip (C16_grows). ObjectID and Decimal128 binaries survive. Members of larger objects: see C13_exact, C15_exact."
  },
  {
   "property": "C17",
   "status": "partial",
   "theorems": [
    "Dxs.Bson.C17_float_wrong",
    "Dxs.Bson.C17_float_partial"
   ],
   "note": "False for every float32 other than 0 in a fresh node (law used: a non-zero float32 widens to a double whose upper half is not zero); the bytes actually written are characterised exactly."
  },
  {
   "property": "C18",
   "status": "proved",
   "theorems": [
    "Dxs.Json.C18_decodes",
    "Dxs.Json.C18_rfc_numbers",
    "Dxs.Json.C18_integers"
   ],
   "note": "Escapes and number conversion are the external functions of Env; integers under IntLaw (StrToIntDef reads back decimal int64)."
  },
  {
   "property": "C19",
   "status": "partial",
   "theorems": [
    "Dxs.Json.C19_roundtrip_partial",
    "Dxs.Json.C19_date_string_wrong",
    "Dxs.Json.C19_noEscape_verbatim"
   ],
   "note": "False for strings that look like JSON times (proved); proved for all other object/array values of strings, integers, booleans, null under explicit laws of the external escape functions. Floats are C60."
  },
  {
   "property": "C20",
   "status": "partial",
   "theorems": [
    "Dxs.Json.C20_same_partial"
   ],
   "note": "For every value both encoders can print as one grammar text (Enc) whose whole text is not a bare number (C25). Missing: bare numbers, names written with a quote in them, texts that are no JSON without escapes."
  },
  {
   "property": "C21",
   "status": "proved",
   "theorems": [
    "Dxs.Json.C21_total",
    "Dxs.Json.C21_consumes"
   ],
   "note": ""
  },
  {
   "property": "C22",
   "status": "proved",
   "theorems": [
    "Dxs.Json.C22_garbage"
   ],
   "note": "For inputs that start with an object, array or string; after a bare literal the rest belongs to the token."
  },
  {
   "property": "C23",
   "status": "proved",
   "theorems": [
    "Dxs.Json.C23_scanner",
    "Dxs.Json.C23_fails"
   ],
   "note": ""
  },
  {
   "property": "C24",
   "status": "partial",
   "theorems": [
    "Dxs.Json.C24_wrong_accepted",
    "Dxs.Json.C24_nan_rejected",
    "Dxs.Json.C24_null_partial"
   ],
   "note": "False: every three-byte token starting with n other than null/nan prefixes is read as NAN, and nan is rejected (both proved for all inputs)."
  },
  {
   "property": "C25",
   "status": "partial",
   "theorems": [
    "Dxs.Json.C25_number_lost",
    "Dxs.Json.C25_number_partial"
   ],
   "note": "False for every number text; proved when whitespace follows."
  },
  {
   "property": "C26",
   "status": "partial",
   "theorems": [
    "Dxs.Json.C26_error_panics",
    "Dxs.Json.C26_partial",
    "Dxs.Json.C26_exact",
    "Dxs.Json.C26_window",
    "Dxs.Json.C26_texts",
    "Dxs.Json.C26_printable"
   ],
   "note": "False: the error for a text that ends inside a name cannot be printed. Exactly which inputs these are is proved (C26_texts: the text ends inside the name of a member, at any depth, after at least one byte of it), so for all other rejected inputs the error can be printed (C26_printable); C26_exact says the same of the error, C26_window what the message shows."
  },
  {
   "property": "C27",
   "status": "partial",
   "theorems": [
    "Dxs.Json.C27_key_cut",
    "Dxs.Json.C27_rejected",
    "Dxs.Json.C27_partial"
   ],
   "note": "False for every key with an escaped quote; proved for keys without quotes."
  },
  {
   "property": "C28",
   "status": "partial",
   "theorems": [
    "Dxs.Heap.C28_lookup_partial",
    "Dxs.Heap.C28_unescaped",
    "Dxs.Heap.C28_raw_first"
   ],
   "note": "False with repeated names: a key written exactly like the name is preferred to an earlier key that only unescapes to it. Proved for unique names (given laws about unescaping and case folding), and without conditions once keys are unescaped."
  },
  {
   "property": "C29",
   "status": "partial",
   "theorems": [
    "Dxs.Heap.C29_step_partial",
    "Dxs.Heap.C29_history_partial",
    "Dxs.Heap.C29_read_partial",
    "Dxs.Heap.C29_get_same",
    "Dxs.Heap.C29_get_other",
    "Dxs.Heap.C29_order",
    "Dxs.Heap.C29_nested",
    "Dxs.Heap.C29_nil_panics"
   ],
   "note": "For objects that are proper trees without nil members and with pairwise different names (what any history from a new object reaches), interleaved with arbitrary other activity that leaves the object alone. Assumes laws about unescaping and case folding (KeyLaws), satisfied by a concrete environment. Missing: histories that store nil (false there: C29_nil_panics) and objects with nil members or repeated names."
  },
  {
   "property": "C30",
   "status": "partial",
   "theorems": [
    "Dxs.Heap.C30_unique_partial",
    "Dxs.Heap.C30_keys_nodup"
   ],
   "note": "Under the same laws. Missing: histories that store nil and objects with nil members."
  },
  {
   "property": "C31",
   "status": "partial",
   "theorems": [
    "Dxs.Heap.C31_remove_partial",
    "Dxs.Heap.C31_gone",
    "Dxs.Heap.C31_absent",
    "Dxs.Heap.C31_extract_partial",
    "Dxs.Heap.C31_at_most_one",
    "Dxs.Heap.C31_raw_first"
   ],
   "note": "Proved for unique names; with repeated names the removed member may be a later one."
  },
  {
   "property": "C32",
   "status": "partial",
   "theorems": [
    "Dxs.Heap.C32_setIndexInt",
    "Dxs.Heap.C32_setIndexString",
    "Dxs.Heap.C32_setIndexDouble",
    "Dxs.Heap.C32_setIndexTime",
    "Dxs.Heap.C32_setIndexFloat",
    "Dxs.Heap.C32_setIndexBool",
    "Dxs.Heap.C32_setIndexValue",
    "Dxs.Heap.C32_setIndex",
    "Dxs.Heap.C32_insert",
    "Dxs.Heap.C32_append_partial",
    "Dxs.Heap.C32_remove",
    "Dxs.Heap.C32_others"
   ],
   "note": "Append for arrays of at most MaxInt32 elements. Everything but Append for all arrays and indexes. Missing: Append to longer arrays."
  },
  {
   "property": "C33",
   "status": "proved",
   "theorems": [
    "Dxs.Heap.C33_compose",
    "Dxs.Heap.C33_tree",
    "Dxs.Heap.C33_default",
    "Dxs.Heap.C33_reads",
    "Dxs.Heap.C33_string"
   ],
   "note": "Composition and default clauses for every memory; meaning on trees with pairwise different names under the stated laws of the string functions."
  },
  {
   "property": "C34",
   "status": "partial",
   "theorems": [
    "Dxs.Heap.C34_force_partial",
    "Dxs.Heap.C34_objects",
    "Dxs.Heap.C34_index_counterexample",
    "Dxs.Heap.C34_nil_panics"
   ],
   "note": "Proved, including the exact resulting tree, for all paths that meet no nil member and no array index beyond the length (Forceable), in particular for every non-empty path on nested objects. False in general: an index beyond the length is missed by the lookup (one counterexample), and a nil member panics (for every object and name, path of one step)."
  },
  {
   "property": "C35",
   "status": "proved",
   "theorems": [
    "Dxs.Heap.C35_readings",
    "Dxs.Heap.C35_tree",
    "Dxs.Heap.C35_lookup"
   ],
   "note": "For every history of exported operations with arbitrary pointers: the whole API, the parsers (new and loaded values, also after errors), Go data, ValueCache.Reset. A call that panics ends the history."
  },
  {
   "property": "C36",
   "status": "proved",
   "theorems": [
    "Dxs.Heap.C36_int",
    "Dxs.Heap.C36_string",
    "Dxs.Heap.C36_double",
    "Dxs.Heap.C36_float",
    "Dxs.Heap.C36_bool",
    "Dxs.Heap.C36_tree"
   ],
   "note": "Also at the level of trees, with frame."
  },
  {
   "property": "C37",
   "status": "partial",
   "theorems": [
    "Dxs.Heap.C37_same_tree_partial",
    "Dxs.Heap.C37_independent_partial",
    "Dxs.Heap.C37_clone_partial",
    "Dxs.Heap.C37_binary_counterexample",
    "Dxs.Heap.C37_nil_counterexample",
    "Dxs.Heap.C37_alias_counterexample"
   ],
   "note": "Proved for every tree and depth without nil, binaries, extension codes and non-shared True/False/NAN/INF nodes; independence for every program with the modelled operations, the parsers (YAML without *), Go data and ForcePath included. The property is false otherwise: every binary is cloned empty, a nil member panics, a value made True by SetBool is not copied at all (counterexamples)."
  },
  {
   "property": "C38",
   "status": "partial",
   "theorems": [
    "Dxs.Heap.C38_refl_partial",
    "Dxs.Heap.C38_symm_partial",
    "Dxs.Heap.C38_total_partial",
    "Dxs.Heap.C38_lengths_partial",
    "Dxs.Heap.C38_keeps_partial",
    "Dxs.Heap.C38_length_counterexample",
    "Dxs.Heap.C38_panic_counterexample",
    "Dxs.Heap.C38_repeat_counterexample"
   ],
   "note": "Reflexive for every tree of every depth (C38_refl_partial). If both directions return, they agree (laws: EqualFold and == on floats are symmetric). No panic and equal array lengths only under the stated conditions. False in general: [] is Equal to [1] and [1].Equal([]) panics because the length test compares v with itself (dxvalue.go:512); a string and an unparsed JSON string are compared ignoring case and the second call of Equal on them answers differently."
  },
  {
   "property": "C39",
   "status": "partial",
   "theorems": [
    "Dxs.Heap.C39_union_partial",
    "Dxs.Heap.C39_present_partial",
    "Dxs.Heap.C39_container_counterexample",
    "Dxs.Heap.C39_array_counterexample",
    "Dxs.Heap.C39_constant_counterexample",
    "Dxs.Heap.C39_cycle_counterexample",
    "Dxs.Heap.C39_escape_counterexample"
   ],
   "note": "Proved with the exact resulting member list when members of v under common names are scalars, names are unique and w has no pending escapes in names (for containers under common names see C110); early return at the first common container, merging into a shared constant, self-containing array and escaped names are counterexamples."
  },
  {
   "property": "C40",
   "status": "partial",
   "theorems": [
    "Dxs.Heap.C40_union_partial",
    "Dxs.Heap.C40_nil_counterexample",
    "Dxs.Heap.C40_nested_counterexample",
    "Dxs.Heap.C40_shorter_counterexample",
    "Dxs.Heap.C40_raw_counterexample"
   ],
   "note": "Proved for values without pending escapes where Equal cannot panic; nil elements, nested arrays and unparsed strings are counterexamples."
  },
  {
   "property": "C41",
   "status": "partial",
   "theorems": [
    "Dxs.Heap.C41_members",
    "Dxs.Heap.C41_stable_partial",
    "Dxs.Heap.C41_unstable"
   ],
   "note": "False with repeated names: a miss unescapes the keys and a later lookup may find another member. Proved for unique names."
  },
  {
   "property": "C42",
   "status": "partial",
   "theorems": [
    "Dxs.Heap.C42_bson_partial",
    "Dxs.Heap.C42_json_partial",
    "Dxs.Heap.C42_noEscape_changes",
    "Dxs.Heap.C42_msgpack_partial",
    "Dxs.Heap.C42_msgpack_changes"
   ],
   "note": "BSON: proved for whole documents. JSON: proved for the two escaping styles, false for JSE_NoEscape. MessagePack: false, proved for strings without escapes."
  },
  {
   "property": "C43",
   "status": "partial",
   "theorems": [
    "Dxs.Heap.C43_disjoint_partial",
    "Dxs.Heap.C43_isolated_partial",
    "Dxs.Heap.C43_trees_partial"
   ],
   "note": "Every program with creations (cached or not, any pool behaviour), MessagePack, JSON and BSON documents and YAML documents without * parsed into new and existing values (also failing ones), Go data (NewValueFrom, SetValue, SetKeyvalue, SetIndexvalue), ForcePath, the whole set/get/remove API on every node, moves between values, Clone, CopyFrom, AddFrom, MergeWith (where the merge does not reach constants or put objects into arrays), Clear and FreeValue. Missing: YAML aliases, loading into inner nodes with a cache of their own, and Clone of values with own True/False/NAN/INF nodes (false there, see C37)."
  },
  {
   "property": "C44",
   "status": "partial",
   "theorems": [
    "Dxs.Heap.C44_twice",
    "Dxs.Heap.C44_pool",
    "Dxs.Heap.C44_once_partial",
    "Dxs.Heap.C44_reuse_counterexample"
   ],
   "note": "FreeValue repeated is FreeValue once, for every memory; the cache is put into the pool once; for every program (as in C43) no cache is in the pool twice and no cache owned by a value in use is in the pool. The witness shows that the condition in the title is needed. False for arbitrary histories (C44_reuse_counterexample). Missing: the statements programs leave out (C43)."
  },
  {
   "property": "C45",
   "status": "partial",
   "theorems": [
    "Dxs.Yaml.C45_nostar_partial",
    "Dxs.Yaml.C45_yaml_terminates_partial",
    "Dxs.Yaml.C45_load_terminates_partial",
    "Dxs.Yaml.C45_one_byte_line_no_value",
    "Dxs.Yaml.C45_one_byte_loops",
    "Dxs.Yaml.C45_self_merge_loops"
   ],
   "note": "Proved for NewValueFromYaml and LoadFromYaml, for every memory and pool: every text terminates (panics counted as ends) that does not contain << and whose last line is not a single byte without newline; also, with the same condition on the last line, every text without * (C45_nostar_partial). False otherwise: a last line of one byte never ends, and merging a mapping into itself with << never ends (both for every fuel)."
  },
  {
   "property": "C46",
   "status": "partial",
   "theorems": [
    "Dxs.Yaml.C46_yaml_no_panic_partial",
    "Dxs.Yaml.C46_load_no_panic_partial",
    "Dxs.Yaml.C46_self_alias_panics",
    "Dxs.Yaml.C46_ancestor_merge_panics",
    "Dxs.Yaml.C46_blank_panics"
   ],
   "note": "Proved for NewValueFromYaml and LoadFromYaml, for every memory and pool: every text without an all-space line of two or more bytes and without the byte *. False otherwise: a text of two or more spaces panics, and so do an alias inside the mapping it names and a merge of a mapping into one below it."
  },
  {
   "property": "C47",
   "status": "proved",
   "theorems": [
    "Dxs.Yaml.C47_yaml_history",
    "Dxs.Yaml.C47_load_history"
   ],
   "note": "For NewValueFromYaml and LoadFromYaml: results, errors and memory are the same for any two parsers from the pool, new or used."
  },
  {
   "property": "C48",
   "status": "proved",
   "theorems": [
    "Dxs.Yaml.C48_yaml_flat",
    "Dxs.Yaml.C48_yaml_flat_distinct",
    "Dxs.Yaml.C48_load_flat"
   ],
   "note": "All texts of plain `k: v` lines with comments and skipped lines, with or without the last newline, names may repeat (last value, first position); NewValueFromYaml and LoadFromYaml. Scalars: true/false, whatever ParseFloat accepts, else the text. Needs KeyLaws of the external functions."
  },
  {
   "property": "C49",
   "status": "proved",
   "theorems": [
    "Dxs.IO.C49_readFile",
    "Dxs.IO.C49_readFile_errors"
   ],
   "note": "All schedules of reads, all reported sizes, all capacities append may choose, dirty buffers; with failing reads a prefix and the error."
  },
  {
   "property": "C50",
   "status": "proved",
   "theorems": [
    "Dxs.IO.C50_file_roundtrip"
   ],
   "note": "All values that can be written; needs that a formatted number does not start with the byte 0xEF (FloatAscii)."
  },
  {
   "property": "C51",
   "status": "partial",
   "theorems": [
    "Dxs.IO.C51_crash_prefix_partial",
    "Dxs.IO.C51_crash_loses_file",
    "Dxs.IO.C51_panic_loses_file"
   ],
   "note": "False: the file is truncated first (C51_crash_loses_file, C51_panic_loses_file). Holds: always the old file or a prefix of the new one."
  },
  {
   "property": "C52",
   "status": "partial",
   "theorems": [
    "Dxs.Conc.C52_readers_partial",
    "Dxs.Conc.C52_readers_plain_partial",
    "Dxs.Conc.C52_settled_no_write",
    "Dxs.Conc.C52_race",
    "Dxs.Conc.C52_race_same_names"
   ],
   "note": "false: two lookups can unescape the names twice or half (C52_race, C52_race_same_names). Proved for every number of goroutines and every schedule when names are distinct and unescaping them twice is as unescaping once, or when no name has an escape; with termination. For an object whose names are already unescaped nothing is written. A step reads or writes a whole Go string (in favour of the code)."
  },
  {
   "property": "C53",
   "status": "partial",
   "theorems": [
    "Dxs.Reflect.C53_setValue_partial",
    "Dxs.Reflect.C53_lookup",
    "Dxs.Reflect.C53_bytes_ignored",
    "Dxs.Reflect.C53_time_double",
    "Dxs.Reflect.C53_ignored",
    "Dxs.Reflect.C53_unsigned_field",
    "Dxs.Reflect.C53_nil_field",
    "Dxs.Reflect.C53_nil_entry",
    "Dxs.Reflect.C53_nil_element",
    "Dxs.Reflect.C53_ignoreCase_order"
   ],
   "note": "proved for nested maps, slices and scalars whose entries are all accepted (Fair), every iteration order, every value that is not a date. False in general: byte slices and times at the root, unsigned struct fields, nil fields/entries/elements are ignored or stored differently (C53_bytes_ignored, C53_time_double, C53_ignored, C53_unsigned_field, C53_nil_*); names that differ in case depend on the order with ignoreCase (C53_ignoreCase_order)."
  },
  {
   "property": "C54",
   "status": "partial",
   "theorems": [
    "Dxs.Reflect.C54_map_partial",
    "Dxs.Reflect.C54_arrays_lost",
    "Dxs.Reflect.C54_slice_untouched",
    "Dxs.Reflect.C54_escaped_name",
    "Dxs.Reflect.C54_nan_dropped",
    "Dxs.Reflect.C54_nil_panics"
   ],
   "note": "proved for objects without non-empty arrays, NaN, Inf, nil members, repeated or escaped names. False in general: arrays come out as nils (C54_arrays_lost), a []interface{} argument is never filled (C54_slice_untouched), escaped names, NaN/Inf dropped, nil members panic."
  },
  {
   "property": "C55",
   "status": "proved",
   "theorems": [
    "Dxs.Bson.C55_decode_spec",
    "Dxs.Bson.C55_bool_byte"
   ],
   "note": "For StrToIntDef that reads back decimal indices below 2^31."
  },
  {
   "property": "C56",
   "status": "proved",
   "theorems": [
    "Dxs.Bson.C56_truncated"
   ],
   "note": ""
  },
  {
   "property": "C57",
   "status": "proved",
   "theorems": [
    "Dxs.Bson.C57_terminates"
   ],
   "note": ""
  },
  {
   "property": "C58",
   "status": "partial",
   "theorems": [
    "Dxs.Bson.C58_panic",
    "Dxs.Bson.C58_reads_beyond",
    "Dxs.Bson.C58_capacity_partial",
    "Dxs.Bson.C58_exact",
    "Dxs.Bson.C58_capacity"
   ],
   "note": "False: a panic and a read beyond the slice are proved; the set of inputs on which it panics is described exactly (C58_exact), and foreign bytes matter only for these."
  },
  {
   "property": "C59",
   "status": "partial",
   "theorems": [
    "Dxs.Json.C59_exponent_wrong",
    "Dxs.Json.C59_decimal_partial"
   ],
   "note": "False for every number text with exponent and without decimal point that StrToIntDef rejects (hypothesis on the external function): read as 0. With a decimal point the value is StrToFloatDef rounded to float32. Both shown for the number as the element of an array."
  },
  {
   "property": "C60",
   "status": "partial",
   "theorems": [
    "Dxs.Json.C60_double_lost",
    "Dxs.Json.C60_float_partial"
   ],
   "note": "False for every double whose printed form is a JSON number: it never comes back as a double (shown for the element of an array). Proved for float32 printing with a decimal point under explicit inversion laws."
  },
  {
   "property": "C61",
   "status": "partial",
   "theorems": [
    "Dxs.Bson.C61_bson_no_type",
    "Dxs.Bson.C61_bson_partial",
    "Dxs.Json.C61_json_dropped",
    "Dxs.Json.C61_json_object_rejected",
    "Dxs.Json.C61_json_partial",
    "Dxs.MsgPack.C61_msgpack_dropped",
    "Dxs.MsgPack.C61_msgpack_array_rejected",
    "Dxs.MsgPack.C61_msgpack_partial"
   ],
   "note": "False for all three formats, with the dropped kinds given (MessagePack: exactly NAN and INF; BSON: NAN and INF members; JSON: binaries, extension values, NAN, INF). Proved for the values each format supports (Supported, Writable, Enc), not for values nested around dropped ones."
  },
  {
   "property": "C62",
   "status": "partial",
   "theorems": [
    "Dxs.Bson.C62_binary_partial",
    "Dxs.Bson.C62_subtype2_wrong"
   ],
   "note": "False for subtype 2; for the other subtypes the consumption is proved exact (the value additionally contains the subtype byte, see C16)."
  },
  {
   "property": "C63",
   "status": "partial",
   "theorems": [
    "Dxs.Bson.C63_bson_partial",
    "Dxs.Bson.C63_bson_merged",
    "Dxs.MsgPack.C63_msgpack_lastWins"
   ],
   "note": "Proved for MessagePack without restriction and for BSON when the repetition is not a container; false for repeated BSON documents (they are merged)."
  },
  {
   "property": "C64",
   "status": "partial",
   "theorems": [
    "Dxs.Bson.C64_short_length",
    "Dxs.Bson.C64_no_terminator",
    "Dxs.Bson.C64_length_partial",
    "Dxs.Bson.C64_short_exact",
    "Dxs.Bson.C64_exact"
   ],
   "note": "False: any length field below 5 is accepted as an empty object, and documents without terminator are accepted; the upper bound of the length field is proved. Proved exactly: what becomes of a document when its length field says n, for every n (C64_exact; documents without empty containers and subtype-2 binaries)."
  },
  {
   "property": "C65",
   "status": "partial",
   "theorems": [
    "Dxs.Bson.C65_bson_panics",
    "Dxs.Bson.C65_bson_partial",
    "Dxs.Json.C65_json_panics",
    "Dxs.Json.C65_format_panics"
   ],
   "note": "MessagePack: total by construction of the model (no panic in the code). BSON, JSON, formatted JSON: false; the panicking values are characterised exactly (iff)."
  },
  {
   "property": "C66",
   "status": "partial",
   "theorems": [
    "Dxs.Json.C66_sign_lost",
    "Dxs.Json.C66_nan_partial"
   ],
   "note": "False: the sign of an infinity is lost for every spelling and context."
  },
  {
   "property": "C67",
   "status": "partial",
   "theorems": [
    "Dxs.MsgPack.C67_uint64_wrong",
    "Dxs.MsgPack.C67_below_partial"
   ],
   "note": "False for every integer from 2^63 on; proved below."
  },
  {
   "property": "C68",
   "status": "partial",
   "theorems": [
    "Dxs.Bson.C68_index_ignored",
    "Dxs.Bson.C68_in_order_partial",
    "Dxs.Bson.C68_exact"
   ],
   "note": "False: any index but -1 of a one-element array is accepted and ignored; arrays in order are read in order. Proved exactly: what an array is read as, or how it is refused, whatever the names of its elements (C68_exact; elements without empty containers and subtype-2 binaries)."
  },
  {
   "property": "C69",
   "status": "partial",
   "theorems": [
    "Dxs.Heap.C69_copy_partial",
    "Dxs.Heap.C69_binary_counterexample",
    "Dxs.Heap.C69_self_counterexample"
   ],
   "note": "Proved for all trees w without nil, binaries, extension codes and own True/False/NAN/INF nodes, disjoint from v. False for binaries and for v.CopyFrom(v) (counterexamples)."
  },
  {
   "property": "C70",
   "status": "partial",
   "theorems": [
    "Dxs.Heap.C70_members_partial",
    "Dxs.Heap.C70_elements_partial",
    "Dxs.Heap.C70_names_counterexample"
   ],
   "note": "Members and elements appended, for the same trees as C69. The names are not always found any more (counterexample)."
  },
  {
   "property": "C71",
   "status": "partial",
   "theorems": [
    "Dxs.Heap.C71_same_partial",
    "Dxs.Heap.C71_escape_counterexample",
    "Dxs.Heap.C71_float_counterexample"
   ],
   "note": "Proved for values that represent the same tree. False in general: JSON strings written with different escapes, and float32 values whose cell keeps four bytes of an earlier integer."
  },
  {
   "property": "C72",
   "status": "partial",
   "theorems": [
    "Dxs.Heap.C72_clone_partial",
    "Dxs.Heap.C72_binary_counterexample"
   ],
   "note": "Proved for every tree without nil, binaries, extension codes and own nodes of the types True, False, NAN, INF. False for binaries (their content is not cloned)."
  },
  {
   "property": "C73",
   "status": "proved",
   "theorems": [
    "Dxs.Yaml.C73_yaml_tidy",
    "Dxs.Yaml.C73_load_tidy"
   ],
   "note": "For every text, memory and pool; the target of LoadFromYaml is any value in use."
  },
  {
   "property": "C74",
   "status": "proved",
   "theorems": [
    "Dxs.Yaml.C74_yaml_nested",
    "Dxs.Yaml.C74_load_nested"
   ],
   "note": "All nested block mappings, any indentation steps; NewValueFromYaml and LoadFromYaml. Lists, aliases, merges and flow collections are not part of these texts."
  },
  {
   "property": "C75",
   "status": "partial",
   "theorems": [
    "Dxs.IO.C75_success_complete_partial",
    "Dxs.IO.C75_bom_error_lost",
    "Dxs.IO.C75_bom_error_unreadable"
   ],
   "note": "False: an error while writing the mark is ignored (C75_bom_error_lost). Holds without the mark."
  },
  {
   "property": "C76",
   "status": "partial",
   "theorems": [
    "Dxs.IO.C76_save_fails",
    "Dxs.IO.C76_save_ext_fails",
    "Dxs.IO.C76_others_partial"
   ],
   "note": "False for every binary: the file is opened without O_WRONLY, so it is emptied and the write fails (C76_save_fails, C76_save_ext_fails). Holds: values of other types do not touch the file."
  },
  {
   "property": "C77",
   "status": "partial",
   "theorems": [
    "Dxs.Conc.C77_string_partial",
    "Dxs.Conc.C77_race_escaped",
    "Dxs.Conc.C77_race_twice"
   ],
   "note": "false: type is changed before the text (C77_race_escaped), or text is unescaped twice (C77_race_twice). Proved for strings that need no unescaping, all schedules."
  },
  {
   "property": "C78",
   "status": "proved",
   "theorems": [
    "Dxs.Conc.C78_reads_write_nothing",
    "Dxs.Conc.C78_settled_value",
    "Dxs.Conc.C78_equal"
   ],
   "note": "for Equal: whenever it returns; any graph of nodes for the other calls"
  },
  {
   "property": "C79",
   "status": "proved",
   "theorems": [
    "Dxs.Reflect.C79_there_and_back"
   ],
   "note": "nested maps of scalars"
  },
  {
   "property": "C80",
   "status": "partial",
   "theorems": [
    "Dxs.Reflect.C80_time_field",
    "Dxs.Reflect.C80_struct_partial",
    "Dxs.Reflect.C80_untouched",
    "Dxs.Reflect.C80_not_object",
    "Dxs.Reflect.C80_second_fill_panics",
    "Dxs.Reflect.C80_times_panic",
    "Dxs.Reflect.C80_escaped_name",
    "Dxs.Reflect.C80_case",
    "Dxs.Reflect.C80_truncated",
    "Dxs.Reflect.C80_bytes"
   ],
   "note": "proved for zero structs with distinct field names, objects without nil members, without two fitting members, without unprintable short binaries, types without []time.Time. Counterexamples for the rest: C80_second_fill_panics, C80_times_panic, C80_escaped_name, C80_case, C80_truncated, C80_bytes."
  },
  {
   "property": "C81",
   "status": "partial",
   "theorems": [
    "Dxs.Heap.C81_load_partial",
    "Dxs.Heap.C81_type_counterexample",
    "Dxs.Heap.C81_float_counterexample",
    "Dxs.Heap.C81_end_counterexample",
    "Dxs.Heap.C81_tail_counterexample"
   ],
   "note": "Proved for documents that decode to strings, times, literals, integers, objects loaded into objects and arrays into arrays. False for numbers with a point, numbers at the end of the text, containers loaded into a value of another type, and trailing bytes (counterexamples). C130 gives the exact condition."
  },
  {
   "property": "C82",
   "status": "partial",
   "theorems": [
    "Dxs.Heap.C82_load_partial",
    "Dxs.Heap.C82_array_counterexample",
    "Dxs.Heap.C82_empty_counterexample",
    "Dxs.Heap.C82_no_bytes_counterexample"
   ],
   "note": "Proved for object values, and for values of every other type but array when the document has a member, for all bytes the decoder accepts. False for array values (numeric keys become elements), for documents without a member and for no bytes (counterexamples). C130 gives the exact condition."
  },
  {
   "property": "C83",
   "status": "proved",
   "theorems": [
    "Dxs.Heap.C83_bson",
    "Dxs.Heap.C83_fresh"
   ],
   "note": "All bytes, all memories with the allocator invariant, any cache: same errors, same trees bit for bit."
  },
  {
   "property": "C84",
   "status": "proved",
   "theorems": [
    "Dxs.Heap.C84_int",
    "Dxs.Heap.C84_double",
    "Dxs.Heap.C84_float",
    "Dxs.Heap.C84_binary",
    "Dxs.Heap.C84_string",
    "Dxs.Heap.C84_time",
    "Dxs.Heap.C84_goTime",
    "Dxs.Heap.C84_duration",
    "Dxs.Heap.C84_valueByIndex",
    "Dxs.Heap.C84_byIndex",
    "Dxs.Heap.C84_string_after",
    "Dxs.Heap.C84_stringByIndex",
    "Dxs.Heap.C84_count"
   ],
   "note": "each getter of a well-formed node equals a function of the tree it represents, for all Env and clocks; stale fields of other kinds cannot influence it"
  },
  {
   "property": "C85",
   "status": "partial",
   "theorems": [
    "Dxs.Heap.C85_positive_partial",
    "Dxs.Heap.C85_other",
    "Dxs.Heap.C85_float_counterexample",
    "Dxs.Heap.C85_nan_counterexample"
   ],
   "note": "proved for int, float64, times (not NaN) and the other kinds; false for float32 and NaN (counterexamples)"
  },
  {
   "property": "C86",
   "status": "partial",
   "theorems": [
    "Dxs.Heap.C86_string",
    "Dxs.Heap.C86_plain_partial",
    "Dxs.Heap.C86_counterexample"
   ],
   "note": "proved for String and Duration, for the others only if there is nothing to unescape; counterexample for Int"
  },
  {
   "property": "C87",
   "status": "proved",
   "theorems": [
    "Dxs.Heap.C87_items",
    "Dxs.Heap.C87_count"
   ],
   "note": "for all containers and indices; Items settles the names of the object and changes nothing else"
  },
  {
   "property": "C88",
   "status": "partial",
   "theorems": [
    "Dxs.Heap.C88_visit_partial",
    "Dxs.Heap.C88_key_partial",
    "Dxs.Heap.C88_escape_counterexample",
    "Dxs.Heap.C88_remove_counterexample"
   ],
   "note": "proved for callbacks that only read and objects whose names are settled; counterexamples for escaped names and for callbacks that remove"
  },
  {
   "property": "C89",
   "status": "partial",
   "theorems": [
    "Dxs.Heap.C89_string_partial",
    "Dxs.Heap.C89_binary_counterexample"
   ],
   "note": "proved unless a binary shorter than 12/16 bytes or a nil member is met; counterexample for short binaries"
  },
  {
   "property": "C90",
   "status": "partial",
   "theorems": [
    "Dxs.Heap.C90_values_partial",
    "Dxs.Heap.C90_single_partial",
    "Dxs.Heap.C90_path_counterexample",
    "Dxs.Heap.C90_nil_counterexample"
   ],
   "note": "proved for functions that decide on the values (old and new), and for functions that look at the path if only one name is common; the path given for the second common name is wrong (counterexample); exclusions as in C39"
  },
  {
   "property": "C91",
   "status": "proved",
   "theorems": [
    "Dxs.Heap.C91_other"
   ],
   "note": "for all pairs of values"
  },
  {
   "property": "C92",
   "status": "proved",
   "theorems": [
    "Dxs.Buf.C92_msgpack",
    "Dxs.Buf.C92_json",
    "Dxs.Buf.C92_bson"
   ],
   "note": "for the three NewValueFrom functions, all inputs (with spare capacity), all later memories"
  },
  {
   "property": "C93",
   "status": "proved",
   "theorems": [
    "Dxs.Buf.C93_msgpack",
    "Dxs.Buf.C93_json",
    "Dxs.Buf.C93_bson"
   ],
   "note": "for the three NewValueFrom functions"
  },
  {
   "property": "C94",
   "status": "partial",
   "theorems": [
    "Dxs.Buf.C94_partial",
    "Dxs.Buf.C94_caller_counterexample",
    "Dxs.Buf.C94_shared_counterexample",
    "Dxs.Buf.C94_extType_counterexample"
   ],
   "note": "proved for all programs that start with own bytes and use valueClone; counterexamples: after SetBinary(b, false) the next SetBinary writes into b; after sharebinary SetBinary writes over the following member and SetExtType into the document"
  },
  {
   "property": "C95",
   "status": "partial",
   "theorems": [
    "Dxs.Buf.C95_partial",
    "Dxs.Buf.C95_counterexample"
   ],
   "note": "proved if the value does not already use the array of b; counterexample"
  },
  {
   "property": "C96",
   "status": "proved",
   "theorems": [
    "Dxs.Buf.C96_binary"
   ],
   "note": "for all overlaps"
  },
  {
   "property": "C97",
   "status": "partial",
   "theorems": [
    "Dxs.Buf.C97_partial",
    "Dxs.Buf.C97_counterexample"
   ],
   "note": "proved unless the extension value is empty; counterexample"
  },
  {
   "property": "C98",
   "status": "partial",
   "theorems": [
    "Dxs.Reflect.C98_partial",
    "Dxs.Reflect.C98_escaped_name",
    "Dxs.Reflect.C98_nil_panics"
   ],
   "note": "proved for members with a text (not nil) and settled, different names; counterexamples for escaped names and nil members"
  },
  {
   "property": "C99",
   "status": "partial",
   "theorems": [
    "Dxs.Reflect.C99_refused_partial",
    "Dxs.Reflect.C99_pointer_partial",
    "Dxs.Reflect.C99_string_partial",
    "Dxs.Reflect.C99_nil_panics",
    "Dxs.Reflect.C99_slice_counterexample",
    "Dxs.Reflect.C99_slice_pointer_counterexample"
   ],
   "note": "proved for refusals of maps and slices and for pointers to basic types; counterexamples: slices and pointers to slices are accepted and nothing is stored"
  },
  {
   "property": "C100",
   "status": "partial",
   "theorems": [
    "Dxs.Yaml.C100_partial",
    "Dxs.Yaml.C100_load_partial",
    "Dxs.Yaml.C100_same_indent_counterexample",
    "Dxs.Yaml.C100_first_entry_list_counterexample",
    "Dxs.Yaml.C100_first_entry_deep_counterexample",
    "Dxs.Yaml.C100_wide_dash_counterexample",
    "Dxs.Yaml.C100_dash_counterexample",
    "Dxs.Yaml.C100_compact_list_counterexample",
    "Dxs.Yaml.C100_colon_counterexample",
    "Dxs.Yaml.C100_comment_counterexample",
    "Dxs.Yaml.C100_two_lines_counterexample"
   ],
   "note": "Proved for nested blocks under the conditions of YB.Plain (items of one dash and one blank, a list deeper than its key, at most one deep level under the first entry of an item before further entries); the counterexample theorems show what happens outside of these conditions, most notably a list at the indentation of its key."
  },
  {
   "property": "C101",
   "status": "partial",
   "theorems": [
    "Dxs.Yaml.C101_partial",
    "Dxs.Yaml.C101_counterexample"
   ],
   "note": "Proved when the last item of the list has deeper lines and the list is the whole text so far, for every line of two or more bytes that is not an item or comment. Not covered otherwise, and false in general: C101_counterexample is a text without deeper lines whose list is silently dropped."
  },
  {
   "property": "C102",
   "status": "partial",
   "theorems": [
    "Dxs.Yaml.C102_partial",
    "Dxs.Yaml.C102_quotes_counterexample",
    "Dxs.Yaml.C102_null_counterexample",
    "Dxs.Yaml.C102_flow_counterexample",
    "Dxs.Yaml.C102_empty_counterexample"
   ],
   "note": "Proved for scalars without quotes other than null and ~; all quoted texts keep their quotes (general theorem), null and ~ are strings, flow collections become the empty string, an empty entry becomes an object."
  },
  {
   "property": "C103",
   "status": "partial",
   "theorems": [
    "Dxs.Heap.C103_addFrom_partial",
    "Dxs.Heap.C103_copyFrom_partial",
    "Dxs.Heap.C103_self_loops",
    "Dxs.Heap.C103_part_panics"
   ],
   "note": "Proved for two objects, two arrays (AddFrom) or any two values (CopyFrom) without common parts, all types. False otherwise: v.AddFrom(v) never comes back for every non-empty object of strings and numbers (general theorem, every fuel), and adding an object to one of its own members panics."
  },
  {
   "property": "C104",
   "status": "partial",
   "theorems": [
    "Dxs.Json.C104_json",
    "Dxs.Bson.C104_bson",
    "Dxs.MsgPack.C104_msgpack_partial",
    "Dxs.MsgPack.C104_reserved"
   ],
   "note": "JSON and BSON: proved for all inputs. MessagePack: for inputs without the reserved code 0xc1; C104_reserved shows a nil element and a nil member otherwise."
  },
  {
   "property": "C105",
   "status": "partial",
   "theorems": [
    "Dxs.Heap.C105_bson_partial",
    "Dxs.Heap.C105_json_object",
    "Dxs.Heap.C105_json_name",
    "Dxs.Heap.C105_json_array",
    "Dxs.Heap.C105_msgpack"
   ],
   "note": "LoadFromBson: proved for all inputs and values. LoadFromJson leaves a nil member or element after an error (C105_json_object, C105_json_name, C105_json_array), LoadFromMsgPack after the reserved code (C105_msgpack)."
  },
  {
   "property": "C106",
   "status": "partial",
   "theorems": [
    "Dxs.Yaml.C106_new_partial",
    "Dxs.Yaml.C106_load_partial",
    "Dxs.Yaml.C106_block_anchor_counterexample",
    "Dxs.Yaml.C106_unknown_counterexample",
    "Dxs.Yaml.C106_late_merge_counterexample",
    "Dxs.Yaml.C106_deep_merge_counterexample",
    "Dxs.Yaml.C106_bool_counterexample"
   ],
   "note": "Proved for NewValueFromYaml and LoadFromYaml, for all mappings of scalars and nested mappings. Not covered, and false there (counterexamples): an anchor of a mapping that is not the first entry, << behind other entries, k: with a mapping for a merged member, an alias of a boolean, an alias without anchor. Lists inside are not covered."
  },
  {
   "property": "C107",
   "status": "partial",
   "theorems": [
    "Dxs.Convert.C107_chain_partial",
    "Dxs.Convert.C107_escape_counterexample",
    "Dxs.Convert.C107_key_counterexample",
    "Dxs.Convert.C107_binary_exact"
   ],
   "note": "Proved for any chain of conversions, for documents of null, booleans, integers (in BSON: not negative 32-bit ones), texts and names without escapes and not time-like, non-empty containers, distinct names, BSON below 2 GB. False with escapes: a JSON text with escapes becomes verbatim bytes through MessagePack, and a name likewise (counterexamples). Floats, times and binaries: see C03, C14, C15, C19, C60. For chains of MessagePack and BSON alone C107_binary_exact says exactly which objects stay as they are (doubles, times and binaries included)."
  },
  {
   "property": "C108",
   "status": "partial",
   "theorems": [
    "Dxs.Heap.C108_roundtrip_partial",
    "Dxs.Heap.C108_leaf_counterexample",
    "Dxs.Heap.C108_object_counterexample"
   ],
   "note": "Proved for *DxValue, objects and arrays as in C19 (no binaries, NAN, INF, time-like texts), into a value of the same type. False for a DxValue given by value: a value that is not a container is never changed although success is reported, and an object is left with nil members (counterexamples). Other types go to encoding/json, which is not modelled."
  },
  {
   "property": "C109",
   "status": "partial",
   "theorems": [
    "Dxs.IO.C109_msgPack",
    "Dxs.IO.C109_msgPack_roundtrip",
    "Dxs.IO.C109_yaml",
    "Dxs.IO.C109_yaml_mark",
    "Dxs.IO.C109_missing",
    "Dxs.IO.C109_read_error",
    "Dxs.IO.C109_binary_partial",
    "Dxs.IO.C109_other_counterexample"
   ],
   "note": "Proved for MessagePack, YAML, and binary values, for all read schedules and failures. False for SetBinaryFromFile on values of other types: success without looking at the file (counterexample)."
  },
  {
   "property": "C110",
   "status": "partial",
   "theorems": [
    "Dxs.Heap.C110_merged_partial",
    "Dxs.Heap.C110_array_counterexample"
   ],
   "note": "The exact result (relation Merged) for all objects with unique names, w without pending escapes and without what Clone does not copy, where common names meet scalars or containers of v; w is unchanged. An object merged into an array of the same name replaces its elements or the whole array (counterexample)."
  },
  {
   "property": "C111",
   "status": "partial",
   "theorems": [
    "Dxs.Reflect.C111_fields_partial",
    "Dxs.Reflect.C111_field",
    "Dxs.Reflect.C111_no_converters",
    "Dxs.Reflect.C111_only_fields",
    "Dxs.Reflect.C111_unmarshaler",
    "Dxs.Reflect.C111_slice_panics",
    "Dxs.Reflect.C111_top_ignored"
   ],
   "note": "False in general: C111_slice_panics (elements of slices: Field(i) of a slice panics) and C111_top_ignored (the converter of the destination type is not looked up). Proved: C111_fields_partial (fields at any depth of a new struct), C111_field (any struct, any earlier contents), C111_no_converters, C111_only_fields (only converters of types inside count), C111_unmarshaler. Types are compared by structure."
  },
  {
   "property": "C112",
   "status": "partial",
   "theorems": [
    "Dxs.Heap.C112_newValue",
    "Dxs.Heap.C112_newCached_partial",
    "Dxs.Heap.C112_reset_partial",
    "Dxs.Heap.C112_insertValue",
    "Dxs.Heap.C112_setKey_partial",
    "Dxs.Heap.C112_recycled_counterexample",
    "Dxs.Heap.C112_reset_counterexample"
   ],
   "note": "False for Int, Float, Double, DateTime: the number in the node is not cleared (C112_recycled_counterexample: NewCacheValue(VT_Int) shows the number of a freed value; C112_reset_counterexample: Reset(VT_Int) keeps the bits of a Double). Proved: NewValue, InsertValue, Append for all types, NewCacheValue, Reset, SetKey for the others."
  },
  {
   "property": "C113",
   "status": "partial",
   "theorems": [
    "Dxs.Heap.C113_programs_partial",
    "Dxs.Heap.C113_operation",
    "Dxs.Heap.C113_unique"
   ],
   "note": "C113_programs_partial for programs, C113_operation for one operation in any memory, C113_unique. Operations on the shared constants, storing a value inside itself and copies of own nodes of type True/False/NaN/Inf are left out by Cmd.exec (other properties). Missing: these operations."
  },
  {
   "property": "C114",
   "status": "partial",
   "theorems": [
    "Dxs.Heap.C114_transparent_partial",
    "Dxs.Heap.C114_recycled_counterexample"
   ],
   "note": "False when a bare number is made in recycled memory (C114_recycled_counterexample). Proved for programs in which nothing of the memory shows (sureAll, decidable; examples)."
  },
  {
   "property": "C115",
   "status": "partial",
   "theorems": [
    "Dxs.Heap.C115_programs_partial",
    "Dxs.Heap.C115_others"
   ],
   "note": "Over PCmd programs of Load/Prog; YAML texts with * and merges that are not mergeable are left out of programs (the statement does nothing). Missing: these, and what C113 leaves out."
  },
  {
   "property": "C116",
   "status": "partial",
   "theorems": [
    "Dxs.Heap.C116_transparent_partial",
    "Dxs.Heap.C116_recycled_counterexample"
   ],
   "note": "False in general: a number made without a value shows what a recycled node had (counterexample). Proved for programs whose statements show nothing of the memory (psureAll), YAML included; loads into whole values included, also of documents that do not fit or are refused; Go data included (NewValueFrom of data that is stored); merges are missing."
  },
  {
   "property": "C117",
   "status": "partial",
   "theorems": [
    "Dxs.Yaml.C117_lines",
    "Dxs.Yaml.C117_load_partial",
    "Dxs.Yaml.C117_item_counterexample",
    "Dxs.Yaml.C117_merge_counterexample"
   ],
   "note": "False in general: a refused list item leaves an empty string (C117_item_counterexample), a <<: without a name replaces the value of the line before (C117_merge_counterexample). Proved: the text is refused at a line, the lines before are parsed as a text of their own (C117_lines), and the memory after the error is the one after these lines, for lines without - and without such a merge, unless the indentation has closed all values (C117_load_partial)."
  },
  {
   "property": "C118",
   "status": "partial",
   "theorems": [
    "Dxs.Heap.C118_outputs_partial",
    "Dxs.Heap.C118_question",
    "Dxs.Heap.C118_effect",
    "Dxs.Heap.C118_equal"
   ],
   "note": "Programs of all statements of C115 with questions in between. Equal of two positions of one variable is asked only when nothing is to be unescaped in either (otherwise it prints nothing). Missing: this, and what C115 leaves out."
  },
  {
   "property": "C119",
   "status": "partial",
   "theorems": [
    "Dxs.Heap.C119_transparent_partial",
    "Dxs.Heap.C119_bool_counterexample",
    "Dxs.Heap.C119_bson_counterexample",
    "Dxs.Heap.C119_equal_counterexample"
   ],
   "note": "Proved for programs in which nothing of the memory shows. False in general: Bool, ToBson and Equal read the unused half of a Float (counterexamples)."
  },
  {
   "property": "C120",
   "status": "partial",
   "theorems": [
    "Dxs.Heap.C120_repeat_partial",
    "Dxs.Heap.C120_settled_partial",
    "Dxs.Heap.C120_true_counterexample"
   ],
   "note": "Proved: false stays false, the second comparison changes nothing and all later answers agree. False in general: a true answer may become false, because a raw string is compared ignoring case the first time (counterexample)."
  },
  {
   "property": "C121",
   "status": "partial",
   "theorems": [
    "Dxs.Heap.C121_msgpack_partial",
    "Dxs.Heap.C121_msgpack_tree_partial",
    "Dxs.Heap.C121_json_partial",
    "Dxs.Heap.C121_json_accepted",
    "Dxs.Heap.C121_bson_partial",
    "Dxs.Heap.C121_bson_tree_partial",
    "Dxs.Heap.C121_empty_counterexample",
    "Dxs.Heap.C121_trailing_counterexample",
    "Dxs.Heap.C121_returns",
    "Dxs.Heap.C121_json_safe"
   ],
   "note": "MsgPack, JSON and BSON texts end alike in any memory. Missing because false: empty (JSON: blank) texts, which Load accepts and New refuses, and text after the JSON value, which Load ignores."
  },
  {
   "property": "C122",
   "status": "partial",
   "theorems": [
    "Dxs.Heap.C122_programs_partial",
    "Dxs.Heap.C122_statement_partial",
    "Dxs.Heap.C122_printing_partial",
    "Dxs.Heap.C122_question",
    "Dxs.Heap.C122_yaml_counterexample"
   ],
   "note": "All programs whose YAML texts have no last line of exactly one byte. Missing because false: those (never ends). Left out of the programs: YAML texts with * and copies of a value into itself (these can loop, see C45, C103)."
  },
  {
   "property": "C123",
   "status": "partial",
   "theorems": [
    "Dxs.Heap.C123_twice",
    "Dxs.Heap.C123_program_partial"
   ],
   "note": "For every state that a program of the model reaches, every position, every getter, lookup and writer of Ask: the second call gives the same answer and leaves every value as the first left it. C123_twice holds in every sound state. Missing: states that only the statements left out of programs reach."
  },
  {
   "property": "C124",
   "status": "partial",
   "theorems": [
    "Dxs.Heap.C124_escapes_only",
    "Dxs.Heap.C124_firm_partial",
    "Dxs.Heap.C124_settled_partial",
    "Dxs.Heap.C124_order_partial",
    "Dxs.Heap.C124_others_partial",
    "Dxs.Heap.C124_type_counterexample",
    "Dxs.Heap.C124_int_counterexample",
    "Dxs.Heap.C124_json_counterexample",
    "Dxs.Heap.C124_msgpack_counterexample"
   ],
   "note": "Proved: questions change values only by undoing pending escapes; Count, Binary, BinaryLength, ExtType, Duration and ToBson are answered as if nothing had been asked before; if no escapes are pending every question is; questions about another variable never matter. False in general: Type, Int, ToJson and ToMsgPack of a JSON string with escapes differ after String or ToBson (counterexamples)."
  },
  {
   "property": "C125",
   "status": "proved",
   "theorems": [
    "Dxs.Yaml.C125_new",
    "Dxs.Yaml.C125_load",
    "Dxs.Yaml.C125_load_left"
   ],
   "note": "For texts without * (aliases), as stated."
  },
  {
   "property": "C126",
   "status": "partial",
   "theorems": [
    "Dxs.Yaml.C126_accept_partial",
    "Dxs.Yaml.C126_partial",
    "Dxs.Yaml.C126_word",
    "Dxs.Yaml.C126_indented",
    "Dxs.Yaml.C126_second_root"
   ],
   "note": "False in general: a lone word, a text indented as a whole, and texts in which NewValueFromYaml begins a second root (counterexamples). Proved: what New accepts Load accepts (texts that do not begin with a blank), and without indentation both give the same tree."
  },
  {
   "property": "C127",
   "status": "proved",
   "theorems": [
    "Dxs.Reflect.C127_setValue",
    "Dxs.Reflect.C127_setKeyvalue",
    "Dxs.Reflect.C127_setIndexvalue",
    "Dxs.Reflect.C127_function"
   ],
   "note": "Goes through all cases of the Go data (Go in Reflect/Model.lean). The value is described up to the unused upper half of the word of a Float."
  },
  {
   "property": "C128",
   "status": "partial",
   "theorems": [
    "Dxs.Reflect.C128_partial",
    "Dxs.Reflect.C128_lost",
    "Dxs.Reflect.C128_bytes"
   ],
   "note": "False in general: nil, []byte, named types, empty maps of other types and nil pointers are not stored, and the value is {} without and an Int with a cache (C128_lost, for all such data). Proved for all other data."
  },
  {
   "property": "C129",
   "status": "proved",
   "theorems": [
    "Dxs.Heap.C129_msgpack_tree",
    "Dxs.Heap.C129_json_tree",
    "Dxs.Heap.C129_bson_tree",
    "Dxs.Heap.C129_msgpack",
    "Dxs.Heap.C129_json",
    "Dxs.Heap.C129_bson"
   ],
   "note": "For all byte sequences and all values that stand in a memory in order. The loaders in memory are also shown to be functions on trees (loadMsgPackT, loadJsonT, loadBsonT), up to the unused bits of a Float."
  },
  {
   "property": "C130",
   "status": "proved",
   "theorems": [
    "Dxs.Heap.C130_msgpack",
    "Dxs.Heap.C130_json",
    "Dxs.Heap.C130_bson"
   ],
   "note": "Both directions, for all accepted documents and all values that stand in a memory in order; TakesM and TakesJ are the exact conditions. What is not accepted is the subject of C121."
  },
  {
   "property": "C131",
   "status": "partial",
   "theorems": [
    "Dxs.Heap.C131_msgpack",
    "Dxs.Heap.C131_json",
    "Dxs.Heap.C131_bson",
    "Dxs.Heap.C131_program_partial"
   ],
   "note": "`C131_msgpack`, `C131_json`, `C131_bson`: in any memory, for what the format carries; `C131_program_partial`: as two statements of a program in any state. Missing: JSON and BSON as statements of a program, and the shared constants there."
  },
  {
   "property": "C132",
   "status": "proved",
   "theorems": [
    "Dxs.MsgPack.C132_msgpack",
    "Dxs.Bson.C132_bson",
    "Dxs.Json.C132_json",
    "Dxs.C132_msgpack_names"
   ],
   "note": "Hypotheses on times and float texts are explicit (Steady, Firm); the conversions themselves are outside the package. Equal names in an object: C132_msgpack_names shows the bytes then differ."
  },
  {
   "property": "C133",
   "status": "partial",
   "theorems": [
    "Dxs.MsgPack.C133_msgpack_partial",
    "Dxs.Json.C133_json_partial",
    "Dxs.Bson.C133_bson_partial",
    "Dxs.C133_msgpack_nil",
    "Dxs.C133_msgpack_fixext",
    "Dxs.C133_json_inf",
    "Dxs.C133_json_number",
    "Dxs.C133_bson_negative",
    "Dxs.C133_bson_binary",
    "Dxs.C133_bson_empty",
    "Dxs.Bson.C133_bson_exact",
    "Dxs.MsgPack.C133_msgpack_exact"
   ],
   "note": "False in general (counterexamples: nil from 0xc1, fixext extensions, INF in JSON, a lone JSON number, negative 32-bit integers, binaries and empty documents in BSON). Proved for everything else that can be read, under laws for times and JSON floats. For BSON the condition is exact (C133_bson_exact), for MessagePack up to the extensions of C09 (C133_msgpack_exact)."
  },
  {
   "property": "C134",
   "status": "proved",
   "theorems": [
    "Dxs.Json.C134_exact",
    "Dxs.Json.C134_refused",
    "Dxs.Json.C134_converse",
    "Dxs.Json.C134_texts"
   ],
   "note": "Both directions for all inputs; refusals are errors; converse of C18."
  },
  {
   "property": "C135",
   "status": "proved",
   "theorems": [
    "Dxs.MsgPack.C135_exact",
    "Dxs.MsgPack.C135_value",
    "Dxs.MsgPack.C135_one",
    "Dxs.MsgPack.C135_regular",
    "Dxs.MsgPack.C135_denotes",
    "Dxs.MsgPack.C135_agrees",
    "Dxs.MsgPack.C135_refused"
   ],
   "note": "All byte strings. The additions to the specification are marked in the grammar; without them it is the specification."
  },
  {
   "property": "C136",
   "status": "proved",
   "theorems": [
    "Dxs.Bson.C136_errors",
    "Dxs.Bson.C136_exact",
    "Dxs.Bson.C136_one",
    "Dxs.Bson.C136_refused",
    "Dxs.Bson.C136_overrun",
    "Dxs.Bson.C136_beyond",
    "Dxs.Bson.C136_unknown"
   ],
   "note": "Both directions for all inputs, all bytes behind them and all external functions; the grammar is unambiguous; all other inputs give an error or a panic, and which of the two is decided by the grammar of C58_exact."
  },
  {
   "property": "C137",
   "status": "proved",
   "theorems": [
    "Dxs.Bson.C137_reading",
    "Dxs.Bson.C137_right",
    "Dxs.Bson.C137_all"
   ],
   "note": "For all well-formed documents without subtype-2 binaries (C137_all; C137_reading is the plain form for documents without empty containers); IndexLaw is the only law about external functions."
  },
  {
   "property": "C138",
   "status": "proved",
   "theorems": [
    "Dxs.MsgPack.C138_reading",
    "Dxs.MsgPack.C138_value",
    "Dxs.MsgPack.C138_forms",
    "Dxs.MsgPack.C138_back",
    "Dxs.MsgPack.C138_iff"
   ],
   "note": "No laws about external functions needed; values MessagePack can carry are those of Supported (no NAN/INF, lengths below 2^32, extensions as in C09)."
  }
 ]
}