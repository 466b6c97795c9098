{"id": "C01", "title": "MsgPack decoder accepts every spec encoding", "statement": "For every MessagePack document that is valid according to the MessagePack specification (in any of the alternative formats the spec allows for each item) and whose maps have pairwise different string keys, whose integers fit in int64 and whose strings/containers are within the 32-bit limits, NewValueFromMsgPack returns no error, does not panic, and returns exactly the value described by the document; bytes after the document are not consumed.", "quantifier": "all data trees of any depth/size, all spec-conforming byte encodings of them, all trailing bytes", "why_tests_cant": "the set of encodings is infinite (nesting, sizes, alternative formats)", "anchors": ["msgpackparse.go:parseMsgPackValue,parseMsgPackObject,parseMsgPackArray", "msgpack_value.go:parse*", "msgpack_codes.go"]}
{"id": "C02", "title": "MsgPack encoder emits spec-conforming bytes", "statement": "For every value made of objects, arrays, strings, integers, floats, doubles, booleans, null, times and binaries (sizes below 2^32), Value2MsgPack emits a byte string that is a valid MessagePack encoding of that value. (Extension values of payload length 1,2,4,8,16 and NAN/INF values are the exceptions, see C09.)", "quantifier": "all values of any depth and size", "why_tests_cant": "infinitely many values; format boundaries 31/32, 255/256, 65535/65536, ... for four different families", "anchors": ["msgpackparse.go:Value2MsgPack", "msgpack_value.go:write*"]}
{"id": "C03", "title": "MsgPack round trip", "statement": "Decoding what Value2MsgPack produced gives back the same value: same shape, same key order, same scalars, for every value of the supported kinds whose object keys are pairwise different (raw JSON strings come back as ordinary strings with the same bytes).", "quantifier": "all supported values of any depth and size", "why_tests_cant": "infinitely many values", "anchors": ["msgpackparse.go:Value2MsgPack,NewValueFromMsgPack"]}
{"id": "C04", "title": "64-bit integers survive MsgPack in the shortest form", "statement": "For every int64 n, the bytes written for n decode to n, and no other MessagePack integer encoding of n is shorter.", "quantifier": "all 2^64 integers", "why_tests_cant": "2^64 cases", "anchors": ["msgpack_value.go:writeInt", "msgpackparse.go:parseMsgPackValue"]}
{"id": "C05", "title": "Encoders append to the caller's buffer and never disturb it", "statement": "For Value2MsgPack, Value2Json, Value2FormatJson and Value2Bson: the result for destination buffer dst is dst followed by the result for an empty buffer. In particular the BSON length prefixes that are patched afterwards never touch the caller's bytes.", "quantifier": "all values, all destination buffers", "why_tests_cant": "infinitely many values and buffers; BSON patches lengths in place at nested offsets", "anchors": ["msgpackparse.go:Value2MsgPack", "jsonparse.go:Value2Json,formatValue", "bson_parse.go:writeObjBsonValue,writeArrayBsonValue"]}
{"id": "C06", "title": "MsgPack decoder never panics", "statement": "For every byte string NewValueFromMsgPack returns a value or an error; it never panics.", "quantifier": "all byte strings", "why_tests_cant": "arbitrary attacker-controlled input", "anchors": ["msgpackparse.go:parseMsgPackValue,parseMsgPackObject"]}
{"id": "C07", "title": "MsgPack decoder consumes a prefix of its input", "statement": "Whenever decoding one value succeeds, the unread bytes are a proper suffix of the input; decoding never reads outside of the input, and decoding always terminates.", "quantifier": "all byte strings", "why_tests_cant": "arbitrary input; termination", "anchors": ["msgpackparse.go:parseMsgPackValue"]}
{"id": "C08", "title": "Truncated MsgPack is never accepted", "statement": "No proper prefix of an encoding produced by Value2MsgPack for a supported value decodes successfully.", "quantifier": "all supported values, all truncation points", "why_tests_cant": "all truncation points of all documents", "anchors": ["msgpackparse.go", "msgpack_value.go"]}
{"id": "C09", "title": "MsgPack extension values round trip", "statement": "Every extension value (type byte plus payload of any length below 2^32, type not the timestamp type) encodes to bytes that decode to the same extension value.", "quantifier": "all type bytes, all payloads", "why_tests_cant": "infinitely many payload lengths; the fixext lengths 1,2,4,8,16 are special", "anchors": ["msgpack_value.go:writeExtCode,parseExtLen", "msgpackparse.go:Value2MsgPack,parseMsgPackValue"]}
{"id": "C10", "title": "LoadFromMsgPack agrees with NewValueFromMsgPack", "statement": "Loading a document into an existing value leaves that value equal to the value NewValueFromMsgPack returns for the same bytes, whatever the existing value was before.", "quantifier": "all byte strings, all previous states of the target", "why_tests_cant": "all documents times all previous states", "anchors": ["dxvalue.go:LoadFromMsgPack", "msgpackparse.go:parseMsgPack2Value"]}
{"id": "C11", "title": "Decoding into recycled cache memory leaks nothing", "statement": "The value returned by NewValueFromMsgPack/NewValueFromJson with useCache=true is the same as with useCache=false, whatever values were previously created from, and freed into, the cache pool.", "quantifier": "all inputs, all histories of cache use", "why_tests_cant": "depends on arbitrary histories of allocation and FreeValue", "anchors": ["cache.go:getValue,getCache,FreeValue", "dxvalue.go:Reset"]}
{"id": "C12", "title": "BSON documents are framed correctly", "statement": "For every object or array value, the output of Value2Bson starts (after the caller's dst) with the little-endian 32-bit length of the document, ends with a zero byte, and every nested document is framed in the same way.", "quantifier": "all values of any depth, all destination buffers", "why_tests_cant": "nested back-patching at all depths and offsets", "anchors": ["bson_parse.go:writeObjBsonValue,writeArrayBsonValue"]}
{"id": "C13", "title": "BSON round trip", "statement": "NewValueFromBson(Value2Bson(v)) equals v for every object v.", "quantifier": "all objects of any depth", "why_tests_cant": "infinitely many values", "anchors": ["bson_parse.go"]}
{"id": "C14", "title": "Integers survive BSON", "statement": "Every int64 stored under a key survives Value2Bson followed by NewValueFromBson.", "quantifier": "all 2^64 integers, all keys without NUL", "why_tests_cant": "2^64 cases", "anchors": ["bson_parse.go:writeSimpleBsonValue,parseValue"]}
{"id": "C15", "title": "Empty containers survive BSON", "statement": "An object containing empty objects or empty arrays, or an empty object itself, survives a BSON round trip.", "quantifier": "all objects containing empty containers", "why_tests_cant": "all positions in all documents", "anchors": ["bson_parse.go:parseBsonDocument,parseBsonArray"]}
{"id": "C16", "title": "Binary data survives BSON", "statement": "A binary value stored under a key comes back from BSON with the same bytes.", "quantifier": "all byte strings", "why_tests_cant": "all payloads", "anchors": ["bson_parse.go:parseValue,writeSimpleBsonValue", "bin_value.go:SetBinary"]}
{"id": "C17", "title": "float32 values survive BSON", "statement": "A value set with SetKeyFloat is written as the BSON double that denotes the same number.", "quantifier": "all float32 bit patterns", "why_tests_cant": "2^32 cases times stale memory contents", "anchors": ["bson_parse.go:writeSimpleBsonValue"]}
{"id": "C18", "title": "JSON decoder accepts every JSON text of its grammar", "statement": "For every JSON text (RFC 8259 objects, arrays, strings with arbitrary escapes, integers and decimal numbers nested in containers, true/false/null; arbitrary whitespace between tokens; object keys without an escaped quote) NewValueFromJson returns the described value: same shape, same member order, every string with its raw text.", "quantifier": "all JSON texts, all whitespace layouts, any depth", "why_tests_cant": "infinitely many texts and layouts", "anchors": ["jsonparse.go:parseJsonValue,parseJsonObj,parseJsonArray,skipWB"]}
{"id": "C19", "title": "JSON round trip", "statement": "Parsing what Value2Json wrote gives a value whose shape, keys, integers, booleans and nulls are those of the original and whose strings read back (String()) as the original strings, for every container value whose keys contain no double quote.", "quantifier": "all values of any depth, both escaping styles", "why_tests_cant": "infinitely many values", "anchors": ["jsonparse.go:Value2Json,NewValueFromJson"]}
{"id": "C20", "title": "Formatted and compact JSON mean the same", "statement": "Value2FormatJson and Value2Json of the same value (without binaries/NAN/INF) parse to the same value.", "quantifier": "all values of any depth", "why_tests_cant": "infinitely many values and indentation levels", "anchors": ["jsonparse.go:formatValue,Value2Json"]}
{"id": "C21", "title": "JSON decoder never panics and always terminates", "statement": "For every byte string NewValueFromJson returns (a value or nil, or an error); it never indexes outside its input and it terminates.", "quantifier": "all byte strings", "why_tests_cant": "arbitrary attacker-controlled input", "anchors": ["jsonparse.go:parseJsonValue and callees"]}
{"id": "C22", "title": "JSON trailing garbage is rejected", "statement": "If NewValueFromJson accepts s then s followed by whitespace and a non-whitespace byte is rejected when s is an object, array or string text.", "quantifier": "all accepted texts, all trailing bytes", "why_tests_cant": "infinitely many texts", "anchors": ["jsonparse.go:NewValueFromJson"]}
{"id": "C23", "title": "JSON strings end at the first unescaped quote", "statement": "The string scanner returns exactly the bytes before the first double quote that is preceded by an even number of backslashes, and fails iff there is no such quote.", "quantifier": "all byte strings", "why_tests_cant": "arbitrary runs of backslashes and quotes", "anchors": ["jsonparse.go:parseJsonString"]}
{"id": "C24", "title": "Only the literal null (or nan) is accepted after 'n'", "statement": "A value token starting with n is accepted only when it is null or nan.", "quantifier": "all byte strings starting with n", "why_tests_cant": "all inputs", "anchors": ["jsonparse.go:parseJsonValue"]}
{"id": "C25", "title": "Top-level JSON numbers are parsed", "statement": "NewValueFromJson of a text consisting of a number only returns that number.", "quantifier": "all number texts", "why_tests_cant": "all numbers", "anchors": ["jsonparse.go:parseJsonNum,NewValueFromJson"]}
{"id": "C26", "title": "JSON parse errors can be printed", "statement": "For every rejected byte string calling Error() on the returned error does not panic.", "quantifier": "all rejected byte strings", "why_tests_cant": "all invalid inputs", "anchors": ["jsonparse.go:ErrorParseJson.Error,parseJsonKey,skipWB"]}
{"id": "C27", "title": "JSON object keys end at the first unescaped quote", "statement": "The key scanner accepts keys that contain escaped quotes.", "quantifier": "all keys", "why_tests_cant": "arbitrary runs of backslashes and quotes", "anchors": ["jsonparse.go:parseJsonKey"]}
{"id": "C28", "title": "Lookup in objects with duplicate or escaped keys", "statement": "Looking up a name in a parsed JSON object yields the first member whose (unescaped) key is that name.", "quantifier": "all objects, all names", "why_tests_cant": "all combinations of escaped spellings", "anchors": ["dxvalue.go:VObject.ValueByName,UnEscapestrs"]}
{"id": "C29", "title": "Objects behave like ordered maps", "statement": "On an object that is a proper tree, any sequence of SetKeyString/SetKeyInt/SetKeyDouble/SetKeyFloat/SetKeyBool/SetKeyValue/RemoveKey behaves as on an abstract insertion-ordered map: a read after a write returns the written value, other keys are unaffected, order is order of first insertion.", "quantifier": "all histories of operations, all keys and values", "why_tests_cant": "all operation sequences", "anchors": ["dxvalue.go:SetKeyCached,SetKeyValue,RemoveKey,ValueByName"]}
{"id": "C30", "title": "Set operations never create duplicate keys", "statement": "Starting from an object with pairwise different keys, every history of key-setting and key-removing operations keeps them pairwise different (also under IgnoreCase).", "quantifier": "all histories", "why_tests_cant": "all operation sequences", "anchors": ["dxvalue.go:VObject.indexByName,SetKeyCached"]}
{"id": "C31", "title": "RemoveKey/ExtractValue remove exactly one member", "statement": "RemoveKey removes the first member with that name and nothing else; after it the name is gone if keys were unique; ExtractValue additionally returns that member; removing an absent name changes nothing observable.", "quantifier": "all objects, all names", "why_tests_cant": "all objects", "anchors": ["dxvalue.go:VObject.Remove,ExtractValue"]}
{"id": "C32", "title": "Array operations behave like list operations", "statement": "SetIndex*/SetIndexValue replace inside the bounds and append outside of them, InsertValue inserts before idx (clamped), RemoveIndex deletes, Append appends; all other elements keep value and order.", "quantifier": "all arrays, all (also negative and huge) indexes", "why_tests_cant": "all indexes and lengths", "anchors": ["dxvalue.go:SetIndexCached,SetIndexValue,InsertValue,RemoveIndex,Append"]}
{"id": "C33", "title": "Path lookup composes and defaults are returned exactly when the path is missing", "statement": "ValueByPath(p...,q...) is ValueByPath(q...) of ValueByPath(p...); the XxxByPath readers return the default iff the path does not resolve.", "quantifier": "all values, all paths", "why_tests_cant": "all paths and trees", "anchors": ["dxvalue.go:ValueByPath,*ByPath"]}
{"id": "C34", "title": "ForcePath creates what it returns", "statement": "After ForcePath(vt, path...) on an object, ValueByPath(path...) is the returned node and has type vt.", "quantifier": "all object trees, all non-empty paths", "why_tests_cant": "all trees and paths", "anchors": ["dxvalue.go:ForcePath"]}
{"id": "C35", "title": "Shared constants never change", "statement": "No sequence of API calls changes what any of the shared true/false/null/nan/inf values reads as (type, Bool, Int, String, Count, JSON text).", "quantifier": "all histories of API calls, including calls on the shared values themselves", "why_tests_cant": "all histories; the values are process-global", "anchors": ["dxvalue.go:Reset,ReadOnly,Set*", "jsonparse.go:valueTrue.."]}
{"id": "C36", "title": "Scalar setters and getters agree", "statement": "After SetInt(n)/SetString(s)/SetDouble(d)/SetFloat(f)/SetBool(b) on a non-read-only value, Int()/String()/Double()/Float()/Bool() return what was stored, whatever the value held before.", "quantifier": "all previous states, all scalars", "why_tests_cant": "all previous states incl. recycled memory", "anchors": ["dxvalue.go:SetInt,Int,SetString,String,SetDouble,Double,SetFloat,Float,SetBool,Bool"]}
{"id": "C37", "title": "Clone is a deep, independent copy", "statement": "Clone returns a value that represents the same tree, and no later mutation of either one is visible through the other.", "quantifier": "all values of any depth, all later mutations", "why_tests_cant": "all trees and all later histories", "anchors": ["dxvalue.go:clone,Clone"]}
{"id": "C38", "title": "Equal is an equivalence and never panics", "statement": "Equal is reflexive, symmetric and panic-free, and Equal arrays have equal length.", "quantifier": "all pairs of values", "why_tests_cant": "all pairs of trees", "anchors": ["dxvalue.go:Equal"]}
{"id": "C39", "title": "MergeWith of objects keeps everything from both sides", "statement": "After v.MergeWith(w,nil) for objects every key of v and every key of w is present in v.", "quantifier": "all pairs of objects", "why_tests_cant": "all pairs of trees", "anchors": ["dxvalue.go:mergeObject,MergeWith"]}
{"id": "C40", "title": "MergeWith of arrays is an order-preserving union", "statement": "After v.MergeWith(w,nil) for arrays v is its old elements followed by the elements of w (in order) that are Equal to none of the old elements; w is unchanged.", "quantifier": "all pairs of arrays", "why_tests_cant": "all pairs of arrays", "anchors": ["dxvalue.go:MergeWith"]}
{"id": "C41", "title": "Reading does not change what later reads return", "statement": "A lookup (hit or miss) does not change the result of any later lookup on the same object.", "quantifier": "all objects, all sequences of lookups", "why_tests_cant": "lookups lazily rewrite keys; depends on history", "anchors": ["dxvalue.go:ValueByName,UnEscapestrs"]}
{"id": "C42", "title": "Reading a string does not change what is serialised", "statement": "Calling String() on a parsed JSON string does not change the bytes later produced for it by the encoders (up to JSON escaping).", "quantifier": "all strings", "why_tests_cant": "depends on history", "anchors": ["dxvalue.go:String", "msgpackparse.go:Value2MsgPack"]}
{"id": "C43", "title": "Live cached values never share memory", "statement": "Values obtained with caching from different calls, none of which has been freed, never share a node, for every history of creations and frees.", "quantifier": "all histories of cached creations, growth and frees, all pool behaviours", "why_tests_cant": "all interleavings of allocations and frees; sync.Pool may return any element", "anchors": ["cache.go"]}
{"id": "C44", "title": "FreeValue is idempotent as long as nothing was allocated in between", "statement": "Calling FreeValue twice on the same value puts its cache into the pool only once; a cache is never in the pool twice.", "quantifier": "all histories", "why_tests_cant": "all histories", "anchors": ["cache.go:FreeValue"]}
{"id": "C45", "title": "YAML parsing terminates", "statement": "NewValueFromYaml terminates on every input.", "quantifier": "all byte strings", "why_tests_cant": "non-termination cannot be observed by a test", "anchors": ["yamlparse.go:parse"]}
{"id": "C46", "title": "YAML parsing never panics", "statement": "NewValueFromYaml does not panic on any input.", "quantifier": "all byte strings", "why_tests_cant": "arbitrary input", "anchors": ["yamlparse.go:parse,parseLine"]}
{"id": "C47", "title": "YAML results do not depend on earlier parses", "statement": "The result of NewValueFromYaml depends only on its input, although parsers are pooled and not fully reset.", "quantifier": "all inputs, all histories of earlier parses", "why_tests_cant": "depends on histories of pooled parser objects", "anchors": ["yamlparse.go:reset,newyamParser,freeyamlParser"]}
{"id": "C48", "title": "Flat YAML maps parse to the listed entries", "statement": "A YAML text of lines `key: value` (any number, plain scalar values) parses to the object with those entries in order.", "quantifier": "all line lists", "why_tests_cant": "any number of lines and any contents", "anchors": ["yamlparse.go:parse,parseLine,parseObject,splitKv,parseStringValue"]}
{"id": "C49", "title": "ReadFile returns the whole file for every read schedule", "statement": "ReadFile returns exactly the file contents however the operating system splits the reads and whatever size Stat reported.", "quantifier": "all contents, all sequences of short reads, all reported sizes", "why_tests_cant": "all read schedules", "anchors": ["iofiles.go:ReadFile"]}
{"id": "C50", "title": "JSON files with and without BOM load the same", "statement": "NewValueFromJsonFile of a file written by Value2File (with or without BOM) equals NewValueFromJson of the text.", "quantifier": "all values, both BOM settings", "why_tests_cant": "all values", "anchors": ["jsonparse.go:Value2File,NewValueFromJsonFile"]}
{"id": "C51", "title": "Saving is atomic with respect to crashes", "statement": "If the process stops at any point during Value2File the file contains either the old or the new contents.", "quantifier": "all crash points", "why_tests_cant": "all crash points", "anchors": ["jsonparse.go:Value2File"]}
{"id": "C52", "title": "Concurrent readers are safe", "statement": "Two goroutines that only look up keys in the same parsed object get the answers they would get alone, for every interleaving.", "quantifier": "all interleavings of two readers", "why_tests_cant": "all schedules", "anchors": ["dxvalue.go:ValueByName,UnEscapestrs"]}
{"id": "C53", "title": "SetValue mirrors Go data", "statement": "SetValue of nested Go maps/slices/scalars makes the value mirror the data, for every map iteration order.", "quantifier": "all nested Go data, all map iteration orders", "why_tests_cant": "map iteration order is random", "anchors": ["reflect_parse.go:SetValue,SetKeyvalue,SetIndexvalue"]}
{"id": "C54", "title": "ToStdValue fills Go maps and slices", "statement": "ToStdValue into map[string]interface{} yields the data of the value, including nested arrays.", "quantifier": "all values", "why_tests_cant": "all trees", "anchors": ["reflect_parse.go:ToStdValue"]}
{"id": "C55", "title": "BSON documents are decoded as specified", "statement": "NewValueFromBson decodes every well-formed BSON document, of the element types the package reads (no empty containers, negative int32 or generic binaries: see C14-C16), to the value the BSON specification assigns to it, regardless of the bytes that follow and of the spare capacity of the buffer.", "quantifier": "all well-formed documents of any depth, all trailing bytes, all buffers", "why_tests_cant": "infinitely many documents", "anchors": ["bson_parse.go:parseBsonDocument,parseBsonArray,parseValue"]}
{"id": "C56", "title": "Truncated BSON documents are rejected", "statement": "Every proper prefix of a framed BSON document, whatever its body, makes NewValueFromBson return an error: it is not accepted and does not panic.", "quantifier": "all document bodies, all cut points", "why_tests_cant": "infinitely many documents and cut points", "anchors": ["bson_parse.go:parseBsonDocument"]}
{"id": "C57", "title": "The BSON decoder terminates", "statement": "NewValueFromBson terminates on every input.", "quantifier": "all byte strings, all buffer capacities", "why_tests_cant": "termination on all inputs; element types without a case consume no payload bytes", "anchors": ["bson_parse.go:parseBsonDocument,parseBsonArray"]}
{"id": "C58", "title": "The BSON decoder stays inside the bytes it was given", "statement": "NewValueFromBson never panics, and its result depends only on the bytes of the slice it is given, not on bytes between the slice's length and its capacity.", "quantifier": "all byte strings, all contents of the spare capacity", "why_tests_cant": "needs all malformed inputs and all surrounding memory contents", "anchors": ["bson_parse.go:parseValue"]}
{"id": "C59", "title": "JSON numbers with an exponent are read as numbers", "statement": "Every number of the JSON grammar, including those with an exponent and no decimal point such as 1e5, is decoded to the number it denotes (possibly rounded).", "quantifier": "all number tokens", "why_tests_cant": "infinitely many tokens; the defective class has no decimal point and therefore takes the integer path", "anchors": ["jsonparse.go:parseJsonNum"]}
{"id": "C60", "title": "JSON floats survive a round trip", "statement": "A finite float32 or float64 written by Value2Json and read by NewValueFromJson comes back with the same type and the same bits.", "quantifier": "all finite bit patterns", "why_tests_cant": "2^64 bit patterns; integral values print without a decimal point, and doubles are narrowed", "anchors": ["jsonparse.go:parseJsonNum", "jsonparse.go:Value2Json"]}
{"id": "C61", "title": "Encoders do not silently drop values", "statement": "For every value that is not rejected with an error, Value2MsgPack, Value2Bson and Value2Json write a non-empty serialisation of that value that the corresponding decoder accepts; nothing is left out without an error.", "quantifier": "all values, all three formats", "why_tests_cant": "the dropped kinds (NAN, INF, binaries, extension values) depend on the format and on nesting", "anchors": ["msgpack.go:Value2MsgPack", "bson_parse.go:Value2Bson", "jsonparse.go:Value2Json"]}
{"id": "C62", "title": "BSON binaries are consumed exactly", "statement": "Decoding a BSON binary of any subtype consumes exactly its length prefix, subtype byte and declared payload, and yields the payload.", "quantifier": "all payloads, subtypes and following bytes", "why_tests_cant": "needs all payload contents; the deviation depends on payload bytes being read as a length", "anchors": ["bson_parse.go:parseValue"]}
{"id": "C63", "title": "Repeated keys: the last value wins", "statement": "If a MessagePack map or a BSON document contains the same key several times, the decoded object contains the key once, at its first position, with exactly the last value.", "quantifier": "all documents, all multiplicities and nestings", "why_tests_cant": "combinatorially many repetition patterns", "anchors": ["msgpack.go:parseMap", "bson_parse.go:parseBsonDocument", "dxvalue.go:SetKeyCached"]}
{"id": "C64", "title": "BSON documents must be framed correctly", "statement": "NewValueFromBson accepts a document only if its length field is at least 5, does not exceed the input, and the last byte of the document is zero.", "quantifier": "all byte strings", "why_tests_cant": "universally quantified over malformed inputs", "anchors": ["bson_parse.go:parseBsonDocument"]}
{"id": "C65", "title": "Encoders never panic", "statement": "Value2MsgPack, Value2Bson, Value2Json and Value2FormatJson return (a text or an error) for every value.", "quantifier": "all values of any depth", "why_tests_cant": "needs all trees, including nil members left by failed loads and binaries of any length", "anchors": ["bson_parse.go:Value2Bson", "jsonparse.go:Value2Json", "jsonparse.go:formatValue"]}
{"id": "C66", "title": "Signs of special JSON numbers are kept", "statement": "When the JSON decoder accepts inf or nan spellings, in any letter case, the decoded value determines the sign that was written.", "quantifier": "all spellings, all following bytes", "why_tests_cant": "the property quantifies over all spellings and contexts", "anchors": ["jsonparse.go:parseJsonNum"]}
{"id": "C67", "title": "Unsigned 64-bit MessagePack integers are not changed silently", "statement": "Every MessagePack integer in 0..2^64-1 is decoded to a value that denotes this number, or is rejected.", "quantifier": "all integers and all encodings of them", "why_tests_cant": "2^64 integers, the defective half is rare in tests", "anchors": ["msgpack.go:parseMsgPackValue"]}
{"id": "C68", "title": "BSON array indices are respected", "statement": "A BSON array whose element names are not 0,1,2,... in order is rejected or its elements are stored at the indices their names denote.", "quantifier": "all index names", "why_tests_cant": "infinitely many names, negative and huge ones behave specially", "anchors": ["bson_parse.go:parseBsonArray", "dxvalue.go:SetIndexCached"]}
{"id": "C69", "title": "CopyFrom makes an equal, independent value", "statement": "After v.CopyFrom(w,c) the value v represents the same tree as w, w is unchanged, and they share no node.", "quantifier": "all pairs of values of any shape, all caches", "why_tests_cant": "all trees", "anchors": ["dxvalue.go:CopyFrom"]}
{"id": "C70", "title": "AddFrom appends the members of the other value", "statement": "After v.AddFrom(w,c) for two objects (arrays) v has its old members, found under their old names, followed by copies of those of w.", "quantifier": "all pairs of objects or arrays", "why_tests_cant": "all trees", "anchors": ["dxvalue.go:AddFrom"]}
{"id": "C71", "title": "Values with the same content are Equal", "statement": "If two values hold the same document (same structure, same names, same strings after unescaping, same numbers), v.Equal(w) is true.", "quantifier": "all pairs of values", "why_tests_cant": "all pairs of trees, and all histories of the memory cells they are stored in", "anchors": ["dxvalue.go:Equal"]}
{"id": "C72", "title": "A clone is Equal to the original", "statement": "For every value v, v.Equal(v.Clone(c)) is true.", "quantifier": "all values, with and without cache", "why_tests_cant": "all trees", "anchors": ["dxvalue.go:Equal,clone,Clone"]}
{"id": "C73", "title": "YAML parsing leaves other values alone and gives a finite structure", "statement": "After NewValueFromYaml or LoadFromYaml returns without error, every value in use before (other than the target) is unchanged, and the result has no nil children and no cycles.", "quantifier": "all byte strings, all memories and pools", "why_tests_cant": "all texts with aliases and merges, all states of the caches and of the pools", "anchors": ["yamlparse.go:parse,parseArray,parseObject,mergeObject,parseStringValue", "dxvalue.go:LoadFromYaml"]}
{"id": "C74", "title": "Nested YAML mappings parse to the nested object", "statement": "A YAML text of block mappings (entries `key: value` with plain scalars and `key:` followed by a deeper mapping, each deeper level indented by any positive number of spaces, comments and empty lines between and behind entries, names different within each mapping) parses to the object with the same nesting and order.", "quantifier": "all such texts, all depths and indentations", "why_tests_cant": "any depth, any number of entries, any contents; the parser keeps a stack of indentations that is popped by two different rules", "anchors": ["yamlparse.go:parse,parseLine,parseObject,splitKv,parseStringValue"]}
{"id": "C75", "title": "Value2File reports success only if the file is complete", "statement": "If Value2File returns nil, the file contains exactly the (optional) mark followed by the complete text of the value, whatever writes fail.", "quantifier": "all values, all settings, all failing writes", "why_tests_cant": "all points of failure", "anchors": ["jsonparse.go:Value2File"]}
{"id": "C76", "title": "SaveBinaryToFile stores the binary", "statement": "SaveBinaryToFile of a binary value returns nil and the file contains the bytes of the value.", "quantifier": "all binary values, all files", "why_tests_cant": "all values and all previous contents", "anchors": ["bin_value.go:SaveBinaryToFile"]}
{"id": "C77", "title": "Concurrent readers of a string", "statement": "Goroutines that only call String on the same parsed string get the text they would get alone, for every interleaving.", "quantifier": "all interleavings of any number of readers, all strings", "why_tests_cant": "all schedules", "anchors": ["dxvalue.go:String"]}
{"id": "C78", "title": "Reading a value without pending escapes writes nothing", "statement": "Once all strings and names of a value have been unescaped (or if none needs it), ValueByName, ValueByPath, String, Items and Equal leave every field of every node as it is, so any number of goroutines may read the value without synchronisation.", "quantifier": "all memories, all values without pending escapes, all read calls", "why_tests_cant": "all values; absence of writes is not observable by a test of the result", "anchors": ["dxvalue.go:ValueByName,ValueByPath,String,Items,Equal"]}
{"id": "C79", "title": "SetValue then ToStdValue gives the data back", "statement": "For nested map[string]interface{} of scalars (distinct names), SetValue of the data, in any iteration order, followed by ToStdValue into a new map gives a map with the same entries.", "quantifier": "all nested maps of scalars, all iteration orders, all heaps", "why_tests_cant": "random map order, infinitely many trees", "anchors": ["reflect_parse.go:SetValue,ToStdValue"]}
{"id": "C80", "title": "ToStdValue fills a struct", "statement": "ToStdValue with a pointer to a struct and an object answers true and fills every field for which the object has a member of that name with it (basic types by conversion, slices element by element, structs by name), and leaves the other fields unchanged.", "quantifier": "all struct types of basic types, slices and structs, all objects, both settings of ignoreCase", "why_tests_cant": "infinitely many types and objects", "anchors": ["reflect_parse.go:ToStdValue,decode2reflectFromdxValue,decodeArray2reflect"]}
{"id": "C81", "title": "LoadFromJson equals NewValueFromJson", "statement": "Loading a JSON text into an existing value leaves that value equal to the value NewValueFromJson returns for the same bytes (and fails when NewValueFromJson fails), whatever the existing value was before.", "quantifier": "all byte strings, all existing values in all reachable memory states", "why_tests_cant": "infinitely many documents times infinitely many prior states of the value", "anchors": ["dxvalue.go:LoadFromJson", "jsonparse.go:parseJson2Value,parseJsonObj2V,parseJsonArray2V,parseJsonNum2V"]}
{"id": "C82", "title": "LoadFromBson equals NewValueFromBson", "statement": "Loading BSON bytes into an existing value leaves that value equal to the value NewValueFromBson returns for the same bytes (and fails when NewValueFromBson fails), whatever the existing value was before.", "quantifier": "all byte strings, all existing values in all reachable memory states", "why_tests_cant": "infinitely many documents times infinitely many prior states of the value", "anchors": ["dxvalue.go:LoadFromBson", "bson_parse.go:parseBsonDocument,parseBsonArray"]}
{"id": "C83", "title": "Decoding BSON into recycled cache memory leaks nothing", "statement": "The value returned by NewValueFromBson with usecache=true is the same, bit for bit, as with usecache=false, whatever was created and freed before; it is made of nodes not in use and changes no value in use.", "quantifier": "all byte strings, all memory states, all pool behaviours", "why_tests_cant": "depends on arbitrary histories of allocation and FreeValue", "anchors": ["bson_parse.go:NewValueFromBson", "cache.go:getValue,getCache,FreeValue"]}
{"id": "C84", "title": "Getters convert every kind as documented", "statement": "Int, Double, Float, Binary, BinLen, BinExtType, String, DateTime, GoTime, Duration, Count, ValueByIndex and the *ByIndex getters depend only on the value the tree of nodes stands for, and give for each kind the documented conversion: numbers are converted, strings parsed, containers and other kinds give the default.", "quantifier": "all well-formed values in all memory states, all indices, all clocks and number parsers", "why_tests_cant": "stale fields of recycled nodes may influence a getter only after particular histories; infinitely many values", "anchors": ["dxvalue.go:Int,Double,Float,DateTime,GoTime,Duration,String,Count,ValueByIndex", "bin_value.go:Binary,BinLen,BinExtType"]}
{"id": "C85", "title": "Bool is true exactly for positive numbers", "statement": "Bool of a number (int, float32, float64, time) is true exactly if the number is greater than zero.", "quantifier": "all numbers", "why_tests_cant": "2^64 bit patterns", "anchors": ["dxvalue.go:Bool"]}
{"id": "C86", "title": "Getters do not depend on whether a string has been unescaped", "statement": "For a parsed JSON string whose escapes have not been replaced yet every getter gives the same result as for the same string after the replacement (which String performs).", "quantifier": "all strings, all getters", "why_tests_cant": "infinitely many strings, and order of calls", "anchors": ["dxvalue.go:Int,Double,Float,Bool,DateTime,GoTime,Duration,String"]}
{"id": "C87", "title": "Items enumerates members in order with their names", "statement": "For 0 <= i < Count, Items(i) returns name and value of the i-th member of an object or the i-th element of an array, outside that range an empty name and nil; it does not change what the value contains.", "quantifier": "all containers, all indices", "why_tests_cant": "infinitely many containers and lazy unescaping states", "anchors": ["dxvalue.go:Items,Count"]}
{"id": "C88", "title": "Visit and KeyNameByIndex give every member in order with its name", "statement": "Visit calls its function once for each member in order with its name and value until the function returns false; KeyNameByIndex(i) is the name of the i-th member.", "quantifier": "all containers, all callbacks, all indices", "why_tests_cant": "arbitrary callbacks, lazy unescaping states", "anchors": ["dxvalue.go:Visit,KeyNameByIndex"]}
{"id": "C89", "title": "String never panics", "statement": "String returns a text for every value that can be built with the exported functions.", "quantifier": "all values", "why_tests_cant": "infinitely many values; panics for particular lengths only", "anchors": ["dxvalue.go:String", "jsonparse.go:Value2FormatJson"]}
{"id": "C90", "title": "MergeWith obeys the merge function", "statement": "For every name common to two objects MergeWith asks the merge function with the path of the member (its names from the root joined by /), the old and the new value; the member stays if it answers Custom, becomes a copy of the new value if it answers Replace, is combined if it answers Normal. Names of only one object are united.", "quantifier": "all pairs of objects, all merge functions", "why_tests_cant": "arbitrary callbacks and objects", "anchors": ["dxvalue.go:mergeObject,MergeWith"]}
{"id": "C91", "title": "MergeWith of different kinds changes nothing", "statement": "MergeWith changes nothing and does not panic if one of the values is nil, if they are of different kinds, or if they are not containers.", "quantifier": "all pairs of values and memory states", "why_tests_cant": "infinitely many values", "anchors": ["dxvalue.go:MergeWith"]}
{"id": "C92", "title": "Without sharebinary nothing is shared", "statement": "A value parsed from MessagePack, JSON or BSON with sharebinary false keeps its content whatever happens to the input afterwards; the outcome is that of the parser on trees.", "quantifier": "all inputs, all later contents of the memory", "why_tests_cant": "a test tries one write to one input", "anchors": ["msgpackparse.go:parseMsgPackValue,NewValueFromMsgPack", "jsonparse.go:parseJsonValue,NewValueFromJson", "bson_parse.go:parseValue,NewValueFromBson"]}
{"id": "C93", "title": "sharebinary changes nothing while the input is left alone", "statement": "With sharebinary true the parsers return the same content as without, as long as the array of the input is not written to; strings, keys and binaries lie within the input (up to its capacity).", "quantifier": "all inputs, all later contents of the other arrays", "why_tests_cant": "infinitely many inputs", "anchors": ["msgpackparse.go:parseMsgPackValue,NewValueFromMsgPack", "jsonparse.go:parseJsonValue,NewValueFromJson", "bson_parse.go:parseValue,NewValueFromBson"]}
{"id": "C94", "title": "Binary values are independent", "statement": "SetBinary and SetExtType on a value change no other value and no slice of the caller; a write of the caller to its slice changes no value.", "quantifier": "all programs of such operations on any number of values and slices, all growth policies of append", "why_tests_cant": "aliasing needs particular histories and capacities", "anchors": ["bin_value.go:SetBinary,SetExtType,Binary"]}
{"id": "C95", "title": "valueClone makes a private copy", "statement": "After SetBinary(b, true) writes to b are not seen in the value.", "quantifier": "all memory states, values, slices and writes", "why_tests_cant": "aliasing depends on the history of the value", "anchors": ["bin_value.go:SetBinary"]}
{"id": "C96", "title": "Binary returns what SetBinary was given", "statement": "After SetBinary(b, clone) on a binary or extension value Binary returns the bytes b had at the call, even if b overlaps the value.", "quantifier": "all memory states, values, slices", "why_tests_cant": "overlapping slices are not tried", "anchors": ["bin_value.go:SetBinary,Binary"]}
{"id": "C97", "title": "SetBinary keeps the kind of value", "statement": "An extension value stays an extension value when SetBinary is called.", "quantifier": "all memory states, values, slices", "why_tests_cant": "all states of the value", "anchors": ["bin_value.go:SetBinary,SetExtType"]}
{"id": "C98", "title": "ToStdValue into a map of strings", "statement": "ToStdValue of an object with a map[string]string stores the text (String) of every member under its name and answers true.", "quantifier": "all objects, all maps", "why_tests_cant": "infinitely many objects", "anchors": ["reflect_parse.go:ToStdValue"]}
{"id": "C99", "title": "The answer of ToStdValue is honest", "statement": "ToStdValue answers true only if the destination holds the data of the value afterwards; if it answers false the destination is unchanged. Pointers to numbers, strings, booleans and times get what the getters return.", "quantifier": "all values, all destinations among maps, slices, pointers to basic types and to slices", "why_tests_cant": "all kinds of values times all destinations", "anchors": ["reflect_parse.go:ToStdValue,decodeArray2reflect"]}
{"id": "C100", "title": "YAML mappings and lists, nested in each other, parse to the value they stand for", "statement": "A YAML text of block mappings and block lists nested in each other (items that are scalars, mappings that begin on the line of the dash, blocks under a dash alone; entries with scalars or deeper blocks; comments and blank lines) parses to the value it stands for.", "quantifier": "all such texts of any depth and length, all memory states, both entry points", "why_tests_cant": "infinitely many nestings", "anchors": ["yamlparse.go:parseArray,parseObject,parseLine,splitKv"]}
{"id": "C101", "title": "YAML: a mapping entry after list items is refused", "statement": "A text in which a line that is not an item follows the items of a list at the same indentation is refused with an error.", "quantifier": "all lists, all lines, whatever follows", "why_tests_cant": "infinitely many texts", "anchors": ["yamlparse.go:parseObject,parseLine"]}
{"id": "C102", "title": "YAML scalars mean what YAML says", "statement": "The value of an entry is what its scalar means in YAML: quoted text without the quotes, null for null, ~ and nothing, collections for flow collections, booleans, numbers, otherwise the text.", "quantifier": "all keys and scalars", "why_tests_cant": "infinitely many scalars", "anchors": ["yamlparse.go:parseStringValue"]}
{"id": "C103", "title": "AddFrom and CopyFrom come back", "statement": "v.AddFrom(w,c) and v.CopyFrom(w,c) return, and without a panic unless there is a nil pointer inside w.", "quantifier": "all pairs of values in all memories, including parts of each other, all caches", "why_tests_cant": "all trees and all ways in which they can overlap; non-termination cannot be observed", "anchors": ["dxvalue.go:AddFrom", "dxvalue.go:CopyFrom"]}
{"id": "C104", "title": "Decoded documents have no nil parts", "statement": "A value returned by NewValueFromJson, NewValueFromMsgPack or NewValueFromBson contains no nil pointer as a member or an element.", "quantifier": "all byte strings", "why_tests_cant": "infinitely many inputs, most of them malformed", "anchors": ["jsonparse.go:NewValueFromJson", "msgpackparse.go:NewValueFromMsgPack", "bson_parse.go:NewValueFromBson"]}
{"id": "C105", "title": "A value can be used after a failed load", "statement": "After LoadFromJson, LoadFromMsgPack or LoadFromBson has returned an error the value is still a proper tree without nil parts, so that it can be cloned, encoded and loaded again.", "quantifier": "all values in all memories, all byte strings", "why_tests_cant": "every place at which a document can end or be wrong, in every state of the memory", "anchors": ["dxvalue.go:LoadFromJson", "dxvalue.go:LoadFromMsgPack", "dxvalue.go:LoadFromBson"]}
{"id": "C106", "title": "YAML aliases stand for copies", "statement": "In a YAML mapping every alias *n stands for a copy of the value anchored &n before it, and <<: *n brings the members of the anchored mapping, entries of the mapping itself taking precedence; places that were aliased share no memory afterwards.", "quantifier": "all mappings of scalars and nested mappings with anchors, aliases and merges, all texts with their lines", "why_tests_cant": "anchored values of any shape, aliased and merged at any depth; independence of copies concerns all memory", "anchors": ["yamlparse.go:parseObject", "yamlparse.go:parseStringValue", "yamlparse.go:mergeObject", "dxvalue.go:CopyFrom", "dxvalue.go:AddFrom", "dxvalue.go:clone"]}
{"id": "C107", "title": "Converting a document between formats keeps it", "statement": "A document decoded from one format, written in another and decoded again, any number of times in any order, keeps its structure, names, texts, numbers and constants.", "quantifier": "all documents, all finite chains of conversions through MessagePack, BSON and JSON (plain and formatted, all escape styles)", "why_tests_cant": "infinitely many documents and chains; each format represents values differently and deviations show only for some combinations", "anchors": ["msgpackparse.go:NewValueFromMsgPack", "msgpack_value.go:Value2MsgPack", "bson_parse.go:NewValueFromBson", "bson_parse.go:Value2Bson", "jsonparse.go:NewValueFromJson", "jsonparse.go:Value2Json", "jsonparse.go:Value2FormatJson"]}
{"id": "C108", "title": "Unmarshal gives back what Marshal was given", "statement": "Unmarshal(Marshal(v), w) succeeds for a DxValue or *DxValue w and makes w equal to v.", "quantifier": "all values v, all values w in all memories", "why_tests_cant": "infinitely many values; what w was before and how it shares memory matters", "anchors": ["reflect_parse.go:Marshal", "reflect_parse.go:Unmarshal", "dxvalue.go:LoadFromJson"]}
{"id": "C109", "title": "A file means its bytes", "statement": "Loading MessagePack, YAML or a binary from a file gives what its bytes mean, all of them and nothing else (for YAML without a byte order mark); a file that cannot be read completely is an error and changes nothing.", "quantifier": "all files, all ways the operating system splits the reads or fails", "why_tests_cant": "the schedule of reads and their failures is not under the control of a test", "anchors": ["msgpackparse.go:NewValueFromMsgPackFile", "yamlparse.go:NewValueFromYamlFile", "bin_value.go:SetBinaryFromFile", "iofiles.go:ReadFile"]}
{"id": "C110", "title": "MergeWith goes into containers of the same name", "statement": "v.MergeWith(w,nil) for objects takes up the members of w in order. Where a name is that of an object in both, the two are merged in the same way and the merge ends there; where it is that of a container of v and the member of w is no object, the merge ends without a change. No element of a container of v is lost.", "quantifier": "all pairs of objects, nested to any depth", "why_tests_cant": "all pairs of trees, the position of the first common container in w", "anchors": ["dxvalue.go:mergeObject,MergeWith"]}
{"id": "C111", "title": "Registered converters are used wherever their type is filled", "statement": "A converter registered for a Go type with RegisterTypeMapFunc (or its DecodeFromDxValue method) is called whenever ToStdValue fills a value of this type - the destination itself, a field at any depth, an element of a slice - and determines what is stored there; values of other types are filled as without converters, and converters of types that do not occur have no influence.", "quantifier": "all tables of converters, all struct types of basic types, slices and structs, all objects, both settings of ignoreCase", "why_tests_cant": "infinitely many converters, types and objects", "anchors": ["struct_type.go:RegisterTypeMapFunc", "reflect_parse.go:ToStdValue,decode2reflectFromdxValue,decodeArray2reflect"]}
{"id": "C112", "title": "A new value starts at zero", "statement": "A value made by NewValue, NewCacheValue, Reset, SetKey, SetIndex, InsertValue or Append with a type, where there was no value of this type, is the zero value of the type: empty object, array, string or binary, the number 0.", "quantifier": "all memories, whatever was created and freed before, all types", "why_tests_cant": "what a recycled node contains depends on everything that ran before", "anchors": ["dxvalue.go:NewValue,NewCacheValue,Reset,SetKeyCached,SetIndexCached,InsertValue", "cache.go:getValue"]}
{"id": "C113", "title": "Programs on values are programs on plain trees", "statement": "A program that creates values (cached or not), works on any of their nodes, moves values into others, clears, frees, clones, copies and adds them leaves in every variable exactly the tree that the same statements give on plain trees without any memory, and panics exactly when they panic; the memory decides nothing but the number left in a node that is made a bare number, and whether a Null, True, False, NaN or Inf is a shared constant.", "quantifier": "all programs, all growth strategies of the arenas, all choices of the pool", "why_tests_cant": "all sequences of operations with all reuses of memory", "anchors": ["dxvalue.go", "cache.go"]}
{"id": "C114", "title": "Caching is transparent", "statement": "Whether values come from a cache or not, which recycled cache the pool gives, how the arenas grow and whether a value is freed once or twice makes no difference to the values a program computes.", "quantifier": "all programs, all growth strategies of the arenas, all choices of the pool", "why_tests_cant": "the pool (sync.Pool) and the growth of slices are not under the control of a test", "anchors": ["dxvalue.go:NewCacheValue,NewObject,NewArray,Clone", "cache.go:getValue,getCache,Reset,FreeValue"]}
{"id": "C115", "title": "Programs that parse are programs on plain trees", "statement": "In a program that also parses new values from MessagePack, JSON, BSON and YAML, loads documents into existing values, stores Go data, uses ForcePath and merges values, every variable holds the tree that the statements mean without any memory: what the document decodes to (nil if it is refused), what the path forces, what mirrors the Go data, the merged value; a statement changes only the variable it names. A value into which a document is loaded becomes a function of the two, whether they fit or not and also when MessagePack, BSON or YAML is refused half way; after refused JSON the variable is given up. Nothing is said of YAML texts with aliases.", "quantifier": "all programs, documents, Go values, growth strategies of the arenas and choices of the pool", "why_tests_cant": "all sequences of operations with all documents and all reuses of memory", "anchors": ["dxvalue.go:LoadFromMsgPack,LoadFromJson,LoadFromYaml,LoadFromBson,ForcePath,MergeWith,NewValueFrom", "msgpackparse.go:NewValueFromMsgPack", "jsonparse.go:NewValueFromJson", "bson_parse.go:NewValueFromBson", "yamlparse.go:NewValueFromYaml", "reflect_parse.go:SetValue,SetKeyvalue,SetIndexvalue"]}
{"id": "C116", "title": "Caching is transparent for programs that parse", "statement": "Whether parsed values are cached or not, which recycled cache the pool gives, how the arenas grow and whether values are freed makes no difference to the values a program computes that parses and loads documents.", "quantifier": "all programs, documents, growth strategies of the arenas and choices of the pool", "why_tests_cant": "the pool (sync.Pool) and the growth of slices are not under the control of a test", "anchors": ["msgpackparse.go:NewValueFromMsgPack", "jsonparse.go:NewValueFromJson", "bson_parse.go:NewValueFromBson", "dxvalue.go:LoadFromMsgPack,LoadFromJson,LoadFromBson,ForcePath", "cache.go"]}
{"id": "C117", "title": "A refused YAML text leaves what the lines before made", "statement": "When LoadFromYaml refuses a text at a line, the value holds exactly what loading the lines before it gives, and nothing of that line or of the lines after it.", "quantifier": "all texts, all states of the value, the parser and the pool", "why_tests_cant": "infinitely many texts, and every line can be the refused one; a refused line may already have opened, closed or replaced values", "anchors": ["yamlparse.go:parse,parseLine,parseArray,parseObject,mergeObject", "dxvalue.go:LoadFromYaml"]}
{"id": "C118", "title": "What a program prints is what the trees say", "statement": "Every answer a program prints (types, counts, numbers, flags, strings, binaries, times, durations, values by path or index with defaults, names, JSON, MessagePack and BSON texts, results of Equal) is the answer computed from the trees the statements before mean, whatever the memory, the caches and the pool do; a question fails exactly when the tree says so, and changes nothing but the escapes of the value asked.", "quantifier": "all programs of constructors, mutators, parsers, conversions and questions, all pools, growth strategies and states", "why_tests_cant": "infinitely many programs and interleavings of questions and changes; getters write into the values they read", "anchors": ["dxvalue.go:Type,Count,Int,Double,Float,Bool,String,Binary,DateTime,GoTime,Duration,ToJson,ToMsgPack,ToBson,XByPath,XByIndex,KeyNameByIndex,Items,Equal", "bson_parse.go:writeObjBsonValue,writeSimpleBsonValue", "jsonparse.go:Value2Json,Value2FormatJson"]}
{"id": "C119", "title": "What a program prints does not show the caches", "statement": "Two programs that differ only in where their values come from (new, cached, recycled) print the same answers.", "quantifier": "all programs with output, growth strategies of the arenas and choices of the pool", "why_tests_cant": "the pool (sync.Pool) is not under the control of a test, and what recycled memory contains depends on the history of the process", "anchors": ["dxvalue.go:Bool,Equal,SetFloat,ToBson,NewCacheValue,FreeValue", "bson_parse.go:writeSimpleBsonValue", "cache.go"]}
{"id": "C120", "title": "Equal answers the same when asked again", "statement": "Asking Equal of the same two values twice in a row gives the same answer; the second comparison changes nothing.", "quantifier": "all pairs of values without common nodes, all heaps", "why_tests_cant": "all pairs of trees with escapes pending at any place", "anchors": ["dxvalue.go:Equal,String,UnEscapestrs"]}
{"id": "C121", "title": "A text is accepted or refused independently of what it is loaded into", "statement": "LoadFromMsgPack, LoadFromJson and LoadFromBson end as the New functions do on the same text (a value, the same error, or a panic), whatever the value loaded into, the caches and the rest of the memory.", "quantifier": "all texts, all heaps, all values loaded into, all choices of the pool", "why_tests_cant": "the parsers recycle the nodes they find, so the outcome could depend on everything that was done before; tests start from fresh values", "anchors": ["dxvalue.go:LoadFromMsgPack,LoadFromJson,LoadFromBson", "msgpackparse.go:NewValueFromMsgPack,parseMsgPack", "jsonparse.go:NewValueFromJson,parseJson", "bson_parse.go:NewValueFromBson,parseBsonDocument"]}
{"id": "C122", "title": "Every program comes to an end", "statement": "Whatever statements of the package are performed one after the other, each of them returns or panics: no parser, getter, writer, copy or comparison runs for ever, because nothing in memory becomes circular.", "quantifier": "all programs over any number of variables, all texts, growth strategies and choices of the pool", "why_tests_cant": "non-termination needs a history of calls that makes a value reachable from itself; tests try few histories", "anchors": ["dxvalue.go:SetKeyValue,SetIndexValue,AddFrom,CopyFrom,MergeWith,ForcePath,Equal,String", "yamlparse.go:parse,parseLine", "msgpackparse.go", "jsonparse.go", "bson_parse.go"]}
{"id": "C123", "title": "A question asked again is answered the same", "statement": "Any getter, lookup or writer that returned an answer returns the same answer when it is called again at once, and the second call changes no value, although the first may have rewritten strings and keys in place.", "quantifier": "all reachable states, all values and positions, all getters/lookups/writers, all programs before", "why_tests_cant": "the getters unescape lazily and in place, so the second call runs on different memory than the first; tests call each getter once", "anchors": ["dxvalue.go:String,Duration,AsString,IntByName,StringByName,ValueByPath,Items,KeyNameByIndex", "dxvalue.go:indexByName", "bson_value.go:Value2Bson", "json_value.go:Value2Json,Value2FormatJson"]}
{"id": "C124", "title": "Questions do not influence each other", "statement": "What a getter, lookup or writer answers does not depend on which other getters, lookups, writers or comparisons were called before it: reading is free of observable effects.", "quantifier": "all reachable states, all sequences of questions, all questions after them", "why_tests_cant": "order dependence needs pairs and sequences of calls on values with pending escapes; tests call one getter on a fresh value", "anchors": ["dxvalue.go:String,Duration,Int,Type,indexByName,Equal", "bson_value.go:Value2Bson", "json_value.go:Value2Json", "msgpack_value.go:Value2MsgPack"]}
{"id": "C125", "title": "What a YAML text means does not depend on the memory", "statement": "For every YAML text without aliases, NewValueFromYaml and LoadFromYaml give the same error, panic or tree in any two memories, with any parsers from the pool, any caches and any values loaded into; after an error LoadFromYaml leaves the same tree behind.", "quantifier": "all texts without '*', all pairs of reachable memories, all pooled parsers, all caches", "why_tests_cant": "the parser and its values are recycled through pools; a test sees one history", "anchors": ["yamlparse.go:parse,parseArray,parseObject,reset", "dxvalue.go:LoadFromYaml,NewValueFromYaml"]}
{"id": "C126", "title": "LoadFromYaml and NewValueFromYaml agree", "statement": "A YAML text means the same tree to NewValueFromYaml and to LoadFromYaml, and one refuses it if and only if the other does.", "quantifier": "all texts, all memories, all values loaded into", "why_tests_cant": "the two functions start the same parser in different states; the texts that tell them apart are unusual", "anchors": ["dxvalue.go:LoadFromYaml,NewValueFromYaml", "yamlparse.go:parse,parseArray,parseObject"]}
{"id": "C127", "title": "Storing Go data depends on the data and the value only", "statement": "Whether SetValue, SetKeyvalue and SetIndexvalue panic and what they make of a value (no shared constant) depends on the Go data and the value only: not on the memory, the nodes in the caches or the cache that is passed.", "quantifier": "all Go data (also data that is not stored or makes them panic), all values, all pairs of memories and caches", "why_tests_cant": "what recycled memory contains depends on the history of the process", "anchors": ["reflect_parse.go:SetValue,SetKeyvalue,SetIndexvalue", "cache.go"]}
{"id": "C128", "title": "NewValueFrom is the same with and without a cache", "statement": "NewValueFrom(data, true) and NewValueFrom(data, false) give values that hold the same, in any state of the memory, or both panic.", "quantifier": "all Go data, all states of the memory and choices of the pool", "why_tests_cant": "all types of data would have to be tried in all states of the pool", "anchors": ["dxvalue.go:NewValueFrom", "reflect_parse.go:SetValue"]}
{"id": "C129", "title": "What loading leaves depends on the value and the document only", "statement": "What LoadFromMsgPack, LoadFromJson and LoadFromBson report (success, which error, panic) and what the value holds afterwards, also after an error, depends on the bytes and on the value without the contents that Clear empties: not on the memory, the caches or the members, elements and bytes the value had before.", "quantifier": "all byte sequences (also ones that are refused or do not fit the value), all values that are no shared constants, all pairs of memories", "why_tests_cant": "what recycled memory contains depends on the history of the process, and what a refused document leaves behind is not looked at", "anchors": ["dxvalue.go:LoadFromMsgPack,LoadFromJson,LoadFromBson", "msgpackparse.go:parseMsgPack2Value", "jsonparse.go:parseJson2Value", "bson_parse.go:parseBsonDocument"]}
{"id": "C130", "title": "Exactly when loading gives what the document decodes to", "statement": "For every document that NewValueFromMsgPack, NewValueFromJson or NewValueFromBson accepts, LoadFromX into any value succeeds, and the value is afterwards the tree that NewValueFromX gives if and only if value and document fit together: strings into strings, binaries into binaries, empty containers into containers of their kind, maps into anything but arrays unless their first name is no index, and so on. In all other cases the result is a different tree.", "quantifier": "all accepted byte sequences, all values that are no shared constants, all memories", "why_tests_cant": "both directions of an equivalence over all documents and all values: tests can find a pair that differs, not that there are no others", "anchors": ["dxvalue.go:LoadFromMsgPack,LoadFromJson,LoadFromBson", "msgpackparse.go:parseMsgPack2Value", "jsonparse.go:parseJson2Value,parseJsonNum2V", "bson_parse.go:parseBsonDocument"]}
{"id": "C131", "title": "A value that loads what it wrote stays what it was", "statement": "v.LoadFromMsgPack(v.ToMsgPack()) succeeds for every value MessagePack can carry and leaves v as it was: a leaf is the very same value, including what MessagePack does not carry (a raw string stays raw, integers and binaries keep their extra byte; a time goes through seconds and nanoseconds), and an array or object has the same parts in the same order. The same holds for JSON of arrays and objects that JSON carries and for BSON of objects that BSON carries. In a program the two statements succeed in every state and no other variable changes.", "quantifier": "all values, all memories, all program states", "why_tests_cant": "loading in place works on a value that is emptied but keeps its kind, owner and memory; that nothing is lost or mixed in holds for all values and all memories only by proof", "anchors": ["dxvalue.go:LoadFromMsgPack,LoadFromJson,LoadFromBson,Clear", "msgpackparse.go:parseMsgPack2Value", "msgpackparse.go:Value2MsgPack", "jsonparse.go:Value2Json", "bson_parse.go:Value2Bson"]}
{"id": "C132", "title": "Writing, reading and writing again gives the same bytes", "statement": "Take a value of the kind C03 (MessagePack), C13 (BSON) or C19 (JSON) speaks of, whose times survive the way through the format's time fields, and, for JSON, whose float texts are written again as they are read. Write it, read the bytes as a new value, write that value: the bytes are the same, although the value read may differ from the first one (raw strings, extra bytes of integers, escaped names, nil elements). For JSON this holds for the compact and for the indented form, whichever of the two was read. With two equal names in an object it fails for MessagePack.", "quantifier": "all values of the kind described, both escaping styles, both settings for times, all behaviours of the external functions that satisfy the stated laws", "why_tests_cant": "A test compares a few values; that no difference between the value and its re-reading shows in the bytes is a statement about all nested values at once.", "anchors": ["msgpackparse.go:511-583 Value2MsgPack", "bson_parse.go:273-421 Value2Bson", "jsonparse.go:646-729 Value2Json", "jsonparse.go:731-839 Value2FormatJson"]}
{"id": "C133", "title": "What was read is written and read again as it was", "statement": "Whatever bytes a value was read from: written again and read again it is the same value, down to kinds, extra bytes, order and the marks of names. This holds for MessagePack if the value has no nil part and no extension of a fixext length or of type 0xff and its times survive seconds and nanoseconds; for JSON, compact and indented, if it has no NAN or INF, is no lone number and the texts of its floats and times are read as what they are written for; for BSON if it has no empty object or array, no binary other than ObjectID and decimal, no integer from -2^31 to -1, and its times survive milliseconds. Each exception is real: the value comes back different or not at all.", "quantifier": "all byte strings that can be read, however irregular, all behaviours of the external functions that satisfy the stated laws", "why_tests_cant": "The readers accept far more than the writers produce (repeated names, other length forms, gaps); that nothing but the listed kinds of values gets lost is a statement about all inputs.", "anchors": ["msgpackparse.go:487-499 NewValueFromMsgPack", "msgpackparse.go:511-583 Value2MsgPack", "jsonparse.go:410-432 NewValueFromJson", "jsonparse.go:646-839 Value2Json, Value2FormatJson", "bson_parse.go:257-282 NewValueFromBson, Value2Bson"]}
{"id": "C134", "title": "The JSON decoder accepts exactly this language", "statement": "There is a grammar such that NewValueFromJson gives a value for an input exactly when the input is a word of the grammar for that value, and an error for every other input. The grammar is the one of RFC 8259 with any bytes in strings, names that end at the first quote and numbers of any number bytes, and besides: inf and nan in small and capital letters with or without a sign, and any three bytes that begin with n (unless null stands there), all three read as INF or NAN; and an input of number bytes only, read as nil. So a value without NAN and INF that is not nil was read from a text of the RFC grammar, and is what that text describes.", "quantifier": "all byte strings, all values, all behaviours of the external functions", "why_tests_cant": "That no other text is accepted is a statement about all byte strings.", "anchors": ["jsonparse.go:410-432 NewValueFromJson", "jsonparse.go:66-148, 222-344, 434-488, 585-644 parseJsonValue and the functions it calls"]}
{"id": "C135", "title": "The MessagePack decoder accepts exactly this language", "statement": "There is an unambiguous grammar such that NewValueFromMsgPack gives a value for an input exactly when the input begins with a word of the grammar for that value. The grammar is the MessagePack specification (maps with strings as names, integers within int64) with six additions: unsigned integers from 2^63 on, read as negative; the byte 0xc1, which takes in the rest of the input and is read as nil; 64-bit timestamps with 10^9 nanoseconds or more; ext 8 items of the timestamp type of any length, read as 96-bit timestamps from the bytes behind the type, be they part of the item or not; other extension items of the timestamp type; and byte arrays as names from the second pair of a map on. The inputs on which the decoder panics are described by a second grammar. Every other input is answered with an error.", "quantifier": "all byte strings, all values, all behaviours of the external functions", "why_tests_cant": "That nothing else is accepted, and that there is no other panic, are statements about all byte strings.", "anchors": ["msgpackparse.go:158-328 parseMsgPackValue", "msgpackparse.go:67-135 parseMsgPackObject, parseMsgPackArray", "msgpackparse.go:487-499 NewValueFromMsgPack", "msgpack_value.go:8-145"]}
{"id": "C136", "title": "The BSON decoder accepts exactly this language", "statement": "There is an unambiguous grammar such that NewValueFromBson gives a value for an input exactly when the input is a word of the grammar for that value. Every other input is answered with an error or a panic. The grammar differs from the BSON specification: the length of a document bounds where elements begin, not where they end, so an element may reach beyond its document, whose final zero may be missing; lengths and contents are read from the bytes behind the input up to the capacity of its slice, too; types without a case count no bytes and become null, so that their content is taken for elements; binaries of the old subtype count fewer bytes than they have; the names of array elements say where the values go; a repeated name is read into the object or array that is already there.", "quantifier": "all byte strings, all bytes behind them, all values, all behaviours of the external functions", "why_tests_cant": "That nothing else is accepted is a statement about all byte strings and all capacities of the slice.", "anchors": ["bson_parse.go:24-88 parseBsonDocument", "bson_parse.go:91-156 parseBsonArray", "bson_parse.go:158-255 parseValue", "bson_parse.go:257-270 NewValueFromBson"]}
{"id": "C137", "title": "What each well-formed BSON document is read as", "statement": "NewValueFromBson accepts every well-formed BSON document without empty documents or arrays inside and without binaries of subtype 2, and gives the value of a plain recursive function on documents: as the BSON specification says, except that 32-bit integers are read without their sign, binaries get their subtype as an additional first byte, and a document or array under a repeated name is read into the earlier one. Where C55 applies, that is what the specification says.", "quantifier": "all well-formed documents of any depth, all bytes behind them, all behaviours of the external functions (given that StrToIntDef reads decimal numbers)", "why_tests_cant": "The differences to the specification are known to be the only ones only if all documents are covered, and nesting is unbounded.", "anchors": ["bson_parse.go:24-88 parseBsonDocument", "bson_parse.go:91-156 parseBsonArray", "bson_parse.go:158-255 parseValue"]}
{"id": "C138", "title": "What each MessagePack item is read as; which values come back", "statement": "Every item of the MessagePack specification whose integers fit in int64, in every form it may be written in and whatever follows it, is read as the one value a plain function of the item gives; all forms of an item are read alike; and of the values MessagePack can carry exactly those of a described set come back from Value2MsgPack and NewValueFromMsgPack as they were.", "quantifier": "all items, all their serialisations, all following bytes; all values that MessagePack can carry", "why_tests_cant": "unbounded nesting, all headers and lengths, all repeated names; the converse needs every other value to come back changed", "anchors": ["msgpackparse.go:parseMsgPackValue", "msgpackparse.go:NewValueFromMsgPack", "msgpackparse.go:Value2MsgPack"]}
