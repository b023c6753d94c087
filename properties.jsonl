{"id": "C01", "title": "Which documents a struct decoder accepts at its top level", "statement": "For a generated struct type, UnmarshalJSON rejects a document before touching any field exactly when the document is not a JSON object, or some key that belongs to a field occurs twice, or (types tagged strict only) some key belongs to no field. A type that is not strict ignores unknown keys, even repeated ones.", "quantifier": "every struct declaration (any number of fields, strict or not), every JSON value, every prior content of the receiver", "why_tests_cant": "the set of key sequences is infinite and the check is a stateful scan that stops at the first problem; a test only samples sequences", "anchors": ["generator/codegen/struct.go:ValidatorFunc", "generator/codegen/struct.go:FillFromFunc"]}
{"id": "C02", "title": "A rejected document shape leaves the receiver untouched", "statement": "When UnmarshalJSON fails because the bytes are not JSON or because of the object-level check (not an object, duplicate key, unexpected key), the receiver is exactly what it was before the call.", "quantifier": "every struct declaration, every byte string and JSON value, every prior receiver content", "why_tests_cant": "needs all malformed inputs and all prior receivers", "anchors": ["generator/codegen/codegen.go:NewUnmarshalFunc", "generator/codegen/struct.go:FillFromFunc"]}
{"id": "C03", "title": "Member order does not matter", "statement": "Two documents whose top-level members are permutations of each other (same keys and values) decode to the same receiver and to the same success or failure whenever no key is repeated.", "quantifier": "every struct declaration, every object, every permutation of its members, every prior receiver", "why_tests_cant": "permutations grow factorially; the claim is about all of them", "anchors": ["generator/codegen/struct.go:FillFromFunc", "generator/codegen/struct.go:ValidatorFunc", "generator/codegen/field/fields.go:FillStatements"]}
{"id": "C04", "title": "Unknown members have no effect on a lenient type", "statement": "For a struct type not tagged strict, adding or removing members whose key belongs to no field changes neither the decoded receiver nor the error.", "quantifier": "every lenient struct declaration, every object, every set of unknown members at any positions", "why_tests_cant": "unbounded set of extra members and positions", "anchors": ["generator/codegen/struct.go:ValidatorFunc", "generator/codegen/struct.go:FillFromFunc"]}
{"id": "C05", "title": "Each field is decoded from its own member only", "statement": "After a successful decode every field holds what its own member (or its absence) says, computed from that member and the field's previous value alone; no other member and no other field influences it.", "quantifier": "every struct declaration, every document, every prior receiver, every field", "why_tests_cant": "non-interference is a statement about pairs of runs over all inputs", "anchors": ["generator/codegen/struct.go:FillFromFunc", "generator/codegen/field/fields.go:FillStatements"]}
{"id": "C06", "title": "Defaults, required and absent members", "statement": "When a member is absent: a field with a default tag is set to that default; a field marked required and without default makes the decode fail with an error naming the field; any other field keeps its previous value. A required member that is present is never reported missing.", "quantifier": "every struct declaration, every document without the member, every prior receiver", "why_tests_cant": "needs every combination of tags, presence and prior value", "anchors": ["generator/codegen/field/fill.go:ifDefault", "generator/codegen/field/fields.go:FillStatements", "generator/codegen/helpers/asthelpers.go:BasicLiteralFromType"]}
{"id": "C07", "title": "What an explicit null does", "statement": "A null member is an error for scalar, string, time, UUID and named-collection fields; for pointer fields and fields written with a literal slice or map type it takes the same path as an absent member except that a pointer field's default is not applied. In particular it never clears a previous value.", "quantifier": "every field kind, every prior value", "why_tests_cant": "the claim compares null with absence for all field kinds and all prior values", "anchors": ["generator/codegen/field/fields.go:prepareRef", "generator/codegen/field/fields.go:FillStatements", "generator/codegen/field/fill.go:ifDefault", "generator/static/tpl/valyjson_utils.go.tpl:valueIsNotNull"]}
{"id": "C08", "title": "Decoded integers equal the number in the document", "statement": "If decoding succeeds, an integer field holds exactly the integer written in the document, for every integer width; a number that does not fit is an error, never a different number.", "quantifier": "every integer field type, every integer literal", "why_tests_cant": "the set of literals is infinite and the failing ones sit outside the range a test author thinks of", "anchors": ["generator/codegen/field/fill.go:checkErr", "generator/codegen/field/fill.go:typeExtraction", "generator/codegen/field/fill.go:getMaxByType"]}
{"id": "C09", "title": "Integers inside slices, maps, fixed arrays and named types are range checked too", "statement": "The fidelity of C08 also holds for integer elements of slices and arrays, for map values and for named integer types.", "quantifier": "every integer element type, every literal, every position in every collection", "why_tests_cant": "as C08, and over every position of unbounded collections", "anchors": ["generator/codegen/field/fill.go:appendElem", "generator/codegen/field/fill.go:mapExtraction", "generator/codegen/field/fill.go:fillElem", "generator/codegen/transit.go:FillFromFunc", "generator/codegen/array.go:FillFromFunc", "generator/codegen/map.go:FillFromFunc"]}
{"id": "C10", "title": "A decoded slice mirrors the JSON array", "statement": "After a successful decode of a slice field (or a named slice type) of scalars, strings or pointers, the slice has as many elements as the JSON array and the i-th element is the decoded i-th member, whatever length, capacity or contents the field had before.", "quantifier": "every element type, every JSON array, every prior slice (length, capacity, contents)", "why_tests_cant": "arrays are unbounded and the code reuses old storage, so the prior state matters", "anchors": ["generator/codegen/field/extractors.go:sliceExtraction", "generator/codegen/field/fill.go:appendElem", "generator/codegen/array.go:FillFromFunc"]}
{"id": "C11", "title": "Reusing slice storage never writes outside it", "statement": "Decoding into a slice that still owns storage never indexes or re-slices past the capacity: the decode of a slice field does not panic, for every array length and every prior slice.", "quantifier": "every array length, every prior slice length and capacity", "why_tests_cant": "off-by-one errors in capacity reuse show only for particular length/capacity pairs", "anchors": ["generator/codegen/field/extractors.go:sliceExtraction", "generator/codegen/field/fill.go:appendElem"]}
{"id": "C12", "title": "No stale data survives from the previous decode", "statement": "Decoding a document into a receiver used before gives, for the elements of a slice of structs, the same values as decoding into a fresh receiver.", "quantifier": "every sequence of documents decoded into the same receiver", "why_tests_cant": "needs every history of the receiver", "anchors": ["generator/codegen/field/fill.go:appendElem", "generator/codegen/field/extractors.go:nestedExtraction", "generator/codegen/field/extractors.go:sliceExtraction"]}
{"id": "C13", "title": "Reset makes a receiver as good as new", "statement": "After Reset, decoding a document gives the same result (values and error) as decoding it into a new zero receiver, whatever was decoded before, including decodes that failed.", "quantifier": "every history of decodes and resets of one receiver, then every document", "why_tests_cant": "quantifies over histories", "anchors": ["generator/codegen/codegen.go:resetStmt", "generator/codegen/struct.go:ResetFunc", "generator/codegen/field/fill.go:appendElem", "generator/codegen/field/extractors.go:sliceExtraction"]}
{"id": "C14", "title": "Fixed-length arrays accept exactly their length", "statement": "A field or named type of fixed length n accepts a JSON array if and only if it has exactly n elements (given that the elements decode); otherwise decoding fails and the field keeps its previous value.", "quantifier": "every n, every JSON array, every prior value", "why_tests_cant": "every length", "anchors": ["generator/codegen/field/extractors.go:arrayExtraction", "generator/codegen/array.go:FillFromFunc"]}
{"id": "C15", "title": "A decoded map has the document's members", "statement": "After decoding an object into a map field, every key of the object maps to the decoded value of its last occurrence and every other key keeps its previous entry; for a named map type the result holds nothing but the document's members.", "quantifier": "every object (any number of members, repeated keys included), every prior map", "why_tests_cant": "unbounded key sequences with repetitions, and prior contents", "anchors": ["generator/codegen/field/fill.go:mapExtraction", "generator/codegen/map.go:FillFromFunc"]}
{"id": "C16", "title": "Decode errors are never swallowed", "statement": "If some element of a JSON array cannot be decoded to the element type, UnmarshalJSON returns a non-nil error.", "quantifier": "every element type the generator supports in a slice field or fixed array field, every array, every position of the bad element", "why_tests_cant": "needs every position and every element type; the generated loop's scoping decides", "anchors": ["generator/codegen/field/fill.go:breakErr", "generator/codegen/field/fill.go:appendElem", "generator/codegen/field/extractors.go:timeExtraction", "generator/codegen/field/extractors.go:uuidExtraction"]}
{"id": "C17", "title": "Error paths name the failing place", "statement": "The path in a decode error is the dotted sequence of member names, keys and indexes leading from the root to the value that could not be decoded.", "quantifier": "every nesting of structs, slices and maps, every document with a bad leaf", "why_tests_cant": "nesting depth is unbounded", "anchors": ["generator/static/tpl/valyjson_utils.go.tpl:newParsingError", "generator/static/tpl/valyjson_utils.go.tpl:WrapPath", "generator/codegen/field/fill.go:checkErr", "generator/codegen/field/fill.go:breakErr", "generator/codegen/field/fill.go:mapExtraction", "generator/codegen/map.go:FillFromFunc"]}
{"id": "C18", "title": "A failing decode changes a prefix of the fields only", "statement": "When a field fails, all fields declared before it hold the values of the document, all fields declared after it are untouched, and the error is the first field's in declaration order.", "quantifier": "every struct declaration, every document, every prior receiver", "why_tests_cant": "needs every combination of good and bad members", "anchors": ["generator/codegen/struct.go:FillFromFunc", "generator/codegen/field/fields.go:FillStatements"]}
{"id": "C19", "title": "A named type behaves as the type it is defined from", "statement": "A type declared as another type (type A B, any chain of such declarations) accepts the same documents with the same errors, ends with the same value, and encodes to the same bytes as the type it is defined from.", "quantifier": "every chain of declarations, every document, every value", "why_tests_cant": "chains of any length, all documents", "anchors": ["generator/codegen/transit.go:FillFromFunc", "generator/codegen/transit.go:MarshalToFunc", "generator/codegen/transit.go:ZeroFunc"]}
{"id": "C20", "title": "Decoding never panics", "statement": "UnmarshalJSON returns normally (value or error) on every input.", "quantifier": "every supported type, every JSON value, every prior receiver", "why_tests_cant": "absence of panics is a claim about all inputs", "anchors": ["generator/codegen/field/byteslice.go:ByteSliceFillFrom", "generator/codegen/field/extractors.go:sliceExtraction", "generator/codegen/field/fill.go:appendElem"]}
{"id": "C21", "title": "The output of the encoder is JSON", "statement": "If MarshalJSON returns no error its result is one well-formed JSON text.", "quantifier": "every supported type, every value of it (nil pointers, nil slices, empty maps, any strings and integers)", "why_tests_cant": "well-formedness must hold for every combination of present and omitted members", "anchors": ["generator/codegen/struct.go:MarshalToFunc", "generator/codegen/field/marshalers.go:Render", "generator/codegen/field/marshal.go:typeMarshal", "generator/codegen/field/marshalers.go:refStructMarshal"]}
{"id": "C22", "title": "The encoded object has exactly the right members", "statement": "The JSON object produced for a struct has, in declaration order, one member per field except those that are marked omitempty and hold the zero value, and each member denotes the field's value.", "quantifier": "every struct declaration, every value", "why_tests_cant": "2^n presence combinations, all values", "anchors": ["generator/codegen/struct.go:MarshalToFunc", "generator/codegen/field/fields.go:MarshalStatements", "generator/codegen/field/marshalers.go:Render"]}
{"id": "C23", "title": "omitempty drops zero values and nothing else", "statement": "A field tagged omitempty is left out if and only if its value is the zero value of its type.", "quantifier": "every field kind, every value", "why_tests_cant": "an iff over all values of all kinds", "anchors": ["generator/codegen/field/marshalers.go:timeMarshal", "generator/codegen/field/marshalers.go:uuidMarshal", "generator/codegen/field/marshalers.go:intMarshal", "generator/codegen/field/marshalers.go:mapMarshal", "generator/codegen/field/marshalers.go:arrayMarshal", "generator/codegen/array.go:ZeroFunc"]}
{"id": "C24", "title": "Nil encodes as null", "statement": "A nil pointer receiver, a nil slice, a nil map and a nil pointer encode as the JSON null, wherever they stand and whatever their declared type.", "quantifier": "every type kind, every position (top level, field, element, map value)", "why_tests_cant": "positions nest without bound", "anchors": ["generator/codegen/struct.go:MarshalToFunc", "generator/codegen/map.go:MarshalToFunc", "generator/codegen/array.go:MarshalToFunc", "generator/codegen/transit.go:MarshalToFunc", "generator/codegen/byteslice.go:MarshalToFunc", "generator/codegen/field/marshalers.go:timeMarshal", "generator/codegen/field/fields.go:GetValueExtractor"]}
{"id": "C25", "title": "Encoding appends and depends on nothing already written", "statement": "MarshalTo only appends to the writer: bytes already written are kept and the bytes appended are the same whatever was written before.", "quantifier": "every type, every value, every prior writer content", "why_tests_cant": "every prior writer content", "anchors": ["generator/codegen/struct.go:MarshalToFunc", "generator/codegen/array.go:MarshalToFunc", "generator/codegen/map.go:MarshalToFunc"]}
{"id": "C26", "title": "Map iteration order cannot change the meaning of the output", "statement": "Whatever order Go iterates a map in, the encoding denotes the same set of members, each once.", "quantifier": "every map, every iteration order", "why_tests_cant": "Go randomises the order; tests see a few orders", "anchors": ["generator/codegen/field/marshalers.go:mapMarshal", "generator/codegen/map.go:MarshalToFunc"]}
{"id": "C27", "title": "String escaping is lossless and safe", "statement": "The JSON string written for a Go string decodes to the same string, and contains no raw quote, backslash or control character that would end or corrupt it.", "quantifier": "every string", "why_tests_cant": "every string", "anchors": ["generator/codegen/field/marshalers.go:stringMarshal", "generator/codegen/field/fields.go:GetValueExtractor"]}
{"id": "C28", "title": "Integers survive encode and decode", "statement": "Encoding any integer field value and decoding the result into the same field type gives the same value.", "quantifier": "every integer type, every value in its range", "why_tests_cant": "2^64 values", "anchors": ["generator/codegen/field/marshalers.go:intMarshal", "generator/codegen/field/marshalers.go:uintMarshal", "generator/codegen/field/fill.go:typeExtraction", "generator/codegen/field/fill.go:checkErr"]}
{"id": "C29", "title": "Binary fields survive encode and decode", "statement": "A byte slice or fixed byte array encodes to a base64 string that decodes to the same bytes; text that is not base64, or has the wrong number of bytes for a fixed array, is an error.", "quantifier": "every byte sequence, every text", "why_tests_cant": "every byte sequence of every length (padding cases)", "anchors": ["generator/codegen/field/byteslice.go:ByteSliceFillFrom", "generator/codegen/field/byteslice.go:ByteSliceMarshal", "generator/codegen/byteslice.go:FillFromFunc"]}
{"id": "C30", "title": "UUID fields survive encode and decode", "statement": "Every UUID encodes to its canonical text and decodes back to itself.", "quantifier": "every 128-bit value", "why_tests_cant": "2^128 values", "anchors": ["generator/codegen/field/marshalers.go:uuidMarshal", "generator/codegen/field/extractors.go:uuidExtraction", "generator/codegen/transit.go:MarshalToFunc"]}
{"id": "C31", "title": "Whole values survive encode and decode", "statement": "Decoding the output of MarshalJSON into a new receiver of the same type gives back an equal value.", "quantifier": "every supported type, every value", "why_tests_cant": "values nest without bound", "anchors": ["generator/codegen/struct.go:FillFromFunc", "generator/codegen/struct.go:MarshalToFunc", "generator/codegen/array.go", "generator/codegen/map.go", "generator/codegen/transit.go"]}
{"id": "C32", "title": "Fields tagged json:\"-\" never leave the process", "statement": "A field whose JSON name is \"-\" is neither read from documents nor written to the output.", "quantifier": "every struct declaration with such a field, every value, every document", "why_tests_cant": "must hold for every position of the field and every value", "anchors": ["generator/codegen/field/fields.go:FillStatements", "generator/codegen/field/fields.go:MarshalStatements", "generator/codegen/struct.go:ValidatorFunc"]}
{"id": "C33", "title": "Embedded structs are spliced into the parent object", "statement": "An embedded struct without a JSON name contributes its members directly to the parent's object, and decoding reads them from the parent's object.", "quantifier": "every embedded struct value, every position among the fields", "why_tests_cant": "splicing manipulates text; every combination of neighbours matters", "anchors": ["generator/codegen/field/marshalers.go:inlineStructMarshal", "generator/static/tpl/valyjson_utils.go.tpl:unpackObject", "generator/codegen/field/fields.go:FillStatements"]}
{"id": "C34", "title": "IsZero tells exactly whether the value is zero", "statement": "IsZero returns true if and only if the value equals a newly declared value of the type.", "quantifier": "every supported type, every value", "why_tests_cant": "iff over all values", "anchors": ["generator/codegen/struct.go:ZeroFunc", "generator/codegen/map.go:ZeroFunc", "generator/codegen/array.go:ZeroFunc", "generator/codegen/transit.go:ZeroFunc", "generator/codegen/byteslice.go:ZeroFunc", "generator/codegen/helpers/asthelpers.go:ZeroValueOfT"]}
{"id": "C35", "title": "After Reset the value is zero", "statement": "After Reset, IsZero is true and the value encodes as a newly declared value does.", "quantifier": "every supported type, every value", "why_tests_cant": "every value", "anchors": ["generator/codegen/struct.go:ResetFunc", "generator/codegen/map.go:ResetFunc", "generator/codegen/array.go:ResetFunc", "generator/codegen/codegen.go:resetStmt"]}
{"id": "C36", "title": "Concurrent decodes do not influence one another", "statement": "When any number of goroutines decode documents of the same type at the same time, each call ends with the result it would have had alone, under every interleaving; no decoded value later changes because a parser is reused.", "quantifier": "every number of calls, every schedule, every reuse pattern of pooled parsers", "why_tests_cant": "interleavings cannot be enumerated by tests, and reuse depends on the scheduler", "anchors": ["generator/codegen/codegen.go:NewUnmarshalFunc", "generator/codegen/field/extractors.go:stringExtraction"]}
{"id": "C37", "title": "A parser is returned to the pool at most once and never while in use", "statement": "Across every history of calls (successful, failing to parse, failing to fill) no parser is handed to two running calls and none is returned twice; a call that fails to parse loses its parser and nothing else.", "quantifier": "every history and schedule of calls", "why_tests_cant": "histories and schedules", "anchors": ["generator/codegen/codegen.go:NewUnmarshalFunc"]}
{"id": "C38", "title": "Field tags are read as Go reads them", "statement": "For a well-formed tag the JSON name is the text before the first comma, omitempty/inline/required is recognised when it is the first option after the name, and the default and layout are the text before the first comma of their values.", "quantifier": "every tag text", "why_tests_cant": "tags are arbitrary strings", "anchors": ["generator/codegen/tags/tags.go:Parse", "generator/codegen/tags/tags.go:JsonName", "generator/codegen/tags/tags.go:JsonAppendix", "generator/codegen/tags/tags.go:DefaultValue", "generator/codegen/tags/tags.go:Layout"]}
{"id": "C39", "title": "Comment tags select what is generated", "statement": "Methods are generated for a type exactly when it carries a json: comment tag (or is the untagged element type of a tagged slice); custom generates nothing, encode only the encoding half, decode only the decoding half; no method is generated twice however often a type is visited.", "quantifier": "every file (any number of type declarations and comments)", "why_tests_cant": "every combination of declarations and tags", "anchors": ["generator/analyse.go:extractTags", "generator/analyse.go:processDecl", "generator/analyse.go:BuildDecoders", "generator/analyse.go:BuildEncoders"]}
{"id": "C40", "title": "Inlined structs are flattened without loss", "statement": "A struct field tagged json:\",inline\" is replaced, in place and recursively, by the fields of the struct it names; every field of the result comes from a declaration and none is lost or duplicated, and a struct holding a field with its own name is kept as an ordinary field.", "quantifier": "every set of declarations, any inlining depth", "why_tests_cant": "inlining nests without bound", "anchors": ["generator/analyse.go:collectFields", "generator/analyse.go:exploreInlined", "generator/analyse.go:findFieldWithName"]}
{"id": "C41", "title": "Error wrapping composes paths and keeps the cause", "statement": "Wrapping an error again prefixes the path with the new component and a dot, keeps the original cause reachable by unwrapping, and wrapping no error gives no error.", "quantifier": "every error, every sequence of path components", "why_tests_cant": "chains of any length", "anchors": ["generator/static/tpl/valyjson_utils.go.tpl:newParsingError", "generator/static/tpl/valyjson_utils.go.tpl:WrapPath", "generator/static/tpl/valyjson_utils.go.tpl:Unwrap"]}
{"id": "C42", "title": "Date-times are accepted in the documented layouts only, first match wins", "statement": "A time field without layout accepts a text if and only if one of the four supported layouts accepts it, and the value is that of the first layout that does; a time field with a layout uses that layout for reading and writing.", "quantifier": "every text, every parser for the layouts", "why_tests_cant": "every text", "anchors": ["generator/static/tpl/valyjson_utils.go.tpl:parseDateTime", "generator/codegen/field/extractors.go:timeExtraction", "generator/codegen/field/marshalers.go:timeMarshal"]}
{"id": "C43", "title": "Nested decoding is compositional", "statement": "Decoding a struct nested in a struct, slice or map gives the nested value and the error cause that decoding the nested document alone would give.", "quantifier": "every nesting, every document", "why_tests_cant": "nesting depth is unbounded", "anchors": ["generator/codegen/field/extractors.go:nestedExtraction", "generator/codegen/field/fill.go:fillFrom", "generator/codegen/field/fill.go:appendElem", "generator/codegen/field/fill.go:mapExtraction"]}
{"id": "C44", "title": "Decoding a document twice changes nothing more", "statement": "Decoding the same document a second time into the same receiver succeeds and leaves the receiver as the first decode left it.", "quantifier": "every type, every accepted document, every prior receiver", "why_tests_cant": "idempotence over all documents and receivers", "anchors": ["generator/codegen/struct.go:FillFromFunc", "generator/codegen/field/fill.go:mapExtraction", "generator/codegen/field/extractors.go:sliceExtraction"]}
{"id": "C45", "title": "Module discovery finds every package directory once", "statement": "Discovery lists, for every package name, each directory containing a Go file with that package clause exactly once, and the module root is the nearest enclosing directory with a go.mod.", "quantifier": "every directory tree", "why_tests_cant": "every tree", "anchors": ["generator/discoverer/projstruct.go:discoverPackages", "generator/discoverer/projstruct.go:discoveryModFile"]}
{"id": "C46", "title": "Encoding returns", "statement": "MarshalJSON and MarshalTo return for every value of a supported type, nil receivers included, without panicking or recursing for ever, and return a document rather than an error unless a hand-written encoder fails or a time cannot be written.", "quantifier": "every supported type, every value of it, any nesting depth, every writer", "why_tests_cant": "values nest without bound, and a panic can hide in any combination of nil pointers", "anchors": ["generator/codegen/field/marshalers.go:timeMarshal", "generator/codegen/struct.go:MarshalFunc", "generator/codegen/map.go:MarshalFunc", "generator/codegen/array.go:MarshalFunc", "generator/codegen/transit.go:MarshalFunc", "generator/codegen/codegen.go:NewMarshalFunc"]}
{"id": "C47", "title": "Two versions of a type can read each other's documents", "statement": "If a newer version of a struct type keeps the fields of an older one and adds others (anywhere), then every document the newer version decodes is decoded by the older one when that is not strict, and every document the older version decodes that has nothing for the added fields is decoded by the newer one unless an added field is required and has no default; either way the common fields end up the same, and an added field holds its default or what it held before.", "quantifier": "every pair of field lists, every document, every prior receiver", "why_tests_cant": "every pair of versions and every document", "anchors": ["generator/codegen/struct.go:FillFromFunc", "generator/codegen/struct.go:ValidatorFunc", "generator/codegen/field/fill.go:ifDefault"]}
{"id": "C48", "title": "The tag strict only rejects unknown members", "statement": "A strict type and a lenient type with the same fields give the same result, receiver and error on every document without unknown members; what the lenient type accepts is accepted by the strict one exactly when there are no unknown members; encoding, IsZero and Reset are the same for both.", "quantifier": "every field list, every document, every receiver", "why_tests_cant": "every document", "anchors": ["generator/codegen/struct.go:ValidatorFunc", "generator/codegen/struct.go:FillFromFunc", "generator/codegen/tags/tags.go:StrictRules"]}
{"id": "C49", "title": "Every value of a plain type survives", "statement": "For types declared from integers, booleans, strings, UUIDs, structs, pointers to those, and slices, maps and fixed arrays of those (with the conditions on tags of the documentation of PlainPackage, all visible in the declarations), every value is encoded without error as valid JSON and decoded back to the same value; different values have different texts; what is decoded back is encoded as the same text; and whatever any text was decoded to can be encoded and survives.", "quantifier": "every package of such declarations (recursive types included), every value, every text", "why_tests_cant": "every value of every such type, any nesting depth", "anchors": ["generator/codegen/field/marshalers.go:timeMarshal", "generator/codegen/struct.go:MarshalFunc", "generator/codegen/struct.go:FillFromFunc", "generator/codegen/field/extractors.go:sliceExtraction", "generator/codegen/field/fill.go:mapExtraction"]}
{"id": "C50", "title": "Spare slice capacity is invisible to the encoder", "statement": "Two values that differ only beyond the length of their slices, at any depth, are encoded as the same text or give the same error, are appended to any writer alike and have the same IsZero.", "quantifier": "every type, every pair of such values, every writer", "why_tests_cant": "values left over by earlier decodes are arbitrary", "anchors": ["generator/codegen/struct.go:MarshalFunc", "generator/codegen/map.go:MarshalFunc", "generator/codegen/array.go:MarshalFunc", "generator/codegen/array.go:ZeroFunc"]}
{"id": "C51", "title": "A name of another package is looked up in the directory that declares it", "statement": "When a field inlines a struct of another package of the module and several directories hold packages of that name, the directory found is one whose non-test files declare the name; if exactly one of them does, it is found, wherever it is in the module and in whatever order the directories are listed; a package that no Go file of the module belongs to is reported as an error.", "quantifier": "every directory tree, every contents of the packages, every name", "why_tests_cant": "every tree and every set of same-named packages", "anchors": ["generator/discoverer/parser.go:GetPackage", "generator/discoverer/parser.go:GetPackagePath", "generator/discoverer/parser.go:lookupNames", "generator/analyse.go:exploreInlinedSelector"]}
{"id": "C52", "title": "Types named through an import resolve to the declaration of the imported package", "statement": "A type pkg.T in a field resolves to the type T that the directory imported as pkg (by its alias, or else the last element of its path) declares at top level outside test packages; imports of other modules are not followed.", "quantifier": "every import list, every contents of the imported packages, every name", "why_tests_cant": "every combination of aliases and paths", "anchors": ["generator/parser.go:ExploreType", "generator/parser.go:Parse", "generator/analyse.go:resolveExternal", "generator/discoverer/parser.go:PackagePathFromPath"]}
{"id": "C53", "title": "The generated methods are those of the types written in the source file", "statement": "For every type whose comment asks for all methods, the methods read and write exactly the fields written in the source file, those of inlined structs included and in order, each with its written type and under the name, options, default and layout its tag text says, and are strict exactly when the comment says so; types with different names are never confused.", "quantifier": "every source file, every tag and comment text, every document and value", "why_tests_cant": "every file, tag text and document", "anchors": ["generator/analyse.go:getNormalized", "generator/analyse.go:processDecl", "generator/analyse.go:collectFields", "generator/codegen/tags/tags.go:Parse", "generator/codegen/struct.go:FillFromFunc", "generator/codegen/struct.go:MarshalToFunc"]}
{"id": "C54", "title": "Inlining a struct is the same as writing its fields out", "statement": "A file that inlines structs and the file with the fields of those structs written out in their place generate the same declarations, with methods that do the same on every input; the generator fails on both or on neither.", "quantifier": "every pair of such files, any number and depth of inlined structs", "why_tests_cant": "nesting of inlined structs is unbounded", "anchors": ["generator/analyse.go:collectFields", "generator/analyse.go:exploreInlined", "generator/analyse.go:exploreInlinedIdent", "generator/analyse.go:exploreInlinedSelector"]}
{"id": "C55", "title": "A type's methods depend on nothing but the declarations it needs", "statement": "The behaviour of the generated methods of a type (decoding, encoding, IsZero, Reset) is determined by its own declaration and those of the types it mentions, directly or through others. Adding, removing, changing or reordering other types of the package, or renaming types consistently, changes nothing; two types with the same declaration behave the same.", "quantifier": "every pair of packages, every type, every input", "why_tests_cant": "the rest of a package can be anything, and chains of types can be of any length, also recursive", "anchors": ["generator/codegen/helpers/gotypes.go:DenotedType", "generator/codegen/field/fill.go:TypedValue", "generator/codegen/field/fields.go:MarshalStatements", "generator/codegen/struct.go:FillFromFunc", "generator/codegen/codegen.go:resetStmt"]}
{"id": "C56", "title": "Which declarations get methods", "statement": "For a type made of structs, named types, pointers, slices, arrays, maps, predeclared types, times and UUIDs, decoding, encoding, IsZero and Reset methods that are valid Go are generated exactly when the declaration is in the lists of supported forms: for instance elements of maps are decoded only if they are scalars or have their own method, lists nested three deep are decoded but not encoded, and Reset needs at most six nested slices.", "quantifier": "every package without anonymous struct types, every declaration", "why_tests_cant": "types nest to any depth and refer to each other", "anchors": ["generator/codegen/field/fill.go:TypedValue", "generator/codegen/field/fill.go:fillFieldRef", "generator/codegen/field/fields.go:MarshalStatements", "generator/codegen/codegen.go:resetStmt", "generator/codegen/map.go:FillFromFunc", "generator/codegen/array.go:FillFromFunc", "generator/codegen/transit.go:FillFromFunc"]}
{"id": "C57", "title": "What a run of the generator leaves on the disk, also when it is interrupted", "statement": "However a run ends (normally, killed at any moment, a file operation failing, a panic), every file of the module other than the output file and valyjson_utils.go beside it is unchanged; a run that cannot generate changes nothing at all. A run that ends normally leaves both files complete. A run killed at any moment leaves in each of the two files what was there or a beginning of what was to be written; running again gives the files of an undisturbed run.", "quantifier": "every module tree, every source file, every crash point and failing operation, every later run", "why_tests_cant": "a run can be cut at any write, and the state on disk depends on where", "anchors": ["generator/parser.go:Print", "generator/parser.go:fmtGOFile", "generator/parser.go:Parse", "generator/static/static.go:Print", "generator/discoverer/projstruct.go:Discover", "main.go:main"]}
{"id": "C58", "title": "What decoding can change when values share memory", "statement": "However slices, maps and pointers of the program share memory, and even if pointers form cycles, a decoding call that returns changes only the receiver, the slices (up to their capacity) and maps reached from it through fields, array elements and slice elements, and new memory. It never writes through a pointer and never writes into what a map holds.", "quantifier": "every type, every document, every memory with any sharing, every receiver", "why_tests_cant": "the shape of the memory is unbounded", "anchors": ["generator/codegen/field/extractors.go:sliceExtraction", "generator/codegen/field/fill.go:mapExtraction", "generator/codegen/field/fill.go:fillElem", "generator/codegen/field/fill.go:typedRefFillIn", "generator/codegen/field/extractors.go:nestedExtraction", "generator/codegen/map.go:FillFromFunc", "generator/codegen/array.go:FillFromFunc"]}
{"id": "C59", "title": "Decoding does not depend on where values lie in memory, as long as they share nothing", "statement": "If no two parts of the receiver share memory, a decoding call returns what it returns for any other such receiver with the same value and leaves the same value in it; afterwards again no two parts share memory; nothing outside the receiver changes, and two receivers that share nothing still share nothing. Decoding itself never creates sharing.", "quantifier": "every type, document, value and memory layout without sharing inside the receiver", "why_tests_cant": "layouts and values are unbounded", "anchors": ["generator/codegen/field/extractors.go:sliceExtraction", "generator/codegen/field/fill.go:mapExtraction", "generator/codegen/field/fill.go:typedRefFillIn", "generator/codegen/field/fields.go:FillStatements", "generator/codegen/struct.go:FillFromFunc"]}
{"id": "C60", "title": "Values handed out earlier keep their contents", "statement": "A copy of a decoded value (assignment, or slices and maps taken from it) keeps its contents when another document is decoded into the same variable.", "quantifier": "every type, every two documents, every copy", "why_tests_cant": "the second document decides what is overwritten", "anchors": ["generator/codegen/field/extractors.go:sliceExtraction", "generator/codegen/field/fill.go:mapExtraction", "generator/codegen/map.go:FillFromFunc", "generator/codegen/array.go:FillFromFunc"]}
{"id": "C61", "title": "Encoding and IsZero do not depend on sharing", "statement": "MarshalJSON, MarshalTo and IsZero, called on a value whose parts share memory with each other or with other values, return what they return for a value with the same contents and no sharing, and panic for the same ones.", "quantifier": "every type, every memory with any sharing, every value whose pointers form no cycle", "why_tests_cant": "the shape of the memory is unbounded", "anchors": ["generator/codegen/struct.go:MarshalFunc", "generator/codegen/field/marshalers.go:structMarshal", "generator/codegen/field/fields.go:MarshalStatements", "generator/codegen/struct.go:ZeroFunc", "generator/codegen/map.go:MarshalFunc", "generator/codegen/array.go:MarshalFunc"]}
{"id": "C62", "title": "What Reset can change when values share memory", "statement": "However values share memory, and even if pointers form cycles, a Reset call that returns changes only the receiver and the slice elements and maps reached from it through fields, array elements, slice elements and map entries. It never writes through a pointer. If no two parts of the receiver share memory, it leaves in the receiver the value it leaves for any other layout, again without sharing.", "quantifier": "every type, every memory with any sharing, every receiver", "why_tests_cant": "the shape of the memory is unbounded", "anchors": ["generator/codegen/struct.go:ResetFunc", "generator/codegen/codegen.go:resetStmt", "generator/codegen/map.go:ResetFunc", "generator/codegen/array.go:ResetFunc"]}
{"id": "C63", "title": "Values handed out earlier survive Reset", "statement": "A copy of a value (assignment, or slices and maps taken from it) keeps its contents when the value it was copied from is reset.", "quantifier": "every type, every value, every copy", "why_tests_cant": "copies can be anywhere and values have any size", "anchors": ["generator/codegen/struct.go:ResetFunc", "generator/codegen/codegen.go:resetStmt", "generator/codegen/map.go:ResetFunc", "generator/codegen/array.go:ResetFunc"]}
{"id": "C64", "title": "Strings are bytes, and survive encoding exactly if they are UTF-8", "statement": "A JSON text in UTF-8 is decoded as the characters it stands for. Whatever bytes a string field holds, what MarshalJSON writes for it is a JSON string in UTF-8. Reading that back gives the same bytes exactly if they are UTF-8; otherwise every byte at which no character begins has become U+FFFD. Bytes that are not UTF-8 are accepted inside the string literals of a document, and kept. A document of any bytes is accepted exactly if it is with those bytes replaced by U+FFFD, and is the same document up to that.", "quantifier": "every sequence of bytes", "why_tests_cant": "there are infinitely many byte sequences, valid and not", "anchors": ["generator/codegen/struct.go:UnmarshalFunc", "generator/codegen/struct.go:MarshalFunc", "generator/codegen/field/fields.go:MarshalStatements", "go.mod:github.com/valyala/fastjson", "go.mod:github.com/mailru/easyjson"]}
{"id": "C65", "title": "Damaged output is never misread", "statement": "If the written floats of a value are finite and what MarshalJSON returns for it is not JSON, then UnmarshalJSON of every type refuses that text with the error of the parser and leaves its receiver as it was. So a text that came from MarshalJSON and that UnmarshalJSON accepts is JSON.", "quantifier": "every type, every value of the type at every depth, every decoding type, every receiver", "why_tests_cant": "the damage can be anywhere in a document of any size, and the parser accepts more than JSON", "anchors": ["generator/codegen/struct.go:MarshalFunc", "generator/codegen/field/marshalers.go:structMarshal", "generator/codegen/field/fields.go:MarshalStatements", "generator/codegen/struct.go:UnmarshalFunc", "go.mod:github.com/valyala/fastjson"]}
{"id": "C66", "title": "How deep a value may be to come back", "statement": "A JSON text is refused by every UnmarshalJSON, without touching the receiver, exactly when it is nested more than 300 deep. MarshalJSON has no such limit: a value that can be encoded and decoded comes back exactly when its document is at most 300 deep. Documents of types whose declarations do not refer to themselves are never deeper than the declarations are, so for such types every value comes back; a linked list of more than 300 nodes is written without error and cannot be read.", "quantifier": "every JSON text, every type, every value of it at every depth, every receiver", "why_tests_cant": "values of recursive types are unboundedly deep, and the limit is in one of the two directions only", "anchors": ["generator/codegen/struct.go:UnmarshalFunc", "generator/codegen/struct.go:MarshalFunc", "go.mod:github.com/valyala/fastjson"]}
{"id": "C67", "title": "Documents about different members can be applied one after the other", "statement": "For a struct type, with the structs embedded by value in it, in which no field is required or has a default: decoding documents that have no member in common one after the other into the same receiver succeeds exactly if decoding the one document with all their members succeeds, and leaves the same value. So the order of the documents does not matter. (Not so with defaults, which come back with every document, nor with embedded pointers, which are made anew.)", "quantifier": "every such type, every number of documents, every order, every receiver", "why_tests_cant": "there are infinitely many documents, and histories of any length", "anchors": ["generator/codegen/struct.go:FillFromFunc", "generator/codegen/struct.go:ValidatorFunc", "generator/codegen/field/fields.go:FillStatements"]}
{"id": "C68", "title": "The tag strict looks at one struct only", "statement": "A strict struct that embeds another struct refuses every document with a member of the embedded struct, so that it refuses what it has itself written unless the embedded value is zero. A struct that embeds a strict struct refuses every document with a member that is not one of the strict struct, so that it refuses what it has itself written as soon as one of its own fields is written.", "quantifier": "every such pair of declarations, every document, every value, every receiver", "why_tests_cant": "every document has to be refused, and every value that is written", "anchors": ["generator/codegen/struct.go:ValidatorFunc", "generator/codegen/struct.go:FillFromFunc", "generator/codegen/field/fields.go:FillStatements"]}
{"id": "C69", "title": "Fields that share a JSON name", "statement": "Fields declared together under one tag read the same member: if they held the same value before a successful decode they hold the same value after it. When two fields with one JSON name are both written, the object has two members of this name, and the decoder of the same type refuses it and leaves the receiver as it was.", "quantifier": "every struct type, every pair of fields with one name, every document, every value, every receiver", "why_tests_cant": "every value that is written, and every document", "anchors": ["generator/codegen/struct.go:fillFieldStmts", "generator/codegen/struct.go:jsonFieldStmts", "generator/codegen/struct.go:ValidatorFunc"]}
{"id": "C70", "title": "The generator accepts a file or refuses it, and comes to an end", "statement": "The generator produces code for a file exactly when methods can be made for every type at which a comment with tags stands (and for the untagged element types of its slices); otherwise it produces nothing. It comes to an end on every file, unless named slice types or inlined structs refer to themselves without end.", "quantifier": "every file, every set of packages, any depth of slices and inlining", "why_tests_cant": "a run that hangs cannot be told from a slow one, and the files are without number", "anchors": ["generator/analyse.go:processDecl", "generator/analyse.go:collectFields", "generator/analyse.go:getNormalized"]}
{"id": "C71", "title": "When encoding fails, and what the error says", "statement": "With hand-written encoders that do not fail, MarshalJSON and MarshalTo fail exactly when, in what they have to write, there is a time of a type declared as time.Time that has no text (a year of more than four digits). The error names the way to the first of these times in the order of the document: fields by JSON name, items by list and index, members by map and key.", "quantifier": "every package, every type, every value of any size and depth, every writer", "why_tests_cant": "the value can be wrong at any place at any depth, at several places at once", "anchors": ["generator/codegen/field/marshalers.go:structMarshal", "generator/codegen/transit.go:MarshalToFunc", "generator/codegen/struct.go:MarshalToFunc", "generator/codegen/field/fields.go:GetValueExtractor"]}
{"id": "C72", "title": "Concurrent encodes do not influence one another", "statement": "When any number of goroutines encode values of any generated types at the same time, also the same value, each call of MarshalJSON ends with the bytes or the error it would have had alone, under every interleaving. The bytes it returned stay as they are afterwards, whatever other calls do and whatever other callers write to the bytes they got. No call has to wait for another.", "quantifier": "every number of calls, every schedule, every reuse pattern of pooled buffers, everything the callers do with their results", "why_tests_cant": "interleavings cannot be enumerated by tests, and reuse depends on the scheduler", "anchors": ["generator/codegen/codegen.go:NewMarshalFunc", "generator/codegen/struct.go:MarshalToFunc"]}
{"id": "C73", "title": "A document cannot make the decoder build much more than it contains", "statement": "For every package there is a number, fixed by its types alone, such that decoding adds to the receiver at most that many variables, map entries, characters and bytes for each character of the text, whatever the text, whatever the receiver held before, and whether or not the decode succeeds.", "quantifier": "every package, every type, every text, every receiver, every outcome", "why_tests_cant": "the worst case is over all texts of all lengths, and the factor must not depend on them", "anchors": ["generator/codegen/field/fields.go:TypedValue", "generator/codegen/field/fields.go:FillStatements", "generator/codegen/struct.go:FillFromFunc", "generator/codegen/array.go:FillFromFunc", "generator/codegen/map.go:FillFromFunc"]}
{"id": "C74", "title": "Calls on variables that share no memory can be made in any order", "statement": "Take any number of variables, or elements of one array, or fields of one struct, that share no memory, and any program of UnmarshalJSON, FillFromJSON, MarshalJSON, IsZero and Reset calls on them. Every call returns what it would return, and every variable ends up with the value it would have, if only the calls on that variable had been made. So any two ways to interleave the calls give the same answers and the same values, and the variables share no memory afterwards.", "quantifier": "any number of variables, every memory, every history of calls of any length, every interleaving", "why_tests_cant": "histories and interleavings cannot be enumerated, and storage is reused from call to call", "anchors": ["generator/codegen/codegen.go:NewUnmarshalFunc", "generator/codegen/struct.go:FillFromFunc", "generator/codegen/struct.go:ResetFunc", "generator/codegen/field/fields.go:FillStatements"]}
{"id": "C75", "title": "Encoded text is at most a constant factor larger than the value", "statement": "For every package there is a number, fixed by its types and by how long floats and times are when written, such that MarshalJSON and MarshalTo write at most that many characters for each variable, map entry, character and byte of the value, slices counted up to their length, whatever the value, whatever the buffer held before, and whether or not the call succeeds.", "quantifier": "every package, every type, every value of any size and depth, every buffer", "why_tests_cant": "the worst case is over all values of all sizes, and the factor must not depend on them", "anchors": ["generator/codegen/field/marshalers.go:structMarshal", "generator/codegen/transit.go:MarshalToFunc", "generator/codegen/struct.go:MarshalToFunc", "generator/codegen/field/fields.go:GetValueExtractor"]}
{"id": "C76", "title": "A copy made through JSON is a deep copy", "statement": "A variable that a text is decoded into for the first time shares no memory with anything that existed before, and neither do any two parts of it, whatever the text and whatever the outcome. So encoding a value of a type whose values survive, or any value that survives, and decoding the text into a new variable makes an equal value that is independent of the original: parts that the original shares are separate in the copy, and no calls on the copy can change the original.", "quantifier": "every type, every memory with any sharing between parts of values, every text, every later history of calls on the copy", "why_tests_cant": "the ways in which values share memory and the histories are without number", "anchors": ["generator/codegen/codegen.go:NewUnmarshalFunc", "generator/codegen/codegen.go:NewMarshalFunc", "generator/codegen/struct.go:FillFromFunc", "generator/codegen/field/fields.go:TypedValue"]}
{"id": "C77", "title": "Layout and the order of members do not matter, at any depth", "statement": "Two texts that differ only in white space and in how characters are escaped have exactly the same effect. If they differ also in the order of the members of objects, at any depth, and no key is repeated, then either both are accepted or neither, and after acceptance the receivers have the same contents, whatever they held before. Types with slices of maps are excepted: there the code loses errors, and which members were read before the lost error depends on their order.", "quantifier": "every package, every type, every pair of such texts, every previous contents of the receiver", "why_tests_cant": "the number of orders grows with the factorial of the number of members, at every level of the document", "anchors": ["generator/codegen/field/fields.go:TypedValue", "generator/codegen/struct.go:FillFromFunc", "generator/codegen/struct.go:ValidateFunc", "generator/codegen/map.go:FillFromFunc"]}
{"id": "C78", "title": "The message of a decode error names the place of the error", "statement": "When decoding fails, a reader of the message of the error finds in it the JSON path of a part of the document that is wrong for the type expected there. For a repeated key, an unknown key and a missing required member the message has a fixed text with the key in it.", "quantifier": "every package, every type, every document and text, every previous contents of the receiver", "why_tests_cant": "places are at any depth, and every error is passed up through every level, each of which adds to the message", "anchors": ["generator/static/tpl/valyjson_utils.go.tpl:newParsingError", "generator/codegen/struct.go:ValidateFunc", "generator/codegen/struct.go:FillFromFunc", "generator/codegen/field/fields.go:TypedValue"]}
{"id": "C79", "title": "The cause of an encode error can be found through the error", "statement": "When MarshalJSON fails inside a value, the error it returns leads back (errors.Is) to the error of the part that has no text, and its message is the messages for the places passed, from the outside in, and then the message of that error.", "quantifier": "every package, every type, every value that cannot be written, at any depth", "why_tests_cant": "the chain of errors has one link for every level of the value, and the texts of the links are made from any JSON names and map keys", "anchors": ["generator/codegen/field/marshalers.go:structMarshal", "generator/codegen/field/fields.go:FieldFactory", "generator/codegen/map.go:MarshalFunc"]}
{"id": "C80", "title": "The order in which maps are walked does not show in the generated code", "statement": "go/parser keeps packages and files in maps, which Go walks in a new random order every time. Whatever these orders are, the generator looks for a package in the same directory, refuses the file or accepts it, and gives the types the same methods; the decoders and the encoders, which are generated in two passes, are for the same fields.", "quantifier": "every module, every source file, every order of packages and of files in every walk", "why_tests_cant": "the order is chosen at random in every run, and the number of orders grows with the factorial of the number of files", "anchors": ["generator/parser.go:ExploreType", "generator/discoverer/parser.go:lookupNames", "generator/discoverer/parser.go:GetPackage", "generator/analyse.go:exploreInlinedSelector"]}
{"id": "C81", "title": "The module of a source file does not depend on how its path is written", "statement": "Started for a source file, from any working directory and with the path of the file written in any way (absolute or relative, with dots, double slashes and ..), the generator takes for the module root the nearest directory at or above the file's own that has a go.mod file; if there is none, or it cannot be read, it panics. The search always ends.", "quantifier": "every path text, every working directory, every placement of go.mod files and of files that cannot be read", "why_tests_cant": "paths are texts of any length, and the same file has infinitely many of them", "anchors": ["generator/discoverer/projstruct.go:discoveryModFile", "generator/discoverer/projstruct.go:New", "generator/parser.go:New"]}
{"id": "C82", "title": "Which texts a time field takes, and which instants they name", "statement": "A time field without a layout tag takes a text if and only if it is a date of the Gregorian calendar (written 2006-01-02T, 2006-01-02 or 02.01.2006), a clock time, perhaps a fraction of a second after a point or comma, and a zone (Z or a signed offset in hours and minutes); the field then holds exactly the instant and the offset that these name, to the nanosecond. Dates that do not exist are refused.", "quantifier": "every text, every date from the year 0 to the year 9999, every fraction and offset, every previous contents of the field", "why_tests_cant": "there are about 10^20 instants and any number of texts; leap years and the ends of months depend on the date", "anchors": ["generator/static/tpl/valyjson_utils.go.tpl:parseDateTime", "generator/codegen/field/extractors.go:timeExtraction", "generator/codegen/field/extractors.go:timeExtractionUnify"]}
{"id": "C83", "title": "A time comes back as the same instant", "statement": "A time in a field without a layout tag is written so that decoding the output gives the same instant, to the nanosecond, with the same offset from UTC.", "quantifier": "every time value: every date, clock time, fraction and offset", "why_tests_cant": "the claim is about every one of about 10^20 instants in every zone", "anchors": ["generator/static/tpl/valyjson_utils.go.tpl:writeTime", "generator/static/tpl/valyjson_utils.go.tpl:parseDateTime", "generator/codegen/field/marshalers.go:timeMarshal"]}
{"id": "C84", "title": "A time with a layout tag comes back as what the layout shows of it", "statement": "With a layout tag, what is written is read back as the time that has the parts the layout shows (year, month, day, hour, minute, second, fraction, offset in minutes) and the first of January of the year 0, midnight and UTC for those it does not; reading and writing that again changes nothing.", "quantifier": "every layout made of these elements and other characters, every time", "why_tests_cant": "there are infinitely many layouts, and whether an element is read to the right end depends on what follows it", "anchors": ["generator/codegen/field/marshalers.go:timeMarshal", "generator/codegen/field/extractors.go:timeExtraction", "generator/codegen/field/extractors.go:timeExtractionUnify"]}
{"id": "C85", "title": "Every value of a plain type with times and floats survives, if its times and floats do", "statement": "For types built from integers, booleans, strings, UUIDs, floats, times in the default layout, structs, pointers, slices, maps and arrays as in C49: a value whose times have a year from 0 to 9999 and an offset of whole minutes (the zero instant being in UTC), and whose floats are read back from their own text, is encoded without error as valid JSON and read back unchanged into a new variable; two different such values never have the same text; what was read back is written as the same text again.", "quantifier": "every package of such types, every such value of any size, every such time and float in it", "why_tests_cant": "there are infinitely many types and values, and one time or float anywhere in a value can spoil the whole of it", "anchors": ["generator/codegen/field/marshalers.go:timeMarshal", "generator/codegen/field/marshalers.go:floatMarshal", "generator/static/tpl/valyjson_utils.go.tpl:writeTime", "generator/static/tpl/valyjson_utils.go.tpl:parseDateTime", "generator/codegen/struct.go:MarshalFunc"]}
{"id": "C86", "title": "Numbers are read as the nearest float, and floats come back", "statement": "A number in the document is read into a float64 as the float nearest to it (an infinity if it is beyond them all), with its sign; a finite float is written as a JSON number that is nearer to it than to any other float, and decoding the output gives the same float.", "quantifier": "every JSON number text, of any length and with any exponent; every finite float64", "why_tests_cant": "there are 2^64 floats and infinitely many number texts; a reading that rounds twice is wrong for a few of them only", "anchors": ["generator/codegen/field/extractors.go:floatExtraction", "generator/codegen/field/marshalers.go:floatMarshal"]}
