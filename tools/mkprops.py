#!/usr/bin/env python3
# Writes /verif/properties.jsonl. Kept as a script so ids stay in order and every line is valid JSON.
import json
P=[]
def p(title, statement, quantifier, why, *anchors):
    P.append(dict(id="C%02d"%(len(P)+1), title=title, statement=statement, quantifier=quantifier,
                  why_tests_cant=why, anchors=list(anchors)))
S="generator/codegen/struct.go"; F="generator/codegen/field/fill.go"; X="generator/codegen/field/extractors.go"
M="generator/codegen/field/marshalers.go"; MF="generator/codegen/field/marshal.go"; FF="generator/codegen/field/fields.go"
CG="generator/codegen/codegen.go"; U="generator/static/tpl/valyjson_utils.go.tpl"; MP="generator/codegen/map.go"
AR="generator/codegen/array.go"; TR="generator/codegen/transit.go"; BS="generator/codegen/byteslice.go"; FB="generator/codegen/field/byteslice.go"
AN="generator/analyse.go"; TG="generator/codegen/tags/tags.go"; H="generator/codegen/helpers/gotypes.go"; DI="generator/discoverer"
p("Which documents a struct decoder accepts at its top level",
  "For a generated struct type, UnmarshalJSON rejects a document before touching any field exactly when the document is not a JSON object, or some key that belongs to a field occurs twice, or (types tagged strict only) some key belongs to no field. A type that is not strict ignores unknown keys, even repeated ones.",
  "every struct declaration (any number of fields, strict or not), every JSON value, every prior content of the receiver",
  "the set of key sequences is infinite and the check is a stateful scan that stops at the first problem; a test only samples sequences",
  S+":ValidatorFunc", S+":FillFromFunc")
p("A rejected document shape leaves the receiver untouched",
  "When UnmarshalJSON fails because the bytes are not JSON or because of the object-level check (not an object, duplicate key, unexpected key), the receiver is exactly what it was before the call.",
  "every struct declaration, every byte string and JSON value, every prior receiver content",
  "needs all malformed inputs and all prior receivers",
  CG+":NewUnmarshalFunc", S+":FillFromFunc")
p("Member order does not matter",
  "Two documents whose top-level members are permutations of each other (same keys and values) decode to the same receiver and to the same success or failure whenever no key is repeated.",
  "every struct declaration, every object, every permutation of its members, every prior receiver",
  "permutations grow factorially; the claim is about all of them",
  S+":FillFromFunc", S+":ValidatorFunc", FF+":FillStatements")
p("Unknown members have no effect on a lenient type",
  "For a struct type not tagged strict, adding or removing members whose key belongs to no field changes neither the decoded receiver nor the error.",
  "every lenient struct declaration, every object, every set of unknown members at any positions",
  "unbounded set of extra members and positions",
  S+":ValidatorFunc", S+":FillFromFunc")
p("Each field is decoded from its own member only",
  "After a successful decode every field holds what its own member (or its absence) says, computed from that member and the field's previous value alone; no other member and no other field influences it.",
  "every struct declaration, every document, every prior receiver, every field",
  "non-interference is a statement about pairs of runs over all inputs",
  S+":FillFromFunc", FF+":FillStatements")
p("Defaults, required and absent members",
  "When a member is absent: a field with a default tag is set to that default; a field marked required and without default makes the decode fail with an error naming the field; any other field keeps its previous value. A required member that is present is never reported missing.",
  "every struct declaration, every document without the member, every prior receiver",
  "needs every combination of tags, presence and prior value",
  F+":ifDefault", FF+":FillStatements", "generator/codegen/helpers/asthelpers.go:BasicLiteralFromType")
p("What an explicit null does",
  "A null member is an error for scalar, string, time, UUID and named-collection fields; for pointer fields and fields written with a literal slice or map type it takes the same path as an absent member except that a pointer field's default is not applied. In particular it never clears a previous value.",
  "every field kind, every prior value",
  "the claim compares null with absence for all field kinds and all prior values",
  FF+":prepareRef", FF+":FillStatements", F+":ifDefault", U+":valueIsNotNull")
p("Decoded integers equal the number in the document",
  "If decoding succeeds, an integer field holds exactly the integer written in the document, for every integer width; a number that does not fit is an error, never a different number.",
  "every integer field type, every integer literal",
  "the set of literals is infinite and the failing ones sit outside the range a test author thinks of",
  F+":checkErr", F+":typeExtraction", F+":getMaxByType")
p("Integers inside slices, maps, fixed arrays and named types are range checked too",
  "The fidelity of C08 also holds for integer elements of slices and arrays, for map values and for named integer types.",
  "every integer element type, every literal, every position in every collection",
  "as C08, and over every position of unbounded collections",
  F+":appendElem", F+":mapExtraction", F+":fillElem", TR+":FillFromFunc", AR+":FillFromFunc", MP+":FillFromFunc")
p("A decoded slice mirrors the JSON array",
  "After a successful decode of a slice field (or a named slice type) of scalars, strings or pointers, the slice has as many elements as the JSON array and the i-th element is the decoded i-th member, whatever length, capacity or contents the field had before.",
  "every element type, every JSON array, every prior slice (length, capacity, contents)",
  "arrays are unbounded and the code reuses old storage, so the prior state matters",
  X+":sliceExtraction", F+":appendElem", AR+":FillFromFunc")
p("Reusing slice storage never writes outside it",
  "Decoding into a slice that still owns storage never indexes or re-slices past the capacity: the decode of a slice field does not panic, for every array length and every prior slice.",
  "every array length, every prior slice length and capacity",
  "off-by-one errors in capacity reuse show only for particular length/capacity pairs",
  X+":sliceExtraction", F+":appendElem")
p("No stale data survives from the previous decode",
  "Decoding a document into a receiver used before gives, for the elements of a slice of structs, the same values as decoding into a fresh receiver.",
  "every sequence of documents decoded into the same receiver",
  "needs every history of the receiver",
  F+":appendElem", X+":nestedExtraction", X+":sliceExtraction")
p("Reset makes a receiver as good as new",
  "After Reset, decoding a document gives the same result (values and error) as decoding it into a new zero receiver, whatever was decoded before, including decodes that failed.",
  "every history of decodes and resets of one receiver, then every document",
  "quantifies over histories",
  CG+":resetStmt", S+":ResetFunc", F+":appendElem", X+":sliceExtraction")
p("Fixed-length arrays accept exactly their length",
  "A field or named type of fixed length n accepts a JSON array if and only if it has exactly n elements (given that the elements decode); otherwise decoding fails and the field keeps its previous value.",
  "every n, every JSON array, every prior value",
  "every length",
  X+":arrayExtraction", AR+":FillFromFunc")
p("A decoded map has the document's members",
  "After decoding an object into a map field, every key of the object maps to the decoded value of its last occurrence and every other key keeps its previous entry; for a named map type the result holds nothing but the document's members.",
  "every object (any number of members, repeated keys included), every prior map",
  "unbounded key sequences with repetitions, and prior contents",
  F+":mapExtraction", MP+":FillFromFunc")
p("Decode errors are never swallowed",
  "If some element of a JSON array cannot be decoded to the element type, UnmarshalJSON returns a non-nil error.",
  "every element type the generator supports in a slice field or fixed array field, every array, every position of the bad element",
  "needs every position and every element type; the generated loop's scoping decides",
  F+":breakErr", F+":appendElem", X+":timeExtraction", X+":uuidExtraction")
p("Error paths name the failing place",
  "The path in a decode error is the dotted sequence of member names, keys and indexes leading from the root to the value that could not be decoded.",
  "every nesting of structs, slices and maps, every document with a bad leaf",
  "nesting depth is unbounded",
  U+":newParsingError", U+":WrapPath", F+":checkErr", F+":breakErr", F+":mapExtraction", MP+":FillFromFunc")
p("A failing decode changes a prefix of the fields only",
  "When a field fails, all fields declared before it hold the values of the document, all fields declared after it are untouched, and the error is the first field's in declaration order.",
  "every struct declaration, every document, every prior receiver",
  "needs every combination of good and bad members",
  S+":FillFromFunc", FF+":FillStatements")
p("A named type behaves as the type it is defined from",
  "A type declared as another type (type A B, any chain of such declarations) accepts the same documents with the same errors, ends with the same value, and encodes to the same bytes as the type it is defined from.",
  "every chain of declarations, every document, every value",
  "chains of any length, all documents",
  TR+":FillFromFunc", TR+":MarshalToFunc", TR+":ZeroFunc")
p("Decoding never panics",
  "UnmarshalJSON returns normally (value or error) on every input.",
  "every supported type, every JSON value, every prior receiver",
  "absence of panics is a claim about all inputs",
  FB+":ByteSliceFillFrom", X+":sliceExtraction", F+":appendElem")
p("The output of the encoder is JSON",
  "If MarshalJSON returns no error its result is one well-formed JSON text.",
  "every supported type, every value of it (nil pointers, nil slices, empty maps, any strings and integers)",
  "well-formedness must hold for every combination of present and omitted members",
  S+":MarshalToFunc", M+":Render", MF+":typeMarshal", M+":refStructMarshal")
p("The encoded object has exactly the right members",
  "The JSON object produced for a struct has, in declaration order, one member per field except those that are marked omitempty and hold the zero value, and each member denotes the field's value.",
  "every struct declaration, every value",
  "2^n presence combinations, all values",
  S+":MarshalToFunc", FF+":MarshalStatements", M+":Render")
p("omitempty drops zero values and nothing else",
  "A field tagged omitempty is left out if and only if its value is the zero value of its type.",
  "every field kind, every value",
  "an iff over all values of all kinds",
  M+":timeMarshal", M+":uuidMarshal", M+":intMarshal", M+":mapMarshal", M+":arrayMarshal", AR+":ZeroFunc")
p("Nil encodes as null",
  "A nil pointer receiver, a nil slice, a nil map and a nil pointer encode as the JSON null, wherever they stand and whatever their declared type.",
  "every type kind, every position (top level, field, element, map value)",
  "positions nest without bound",
  S+":MarshalToFunc", MP+":MarshalToFunc", AR+":MarshalToFunc", TR+":MarshalToFunc", BS+":MarshalToFunc", M+":timeMarshal", FF+":GetValueExtractor")
p("Encoding appends and depends on nothing already written",
  "MarshalTo only appends to the writer: bytes already written are kept and the bytes appended are the same whatever was written before.",
  "every type, every value, every prior writer content",
  "every prior writer content",
  S+":MarshalToFunc", AR+":MarshalToFunc", MP+":MarshalToFunc")
p("Map iteration order cannot change the meaning of the output",
  "Whatever order Go iterates a map in, the encoding denotes the same set of members, each once.",
  "every map, every iteration order",
  "Go randomises the order; tests see a few orders",
  M+":mapMarshal", MP+":MarshalToFunc")
p("String escaping is lossless and safe",
  "The JSON string written for a Go string decodes to the same string, and contains no raw quote, backslash or control character that would end or corrupt it.",
  "every string",
  "every string",
  M+":stringMarshal", FF+":GetValueExtractor")
p("Integers survive encode and decode",
  "Encoding any integer field value and decoding the result into the same field type gives the same value.",
  "every integer type, every value in its range",
  "2^64 values",
  M+":intMarshal", M+":uintMarshal", F+":typeExtraction", F+":checkErr")
p("Binary fields survive encode and decode",
  "A byte slice or fixed byte array encodes to a base64 string that decodes to the same bytes; text that is not base64, or has the wrong number of bytes for a fixed array, is an error.",
  "every byte sequence, every text",
  "every byte sequence of every length (padding cases)",
  FB+":ByteSliceFillFrom", FB+":ByteSliceMarshal", BS+":FillFromFunc")
p("UUID fields survive encode and decode",
  "Every UUID encodes to its canonical text and decodes back to itself.",
  "every 128-bit value",
  "2^128 values",
  M+":uuidMarshal", X+":uuidExtraction", TR+":MarshalToFunc")
p("Whole values survive encode and decode",
  "Decoding the output of MarshalJSON into a new receiver of the same type gives back an equal value.",
  "every supported type, every value",
  "values nest without bound",
  S+":FillFromFunc", S+":MarshalToFunc", AR, MP, TR)
p("Fields tagged json:\"-\" never leave the process",
  "A field whose JSON name is \"-\" is neither read from documents nor written to the output.",
  "every struct declaration with such a field, every value, every document",
  "must hold for every position of the field and every value",
  FF+":FillStatements", FF+":MarshalStatements", S+":ValidatorFunc")
p("Embedded structs are spliced into the parent object",
  "An embedded struct without a JSON name contributes its members directly to the parent's object, and decoding reads them from the parent's object.",
  "every embedded struct value, every position among the fields",
  "splicing manipulates text; every combination of neighbours matters",
  M+":inlineStructMarshal", U+":unpackObject", FF+":FillStatements")
p("IsZero tells exactly whether the value is zero",
  "IsZero returns true if and only if the value equals a newly declared value of the type.",
  "every supported type, every value",
  "iff over all values",
  S+":ZeroFunc", MP+":ZeroFunc", AR+":ZeroFunc", TR+":ZeroFunc", BS+":ZeroFunc", "generator/codegen/helpers/asthelpers.go:ZeroValueOfT")
p("After Reset the value is zero",
  "After Reset, IsZero is true and the value encodes as a newly declared value does.",
  "every supported type, every value",
  "every value",
  S+":ResetFunc", MP+":ResetFunc", AR+":ResetFunc", CG+":resetStmt")
p("Concurrent decodes do not influence one another",
  "When any number of goroutines decode documents of the same type at the same time, each call ends with the result it would have had alone, under every interleaving; no decoded value later changes because a parser is reused.",
  "every number of calls, every schedule, every reuse pattern of pooled parsers",
  "interleavings cannot be enumerated by tests, and reuse depends on the scheduler",
  CG+":NewUnmarshalFunc", X+":stringExtraction")
p("A parser is returned to the pool at most once and never while in use",
  "Across every history of calls (successful, failing to parse, failing to fill) no parser is handed to two running calls and none is returned twice; a call that fails to parse loses its parser and nothing else.",
  "every history and schedule of calls",
  "histories and schedules",
  CG+":NewUnmarshalFunc")
p("Field tags are read as Go reads them",
  "For a well-formed tag the JSON name is the text before the first comma, omitempty/inline/required is recognised when it is the first option after the name, and the default and layout are the text before the first comma of their values.",
  "every tag text",
  "tags are arbitrary strings",
  TG+":Parse", TG+":JsonName", TG+":JsonAppendix", TG+":DefaultValue", TG+":Layout")
p("Comment tags select what is generated",
  "Methods are generated for a type exactly when it carries a json: comment tag (or is the untagged element type of a tagged slice); custom generates nothing, encode only the encoding half, decode only the decoding half; no method is generated twice however often a type is visited.",
  "every file (any number of type declarations and comments)",
  "every combination of declarations and tags",
  AN+":extractTags", AN+":processDecl", AN+":BuildDecoders", AN+":BuildEncoders")
p("Inlined structs are flattened without loss",
  "A struct field tagged json:\",inline\" is replaced, in place and recursively, by the fields of the struct it names; every field of the result comes from a declaration and none is lost or duplicated, and a struct holding a field with its own name is kept as an ordinary field.",
  "every set of declarations, any inlining depth",
  "inlining nests without bound",
  AN+":collectFields", AN+":exploreInlined", AN+":findFieldWithName")
p("Error wrapping composes paths and keeps the cause",
  "Wrapping an error again prefixes the path with the new component and a dot, keeps the original cause reachable by unwrapping, and wrapping no error gives no error.",
  "every error, every sequence of path components",
  "chains of any length",
  U+":newParsingError", U+":WrapPath", U+":Unwrap")
p("Date-times are accepted in the documented layouts only, first match wins",
  "A time field without layout accepts a text if and only if one of the four supported layouts accepts it, and the value is that of the first layout that does; a time field with a layout uses that layout for reading and writing.",
  "every text, every parser for the layouts",
  "every text",
  U+":parseDateTime", X+":timeExtraction", M+":timeMarshal")
p("Nested decoding is compositional",
  "Decoding a struct nested in a struct, slice or map gives the nested value and the error cause that decoding the nested document alone would give.",
  "every nesting, every document",
  "nesting depth is unbounded",
  X+":nestedExtraction", F+":fillFrom", F+":appendElem", F+":mapExtraction")
p("Decoding a document twice changes nothing more",
  "Decoding the same document a second time into the same receiver succeeds and leaves the receiver as the first decode left it.",
  "every type, every accepted document, every prior receiver",
  "idempotence over all documents and receivers",
  S+":FillFromFunc", F+":mapExtraction", X+":sliceExtraction")
p("Module discovery finds every package directory once",
  "Discovery lists, for every package name, each directory containing a Go file with that package clause exactly once, and the module root is the nearest enclosing directory with a go.mod.",
  "every directory tree",
  "every tree",
  DI+"/projstruct.go:discoverPackages", DI+"/projstruct.go:discoveryModFile")
p("Encoding returns",
  "MarshalJSON and MarshalTo return for every value of a supported type, nil receivers included, without panicking or recursing for ever, and return a document rather than an error unless a hand-written encoder fails or a time cannot be written.",
  "every supported type, every value of it, any nesting depth, every writer",
  "values nest without bound, and a panic can hide in any combination of nil pointers",
  M+":timeMarshal", S+":MarshalFunc", MP+":MarshalFunc", AR+":MarshalFunc", TR+":MarshalFunc", CG+":NewMarshalFunc")
p("Two versions of a type can read each other's documents",
  "If a newer version of a struct type keeps the fields of an older one and adds others (anywhere), then every document the newer version decodes is decoded by the older one when that is not strict, and every document the older version decodes that has nothing for the added fields is decoded by the newer one unless an added field is required and has no default; either way the common fields end up the same, and an added field holds its default or what it held before.",
  "every pair of field lists, every document, every prior receiver",
  "every pair of versions and every document",
  S+":FillFromFunc", S+":ValidatorFunc", F+":ifDefault")
p("The tag strict only rejects unknown members",
  "A strict type and a lenient type with the same fields give the same result, receiver and error on every document without unknown members; what the lenient type accepts is accepted by the strict one exactly when there are no unknown members; encoding, IsZero and Reset are the same for both.",
  "every field list, every document, every receiver",
  "every document",
  S+":ValidatorFunc", S+":FillFromFunc", TG+":StrictRules")
p("Every value of a plain type survives",
  "For types declared from integers, booleans, strings, UUIDs, structs, pointers to those, and slices, maps and fixed arrays of those (with the conditions on tags of the documentation of PlainPackage, all visible in the declarations), every value is encoded without error as valid JSON and decoded back to the same value; different values have different texts; what is decoded back is encoded as the same text; and whatever any text was decoded to can be encoded and survives.",
  "every package of such declarations (recursive types included), every value, every text",
  "every value of every such type, any nesting depth",
  M+":timeMarshal", S+":MarshalFunc", S+":FillFromFunc", X+":sliceExtraction", F+":mapExtraction")
p("Spare slice capacity is invisible to the encoder",
  "Two values that differ only beyond the length of their slices, at any depth, are encoded as the same text or give the same error, are appended to any writer alike and have the same IsZero.",
  "every type, every pair of such values, every writer",
  "values left over by earlier decodes are arbitrary",
  S+":MarshalFunc", MP+":MarshalFunc", AR+":MarshalFunc", AR+":ZeroFunc")
p("A name of another package is looked up in the directory that declares it",
  "When a field inlines a struct of another package of the module and several directories hold packages of that name, the directory found is one whose non-test files declare the name; if exactly one of them does, it is found, wherever it is in the module and in whatever order the directories are listed; a package that no Go file of the module belongs to is reported as an error.",
  "every directory tree, every contents of the packages, every name",
  "every tree and every set of same-named packages",
  DI+"/parser.go:GetPackage", DI+"/parser.go:GetPackagePath", DI+"/parser.go:lookupNames", AN+":exploreInlinedSelector")
p("Types named through an import resolve to the declaration of the imported package",
  "A type pkg.T in a field resolves to the type T that the directory imported as pkg (by its alias, or else the last element of its path) declares at top level outside test packages; imports of other modules are not followed.",
  "every import list, every contents of the imported packages, every name",
  "every combination of aliases and paths",
  "generator/parser.go:ExploreType", "generator/parser.go:Parse", AN+":resolveExternal", DI+"/parser.go:PackagePathFromPath")
p("The generated methods are those of the types written in the source file",
  "For every type whose comment asks for all methods, the methods read and write exactly the fields written in the source file, those of inlined structs included and in order, each with its written type and under the name, options, default and layout its tag text says, and are strict exactly when the comment says so; types with different names are never confused.",
  "every source file, every tag and comment text, every document and value",
  "every file, tag text and document",
  AN+":getNormalized", AN+":processDecl", AN+":collectFields", TG+":Parse", S+":FillFromFunc", S+":MarshalToFunc")
p("Inlining a struct is the same as writing its fields out",
  "A file that inlines structs and the file with the fields of those structs written out in their place generate the same declarations, with methods that do the same on every input; the generator fails on both or on neither.",
  "every pair of such files, any number and depth of inlined structs",
  "nesting of inlined structs is unbounded",
  AN+":collectFields", AN+":exploreInlined", AN+":exploreInlinedIdent", AN+":exploreInlinedSelector")
p("A type's methods depend on nothing but the declarations it needs",
  "The behaviour of the generated methods of a type (decoding, encoding, IsZero, Reset) is determined by its own declaration and those of the types it mentions, directly or through others. Adding, removing, changing or reordering other types of the package, or renaming types consistently, changes nothing; two types with the same declaration behave the same.",
  "every pair of packages, every type, every input",
  "the rest of a package can be anything, and chains of types can be of any length, also recursive",
  H+":DenotedType", F+":TypedValue", FF+":MarshalStatements", S+":FillFromFunc", CG+":resetStmt")
p("Which declarations get methods",
  "For a type made of structs, named types, pointers, slices, arrays, maps, predeclared types, times and UUIDs, decoding, encoding, IsZero and Reset methods that are valid Go are generated exactly when the declaration is in the lists of supported forms: for instance elements of maps are decoded only if they are scalars or have their own method, lists nested three deep are decoded but not encoded, and Reset needs at most six nested slices.",
  "every package without anonymous struct types, every declaration",
  "types nest to any depth and refer to each other",
  F+":TypedValue", F+":fillFieldRef", FF+":MarshalStatements", CG+":resetStmt", MP+":FillFromFunc", AR+":FillFromFunc", TR+":FillFromFunc")
p("What a run of the generator leaves on the disk, also when it is interrupted",
  "However a run ends (normally, killed at any moment, a file operation failing, a panic), every file of the module other than the output file and valyjson_utils.go beside it is unchanged; a run that cannot generate changes nothing at all. A run that ends normally leaves both files complete. A run killed at any moment leaves in each of the two files what was there or a beginning of what was to be written; running again gives the files of an undisturbed run.",
  "every module tree, every source file, every crash point and failing operation, every later run",
  "a run can be cut at any write, and the state on disk depends on where",
  "generator/parser.go:Print", "generator/parser.go:fmtGOFile", "generator/parser.go:Parse", "generator/static/static.go:Print", DI+"/projstruct.go:Discover", "main.go:main")
p("What decoding can change when values share memory",
  "However slices, maps and pointers of the program share memory, and even if pointers form cycles, a decoding call that returns changes only the receiver, the slices (up to their capacity) and maps reached from it through fields, array elements and slice elements, and new memory. It never writes through a pointer and never writes into what a map holds.",
  "every type, every document, every memory with any sharing, every receiver",
  "the shape of the memory is unbounded",
  X+":sliceExtraction", F+":mapExtraction", F+":fillElem", F+":typedRefFillIn", X+":nestedExtraction", MP+":FillFromFunc", AR+":FillFromFunc")
p("Decoding does not depend on where values lie in memory, as long as they share nothing",
  "If no two parts of the receiver share memory, a decoding call returns what it returns for any other such receiver with the same value and leaves the same value in it; afterwards again no two parts share memory; nothing outside the receiver changes, and two receivers that share nothing still share nothing. Decoding itself never creates sharing.",
  "every type, document, value and memory layout without sharing inside the receiver",
  "layouts and values are unbounded",
  X+":sliceExtraction", F+":mapExtraction", F+":typedRefFillIn", FF+":FillStatements", S+":FillFromFunc")
p("Values handed out earlier keep their contents",
  "A copy of a decoded value (assignment, or slices and maps taken from it) keeps its contents when another document is decoded into the same variable.",
  "every type, every two documents, every copy",
  "the second document decides what is overwritten",
  X+":sliceExtraction", F+":mapExtraction", MP+":FillFromFunc", AR+":FillFromFunc")
p("Encoding and IsZero do not depend on sharing",
  "MarshalJSON, MarshalTo and IsZero, called on a value whose parts share memory with each other or with other values, return what they return for a value with the same contents and no sharing, and panic for the same ones.",
  "every type, every memory with any sharing, every value whose pointers form no cycle",
  "the shape of the memory is unbounded",
  S+":MarshalFunc", M+":structMarshal", FF+":MarshalStatements", S+":ZeroFunc", MP+":MarshalFunc", AR+":MarshalFunc")
p("What Reset can change when values share memory",
  "However values share memory, and even if pointers form cycles, a Reset call that returns changes only the receiver and the slice elements and maps reached from it through fields, array elements, slice elements and map entries. It never writes through a pointer. If no two parts of the receiver share memory, it leaves in the receiver the value it leaves for any other layout, again without sharing.",
  "every type, every memory with any sharing, every receiver",
  "the shape of the memory is unbounded",
  S+":ResetFunc", CG+":resetStmt", MP+":ResetFunc", AR+":ResetFunc")
p("Values handed out earlier survive Reset",
  "A copy of a value (assignment, or slices and maps taken from it) keeps its contents when the value it was copied from is reset.",
  "every type, every value, every copy",
  "copies can be anywhere and values have any size",
  S+":ResetFunc", CG+":resetStmt", MP+":ResetFunc", AR+":ResetFunc")
p("Strings are bytes, and survive encoding exactly if they are UTF-8",
  "A JSON text in UTF-8 is decoded as the characters it stands for. Whatever bytes a string field holds, what MarshalJSON writes for it is a JSON string in UTF-8. Reading that back gives the same bytes exactly if they are UTF-8; otherwise every byte at which no character begins has become U+FFFD. Bytes that are not UTF-8 are accepted inside the string literals of a document, and kept. A document of any bytes is accepted exactly if it is with those bytes replaced by U+FFFD, and is the same document up to that.",
  "every sequence of bytes",
  "there are infinitely many byte sequences, valid and not",
  S+":UnmarshalFunc", S+":MarshalFunc", FF+":MarshalStatements", "go.mod:github.com/valyala/fastjson", "go.mod:github.com/mailru/easyjson")
p("Damaged output is never misread",
  "If the written floats of a value are finite and what MarshalJSON returns for it is not JSON, then UnmarshalJSON of every type refuses that text with the error of the parser and leaves its receiver as it was. So a text that came from MarshalJSON and that UnmarshalJSON accepts is JSON.",
  "every type, every value of the type at every depth, every decoding type, every receiver",
  "the damage can be anywhere in a document of any size, and the parser accepts more than JSON",
  S+":MarshalFunc", M+":structMarshal", FF+":MarshalStatements", S+":UnmarshalFunc", "go.mod:github.com/valyala/fastjson")
p("How deep a value may be to come back",
  "A JSON text is refused by every UnmarshalJSON, without touching the receiver, exactly when it is nested more than 300 deep. MarshalJSON has no such limit: a value that can be encoded and decoded comes back exactly when its document is at most 300 deep. Documents of types whose declarations do not refer to themselves are never deeper than the declarations are, so for such types every value comes back; a linked list of more than 300 nodes is written without error and cannot be read.",
  "every JSON text, every type, every value of it at every depth, every receiver",
  "values of recursive types are unboundedly deep, and the limit is in one of the two directions only",
  S+":UnmarshalFunc", S+":MarshalFunc", "go.mod:github.com/valyala/fastjson")
p("Documents about different members can be applied one after the other",
  "For a struct type, with the structs embedded by value in it, in which no field is required or has a default: decoding documents that have no member in common one after the other into the same receiver succeeds exactly if decoding the one document with all their members succeeds, and leaves the same value. So the order of the documents does not matter. (Not so with defaults, which come back with every document, nor with embedded pointers, which are made anew.)",
  "every such type, every number of documents, every order, every receiver",
  "there are infinitely many documents, and histories of any length",
  S+":FillFromFunc", S+":ValidatorFunc", FF+":FillStatements")
p("The tag strict looks at one struct only",
  "A strict struct that embeds another struct refuses every document with a member of the embedded struct, so that it refuses what it has itself written unless the embedded value is zero. A struct that embeds a strict struct refuses every document with a member that is not one of the strict struct, so that it refuses what it has itself written as soon as one of its own fields is written.",
  "every such pair of declarations, every document, every value, every receiver",
  "every document has to be refused, and every value that is written",
  S+":ValidatorFunc", S+":FillFromFunc", FF+":FillStatements")
p("Fields that share a JSON name",
  "Fields declared together under one tag read the same member: if they held the same value before a successful decode they hold the same value after it. When two fields with one JSON name are both written, the object has two members of this name, and the decoder of the same type refuses it and leaves the receiver as it was.",
  "every struct type, every pair of fields with one name, every document, every value, every receiver",
  "every value that is written, and every document",
  S+":fillFieldStmts", S+":jsonFieldStmts", S+":ValidatorFunc")
p("The generator accepts a file or refuses it, and comes to an end",
  "The generator produces code for a file exactly when methods can be made for every type at which a comment with tags stands (and for the untagged element types of its slices); otherwise it produces nothing. It comes to an end on every file, unless named slice types or inlined structs refer to themselves without end.",
  "every file, every set of packages, any depth of slices and inlining",
  "a run that hangs cannot be told from a slow one, and the files are without number",
  "generator/analyse.go:processDecl", "generator/analyse.go:collectFields", "generator/analyse.go:getNormalized")
p("When encoding fails, and what the error says",
  "With hand-written encoders that do not fail, MarshalJSON and MarshalTo fail exactly when, in what they have to write, there is a time of a type declared as time.Time that has no text (a year of more than four digits). The error names the way to the first of these times in the order of the document: fields by JSON name, items by list and index, members by map and key.",
  "every package, every type, every value of any size and depth, every writer",
  "the value can be wrong at any place at any depth, at several places at once",
  M+":structMarshal", "generator/codegen/transit.go:MarshalToFunc", S+":MarshalToFunc", FF+":GetValueExtractor")
p("Concurrent encodes do not influence one another",
  "When any number of goroutines encode values of any generated types at the same time, also the same value, each call of MarshalJSON ends with the bytes or the error it would have had alone, under every interleaving. The bytes it returned stay as they are afterwards, whatever other calls do and whatever other callers write to the bytes they got. No call has to wait for another.",
  "every number of calls, every schedule, every reuse pattern of pooled buffers, everything the callers do with their results",
  "interleavings cannot be enumerated by tests, and reuse depends on the scheduler",
  "generator/codegen/codegen.go:NewMarshalFunc", S+":MarshalToFunc")
p("A document cannot make the decoder build much more than it contains",
  "For every package there is a number, fixed by its types alone, such that decoding adds to the receiver at most that many variables, map entries, characters and bytes for each character of the text, whatever the text, whatever the receiver held before, and whether or not the decode succeeds.",
  "every package, every type, every text, every receiver, every outcome",
  "the worst case is over all texts of all lengths, and the factor must not depend on them",
  FF+":TypedValue", FF+":FillStatements", S+":FillFromFunc", "generator/codegen/array.go:FillFromFunc", "generator/codegen/map.go:FillFromFunc")
p("Calls on variables that share no memory can be made in any order",
  "Take any number of variables, or elements of one array, or fields of one struct, that share no memory, and any program of UnmarshalJSON, FillFromJSON, MarshalJSON, IsZero and Reset calls on them. Every call returns what it would return, and every variable ends up with the value it would have, if only the calls on that variable had been made. So any two ways to interleave the calls give the same answers and the same values, and the variables share no memory afterwards.",
  "any number of variables, every memory, every history of calls of any length, every interleaving",
  "histories and interleavings cannot be enumerated, and storage is reused from call to call",
  "generator/codegen/codegen.go:NewUnmarshalFunc", S+":FillFromFunc", S+":ResetFunc", FF+":FillStatements")
p("Encoded text is at most a constant factor larger than the value",
  "For every package there is a number, fixed by its types and by how long floats and times are when written, such that MarshalJSON and MarshalTo write at most that many characters for each variable, map entry, character and byte of the value, slices counted up to their length, whatever the value, whatever the buffer held before, and whether or not the call succeeds.",
  "every package, every type, every value of any size and depth, every buffer",
  "the worst case is over all values of all sizes, and the factor must not depend on them",
  M+":structMarshal", "generator/codegen/transit.go:MarshalToFunc", S+":MarshalToFunc", FF+":GetValueExtractor")
p("A copy made through JSON is a deep copy",
  "A variable that a text is decoded into for the first time shares no memory with anything that existed before, and neither do any two parts of it, whatever the text and whatever the outcome. So encoding a value of a type whose values survive, or any value that survives, and decoding the text into a new variable makes an equal value that is independent of the original: parts that the original shares are separate in the copy, and no calls on the copy can change the original.",
  "every type, every memory with any sharing between parts of values, every text, every later history of calls on the copy",
  "the ways in which values share memory and the histories are without number",
  "generator/codegen/codegen.go:NewUnmarshalFunc", "generator/codegen/codegen.go:NewMarshalFunc", S+":FillFromFunc", FF+":TypedValue")
p("Layout and the order of members do not matter, at any depth",
  "Two texts that differ only in white space and in how characters are escaped have exactly the same effect. If they differ also in the order of the members of objects, at any depth, and no key is repeated, then either both are accepted or neither, and after acceptance the receivers have the same contents, whatever they held before. Types with slices of maps are excepted: there the code loses errors, and which members were read before the lost error depends on their order.",
  "every package, every type, every pair of such texts, every previous contents of the receiver",
  "the number of orders grows with the factorial of the number of members, at every level of the document",
  FF+":TypedValue", S+":FillFromFunc", S+":ValidateFunc", "generator/codegen/map.go:FillFromFunc")
p("The message of a decode error names the place of the error",
  "When decoding fails, a reader of the message of the error finds in it the JSON path of a part of the document that is wrong for the type expected there. For a repeated key, an unknown key and a missing required member the message has a fixed text with the key in it.",
  "every package, every type, every document and text, every previous contents of the receiver",
  "places are at any depth, and every error is passed up through every level, each of which adds to the message",
  "generator/static/tpl/valyjson_utils.go.tpl:newParsingError", S+":ValidateFunc", S+":FillFromFunc", FF+":TypedValue")
p("The cause of an encode error can be found through the error",
  "When MarshalJSON fails inside a value, the error it returns leads back (errors.Is) to the error of the part that has no text, and its message is the messages for the places passed, from the outside in, and then the message of that error.",
  "every package, every type, every value that cannot be written, at any depth",
  "the chain of errors has one link for every level of the value, and the texts of the links are made from any JSON names and map keys",
  "generator/codegen/field/marshalers.go:structMarshal", "generator/codegen/field/fields.go:FieldFactory", "generator/codegen/map.go:MarshalFunc")
p("The order in which maps are walked does not show in the generated code",
  "go/parser keeps packages and files in maps, which Go walks in a new random order every time. Whatever these orders are, the generator looks for a package in the same directory, refuses the file or accepts it, and gives the types the same methods; the decoders and the encoders, which are generated in two passes, are for the same fields.",
  "every module, every source file, every order of packages and of files in every walk",
  "the order is chosen at random in every run, and the number of orders grows with the factorial of the number of files",
  "generator/parser.go:ExploreType", "generator/discoverer/parser.go:lookupNames", "generator/discoverer/parser.go:GetPackage", "generator/analyse.go:exploreInlinedSelector")
p("The module of a source file does not depend on how its path is written",
  "Started for a source file, from any working directory and with the path of the file written in any way (absolute or relative, with dots, double slashes and ..), the generator takes for the module root the nearest directory at or above the file's own that has a go.mod file; if there is none, or it cannot be read, it panics. The search always ends.",
  "every path text, every working directory, every placement of go.mod files and of files that cannot be read",
  "paths are texts of any length, and the same file has infinitely many of them",
  "generator/discoverer/projstruct.go:discoveryModFile", "generator/discoverer/projstruct.go:New", "generator/parser.go:New")
p("Which texts a time field takes, and which instants they name",
  "A time field without a layout tag takes a text if and only if it is a date of the Gregorian calendar (written 2006-01-02T, 2006-01-02 or 02.01.2006), a clock time, perhaps a fraction of a second after a point or comma, and a zone (Z or a signed offset in hours and minutes); the field then holds exactly the instant and the offset that these name, to the nanosecond. Dates that do not exist are refused.",
  "every text, every date from the year 0 to the year 9999, every fraction and offset, every previous contents of the field",
  "there are about 10^20 instants and any number of texts; leap years and the ends of months depend on the date",
  "generator/static/tpl/valyjson_utils.go.tpl:parseDateTime", "generator/codegen/field/extractors.go:timeExtraction", "generator/codegen/field/extractors.go:timeExtractionUnify")
p("A time comes back as the same instant",
  "A time in a field without a layout tag is written so that decoding the output gives the same instant, to the nanosecond, with the same offset from UTC.",
  "every time value: every date, clock time, fraction and offset",
  "the claim is about every one of about 10^20 instants in every zone",
  "generator/static/tpl/valyjson_utils.go.tpl:writeTime", "generator/static/tpl/valyjson_utils.go.tpl:parseDateTime", "generator/codegen/field/marshalers.go:timeMarshal")
p("A time with a layout tag comes back as what the layout shows of it",
  "With a layout tag, what is written is read back as the time that has the parts the layout shows (year, month, day, hour, minute, second, fraction, offset in minutes) and the first of January of the year 0, midnight and UTC for those it does not; reading and writing that again changes nothing.",
  "every layout made of these elements and other characters, every time",
  "there are infinitely many layouts, and whether an element is read to the right end depends on what follows it",
  "generator/codegen/field/marshalers.go:timeMarshal", "generator/codegen/field/extractors.go:timeExtraction", "generator/codegen/field/extractors.go:timeExtractionUnify")
p("Every value of a plain type with times and floats survives, if its times and floats do",
  "For types built from integers, booleans, strings, UUIDs, floats, times in the default layout, structs, pointers, slices, maps and arrays as in C49: a value whose times have a year from 0 to 9999 and an offset of whole minutes (the zero instant being in UTC), and whose floats are read back from their own text, is encoded without error as valid JSON and read back unchanged into a new variable; two different such values never have the same text; what was read back is written as the same text again.",
  "every package of such types, every such value of any size, every such time and float in it",
  "there are infinitely many types and values, and one time or float anywhere in a value can spoil the whole of it",
  "generator/codegen/field/marshalers.go:timeMarshal", "generator/codegen/field/marshalers.go:floatMarshal", "generator/static/tpl/valyjson_utils.go.tpl:writeTime", "generator/static/tpl/valyjson_utils.go.tpl:parseDateTime", "generator/codegen/struct.go:MarshalFunc")
p("Numbers are read as the nearest float, and floats come back",
  "A number in the document is read into a float64 as the float nearest to it (an infinity if it is beyond them all), with its sign; a finite float is written as a JSON number that is nearer to it than to any other float, and decoding the output gives the same float.",
  "every JSON number text, of any length and with any exponent; every finite float64",
  "there are 2^64 floats and infinitely many number texts; a reading that rounds twice is wrong for a few of them only",
  "generator/codegen/field/extractors.go:floatExtraction", "generator/codegen/field/marshalers.go:floatMarshal")
if __name__=="__main__":
    with open("/verif/properties.jsonl","w") as f:
        for q in P: f.write(json.dumps(q)+"\n")
    print(len(P))
