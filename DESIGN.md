# Formal model of valyjson — design

valyjson is a code generator: it reads Go type declarations and emits, for every
tagged type, `UnmarshalJSON` / `FillFromJSON` / `validate` and `MarshalJSON` /
`MarshalTo` / `IsZero` / `Reset`.  What a user relies on is the behaviour of the
*emitted* methods, for every declaration the generator accepts.  The model
therefore has two layers, mirroring the code:

1. **Generator layer** (`Verif/Model/Gen*.lean`): total Lean functions, one per Go
   function of `generator/codegen/**`, that turn a type declaration into a small
   intermediate representation (IR).  One IR constructor stands for one statement
   template emitted by the Go code (`intExtraction`, `sliceExtraction`,
   `refStructMarshal`, ...).  Where the Go generator panics, or is known to emit
   code that does not compile, the function returns `none`.
2. **Run-time layer** (`Verif/Model/Run*.lean`): the meaning of each template, i.e.
   what the emitted Go statements do to the receiver, the `err` variable, the
   `wantComma` variable and the output buffer.  Method calls between generated
   types go through a method table, tied by a fuel index (`fuel` bounds only the
   depth of *method calls*; every theorem quantifies over all fuels, and running
   out of fuel is a separate outcome `loop`, never a default value).

Every definition carries a comment with the file and lines it models and what it
simplifies.  Specifications live in `Verif/Spec/*.lean` and do not mention the
model's helpers.  Property theorems live in `Verif/Props/*.lean`, each followed by
an `example` showing a concrete non-trivial instance of its hypotheses.

## Values and outcomes

* JSON documents: `JV`, objects are *ordered lists* of members (duplicates kept),
  numbers are raw tokens, as in fastjson.
* Go values: `GoVal`, trees.  A slice is `nil`, or (elements, spare): `spare` holds
  the stale contents of the backing array between len and cap, because generated
  code re-slices into it.  A pointer is nil or a value.  A map is nil or an
  association list; theorems quantify over all lists, hence over all iteration
  orders.  Aliasing is modelled where the emitted code creates it: `valX := s.X`
  (slice header copy, shared backing array) and `&s.X` (in-place fill).  `Model/Heap` runs the same
  code on a memory with addresses, and C59 says when the two agree.
* `FillFromJSON` returns the *new receiver and* an optional error, so what a failing
  decode leaves behind is visible.
* Outcomes: `ok`, `panic` (the emitted code panics), `loop` (fuel exhausted),
  `unsupp` (no code is generated / it does not compile / not modelled).

## Trusted base

* Lean 4.33.0's kernel.  No axiom is added, there is no `sorry`, no `native_decide` and no
  `bv_decide`; the theorems use at most `propext`, `Classical.choice` and `Quot.sound` (which
  theorem uses which: last section, produced by `tools/mkaxioms.py`).
* The reading of the Go code into the model; every definition cites the file and lines it
  models, so that a reader can check it.
* Third-party behaviour, written down as definitions because the sources are not in the
  repository: fastjson (parser, `Get`, `Visit`, `Int`, `Uint`, `StringBytes`, ...; `Model/Parser`,
  `Model/Json`), easyjson `jwriter.Writer` (`Model/Writer`), `encoding/base64` StdEncoding and
  `google/uuid` (`Model/Codec`), `reflect.StructTag.Get` and `strconv.Unquote` (`Model/Tags`),
  `sync.Pool` (`Model/Pool`: `Get` hands out a pooled parser at most once at a time, or a new one)
  and the chunks of easyjson's `buffer.Buffer` (`Model/Buffers`).
* Abstract parameters (`class Ext`): IEEE float parsing and printing, `time.Parse`, `Time.Format`,
  `Time.MarshalText`.  Theorems that need anything about them say so as an explicit hypothesis (for
  example that floats are printed as JSON numbers).  The functions of package time are modelled
  besides (`Model/TimeText`, after the documentation of go1.20) for layouts of the elements `2006`, `01`, `02`, `15`,
  `04`, `05`, `.999999999`, `Z07:00` and other characters; C82, C83 and C84 assume that the
  parameters are these (`GoTimes`).  Floats are modelled besides as well (`Model/Floats`: the arithmetic of IEEE 754 binary64 with
  rounding to nearest even, `fastfloat.Parse` of fastjson v1.6.4, `math.Pow10`, and the shortest text of `strconv.AppendFloat`
  with the format 'g'; all written down from memory, as neither source is here to check it against); only C86 assumes that the parameters are these (`GoFloats`).
* Go strings are sequences of Unicode scalar values (`List Char`), except in `Model/Bytes`, where the
  parser and the string writer are modelled again on bytes and proved to do the same on UTF-8 (C64).
  Elsewhere strings that are not valid UTF-8 are outside the model.  `int` is 64 bits.

## What is modelled and what is not

| Go code | Lean module |
|---|---|
| `generator/codegen/helpers/*.go`, `field/fields.go` (factory) | `Model/GenCommon` |
| `field/fill.go`, `field/extractors.go`, `field/byteslice.go`, `struct.go`, `map.go`, `array.go`, `byteslice.go`, `transit.go` (decoding) | `Model/GenFill` (choice of templates), `Model/RunFill` (what they do) |
| the same files (encoding, `IsZero`, `Reset`), `field/marshal.go`, `field/marshalers.go`, `codegen.go` | `Model/GenMarshal`, `Model/RunMarshal` |
| calls between generated methods | `Model/Methods` (`Env.methods`) |
| the decoding code again, on a memory with addresses | `Model/Heap` |
| encoding, `IsZero` and `Reset` again, on a memory with addresses | `Model/HeapEnc`, `Model/HeapReset` |
| calls between generated methods, on a memory with addresses | `Model/HeapMethods` (`Env.hmethods`), `Model/HeapText` (`UnmarshalJSON`) |
| `static/tpl/valyjson_utils.go.tpl` (`newParsingError`, `parseDateTime`, `writeTime`, `unpackObject`, `valueIsNotNull`) | `Model/Json`, `Model/Codec`, `Model/RunMarshal`, `Model/Writer`, `Model/RunFill` |
| fastjson `ParseBytes`, `jwriter.Writer.String` on bytes | `Model/Bytes` |
| package time, as `parseDateTime`, `writeTime` and the code for layout tags use it: `Parse`, `AppendFormat`, `MarshalText` | `Model/TimeText` |
| float64: `fastfloat.Parse`, `strconv.ParseFloat`, `math.Pow10`, `strconv.AppendFloat` as `floatExtraction` and `floatMarshal` use them | `Model/Floats` |
| `codegen.go` `UnmarshalJSON`, `MarshalJSON` | `Model/Parser` (`unmarshalJSON`), `Model/RunMarshal` (`marshalJSON`) |
| parser pools (`codegen.go`, `fastjson.ParserPool`) | `Model/Pool`, small-step, any number of calls |
| `MarshalJSON` and the buffers of easyjson (`codegen.go:66-98`, `buffer.Buffer`) | `Model/Buffers`, small-step, any number of calls |
| `generator/codegen/tags/*.go` | `Model/Tags` |
| Go's string and integer literals, `strconv.Unquote` (texts of tags) | `Model/GoText` |
| `generator/discoverer/projstruct.go` | `Model/Discover` (directories as lists of names), `Model/Paths` (the search for go.mod on texts, with `path.Clean`, `Dir` and `Join`) |
| `generator/discoverer/parser.go`, imports in `generator/parser.go` | `Model/Lookup` |
| `generator/parser.go`, `analyse.go`, inlining | `Model/Front` |
| renderers and tag texts to declarations (`field/fields.go` `FieldFactory`, `struct.go`, `helpers`) | `Model/Link` |
| the texts of errors: `newParsingError` and `Error` in the static template, the `fmt.Errorf` calls in `field/marshalers.go`, `field/fields.go`, `codegen/map.go`, `codegen/array.go` | `Model/ErrorText` (`fmt.Errorf` for formats of text and one-letter verbs, `%w` wraps) |
| `Print`, `fmtGOFile` in `generator/parser.go`, `static/static.go`, the order of steps in `main.go` | `Model/Output`, with crashes and failing operations |

**How the model was compared with the code.**  An IR constructor stands for a statement template.
`Model/Emit` writes the templates out as Go, and `tools/conform.py` (21 seconds, no network) reads
the source of every package in /repo for which generated code is checked in (test/race,
test/tests/fill, test/vjson, benchmark), runs the model's own front end, linker and generator on
it, and compares the text with the checked-in file, function by function and in order, after
removing white space and comments.  All 638 functions of 19 files agree.  This is evidence, not a proof: it says that
the generator part of the model chooses the templates the program chooses on those inputs; what the
templates *do* is the hand-written semantics in `Model/RunFill` and `Model/RunMarshal`.  The comparison
found one error in the model, since corrected (elements of a named string type inside nested slices and pointers
were taken to be refused).

`tools/runtests.py` (six minutes) does the same for what the templates do.  It reads the unit tests of
/repo (test/tests/fill, test/vjson, test/race) as text, interprets the Go of the test functions, and has
every call of `UnmarshalJSON`, `MarshalJSON`, `IsZero` and `Reset` answered by the model: source file,
front end, linker, generator, run semantics, JSON parser, with real floats and times for the external
functions.  Of 402 tests 373 run, with 973 assertions on values, error messages with their paths, and
encoded text, and all hold.  The other 29 use goroutines, allocation counts, function literals, parser
pools or types with hand-written methods, which the interpreter does not have.

Not modelled: the rendering of Go source text as far as theorems go (`Model/Output` takes the text, its formatting and the reading of package clauses as parameters); output to another directory than the source's; the command line; interfaces, channels, functions and anonymous
struct types as fields; generic types; maps with keys other than strings; fields of types without generated methods, or with half of
them, in linked files (`link` says `unsupp`); fields of a type of another package of the module that is not a struct, and slices and arrays
named for elements of a type of such a package (`link` says `unsupp`); the texts of errors made by other packages (fastjson, strconv, time): `Model/ErrorText` has those the generated code makes.
Where the emitted code would not compile the model says `unsupp`, and no theorem speaks of it.

## Specifications

`Spec/*.lean` do not mention the model's helpers.  `Spec/Api` turns the fuel-indexed runs into
relations (`Fills`, `Marshals`, `IsZeroIs`, `ResetsTo`, ...: "for some fuel"), which are shown to be
functional (`Props/Determinism`).  The other files say what JSON text is (`JsonText`, `LooseText`),
what a type's values are (`Typing`), which documents decode to which value (`Fields`, `Decode`),
what a value's text is (`Encode`, `EncodeTotal`, `EncodeError`, `Append`, `Order`), the codecs (`Codecs`), zero
values (`Zero`), what survives a round trip (`RoundTrip`), Reset and leftovers (`Reset`), where errors
point (`Errors`), names of other types (`Named`), decoding again (`Repeat`), tags, comments, inlining
and directories (`Tags`, `Front`, `Ends`, `Discover`, `Lookup`), files on disk (`Output`).

## Properties, what is modelled, how it is proved

The state of each (proved, partial, with which theorems) is in MANIFEST.json.

* **C01 Which documents a struct decoder accepts at its top level** — `validate` scan modelled with its counters; proved equivalent to a declarative condition on the key list, by induction on the members generalised over the counters.
* **C02 A rejected document shape leaves the receiver untouched** — struct fill modelled as validate-then-fields; case split; on text, the parser is proved to accept exactly an independent grammar (induction on the recursion and on the grammar).
* **C03 Member order does not matter** — first-match lookup is invariant under permutation of a duplicate-free member list; validate equivalence from C01; fold congruence over fields.
* **C04 Unknown members have no effect on a lenient type** — lookup ignores non-field members; validate by C01.
* **C05 Each field is decoded from its own member only** — struct fill as a fold over fields where each step reads only its member and its slot; induction over the field list.
* **C06 Defaults, required and absent members** — generator's `ifDefault` + emitted if/else; case analysis over tags and presence; string defaults against Go's string literals (`Spec/GoText`), FALSE for texts with backslashes: witness.
* **C07 What an explicit null does** — generator's nullable flag + emitted condition; case analysis.
* **C08 Decoded integers equal the number in the document** — fastjson Int/Uint + emitted upper bound check + conversion; the claim is FALSE below the minimum (no lower bound check): proved negation by witness, `_partial` with the exact acceptance condition.
* **C09 Integers inside slices, maps, fixed arrays and named types are range checked too** — element templates carry no check at all: negation by witness, `_partial` exact characterisation (value modulo the width).
* **C10 A decoded slice mirrors the JSON array** — slice template run over elements/spare lists; induction over the JSON array.
* **C11 Reusing slice storage never writes outside it** — `panic` is an explicit outcome of re-slicing past spare; invariant length(spare) >= remaining.
* **C12 No stale data survives from the previous decode** — in-place element fill; FALSE: witness; partial for element types that are replaced.
* **C13 Reset makes a receiver as good as new** — Reset modelled; state machine over histories; invariant 'spare storage is clean' for histories of successful decodes each followed by Reset; FALSE after a failed decode: witness.
* **C14 Fixed-length arrays accept exactly their length** — array template; case split and induction.
* **C15 A decoded map has the document's members** — Visit fold over members; induction, against a declarative last-wins lookup.
* **C16 Decode errors are never swallowed** — err scoping in the emitted loop (`b, err :=` shadows): FALSE for []time.Time: witness; partial for all other element kinds by induction. For slices and arrays of times, UUIDs and pointers to them the result of a decode is characterised exactly (Props/Cut.lean): `Cut` walks the members and the storage together. For slices of maps Props/CutMaps.lean says what a decode that reports success leaves.
* **C17 Error paths name the failing place** — newParsingError algebra + per-template path lemmas; FALSE for string elements: witness; partial. For all types (induction on the templates, no condition but no anonymous structs): the cause is that of a part of the document, and the path is an abridged form of the way to it.
* **C18 A failing decode changes a prefix of the fields only** — fold over fields with early return; induction.
* **C19 A named type behaves as the type it is defined from** — Transitive template; equality of runs.
* **C20 Decoding never panics** — `panic` outcome; FALSE for fixed byte arrays: witness. Every outcome: induction over the IR, for all kinds; the
  only panic is too long a base64 text at a fixed byte array (`Overflows`, Spec/Typing.lean, follows the type down the document).
* **C21 The output of the encoder is JSON** — writer buffer as text, wantComma as state; FALSE for a nil pointer before another member: witness; partial: invariant 'wantComma iff a member was written' by induction over fields, output related to a JSON grammar. The exact condition (`C21_exact`): JSON if and only if no struct that is written lacks a comma after nil pointers, no embedded struct contributes an empty object and no float that is written is NaN or infinite. The converse by a small automaton that accepts every JSON text (`Proof/Lexer.lean`) and rejects the text of every such value.
* **C22 The encoded object has exactly the right members** — as C21, with the list of members the text denotes. Stated for every value: if the output is JSON at all (C21 says exactly when), it is this object (Props/IfJson).
* **C23 omitempty drops zero values and nothing else** — WriteBlock conditions evaluated per kind; iff per kind; FALSE for UUID, fixed arrays, empty non-nil collections: witnesses.
* **C24 Nil encodes as null** — method templates on nil receiver and nil values; FALSE for *time.Time: witness.
* **C25 Encoding appends and depends on nothing already written** — writer homomorphism: run on (pre ++ buf) = pre ++ run on buf, by induction over IR.
* **C26 Map iteration order cannot change the meaning of the output** — map range over any permutation of the association list; permutation of members.
* **C27 String escaping is lossless and safe** — jwriter.String and the fastjson unescape modelled on character lists; induction.
* **C28 Integers survive encode and decode** — decimal printing/parsing; induction on digits.
* **C29 Binary fields survive encode and decode** — base64 encode/decode modelled; induction by triples.
* **C30 UUID fields survive encode and decode** — uuid text format and parser modelled; bytewise hex lemma.
* **C31 Whole values survive encode and decode** — composition of C21/C22/C27/C28 with decode templates; partial: restricted value fragment, negations for nil named slices, nil *time.Time etc.
* **C32 Fields tagged json:"-" never leave the process** — generator skips '-' in FillStatements but not in MarshalStatements: FALSE on output: witness; partial: decode half.
* **C33 Embedded structs are spliced into the parent object** — unpackObject + Raw; partial; witness for the empty splice.
* **C34 IsZero tells exactly whether the value is zero** — IsZero templates against declarative zero values; witnesses for fixed arrays.
* **C35 After Reset the value is zero** — Reset templates; witnesses (named map keeps keys, non-nil empty slices); partial.
* **C36 Concurrent decodes do not influence one another** — goroutines as a state machine over a pool of parsers with arenas; invariant; simulation to sequential runs.
* **C37 A parser is returned to the pool at most once and never while in use** — same machine; ownership invariant.
* **C38 Field tags are read as Go reads them** — reflect.StructTag.Get and strings.Split modelled; round-trip from rendered tags.
* **C39 Comment tags select what is generated** — extractTags/processDecl/BuildDecoders modelled; induction over declarations.
  `C39_exact` is for every file: the first comment with tags that stands at a type or hands its tags on to it decides
  (`Chosen` in `Spec/Front`); C53 uses the same choice.
* **C40 Inlined structs are flattened without loss** — collectFields modelled with the declaration list; induction over inlining depth.
* **C41 Error wrapping composes paths and keeps the cause** — newParsingError modelled; algebra.
* **C42 Date-times are accepted in the documented layouts only, first match wins** — parseDateTime modelled over an arbitrary layout parser; list search lemma.
* **C43 Nested decoding is compositional** — nested templates: result and cause equal the nested method's.
* **C44 Decoding a document twice changes nothing more** — fill twice; proved for every type by induction over the templates (overwriting laws of slices, maps and fields).
* **C45 Module discovery finds every package directory once** — directory trees as an inductive type; induction.
* **C46 Encoding returns** — totality of the encoder by induction over types and fuel; FALSE for a nil *uuid.UUID
  in a field that is written (panic): that this is the only reason, and always one, is `C46_panics_exactly`.
* **C47 Two versions of a type** — two declarations related by a position map (Spec/Evolve.lean); the statements of a common field are the
  same in both, so the runs are matched field by field.
* **C48 strict** — two declarations that differ in the flag only; the checks agree on documents whose keys are all known.
* **C49 Plain types** — a condition on declarations (Spec/Plain.lean) from which the hypotheses of C20, C31 and C46 on values follow, by
  induction on the parts of a value.
* **C50 Spare capacity** — the encoder and IsZero run on a value and on the same value without spare capacity are equal; induction over IR and fuel.
* **C51 Package lookup** — directories from C45, their parsed packages as a parameter; list search; FALSE for names declared inside
  functions: witness.
* **C52 Imports** — import table and directory of an import on texts; list search.  False for the module's root package (finding 43) and
  for modules whose path starts with the letters of this one.
* **C53 From source to methods** — `Model/Link` turns renderers, type expressions and tag texts into the
  declarations of the core; soundness against `Spec/Link` (types, tags, fields as written), composed with
  the exact description of struct decoding and with C22.  That structs found in other packages give the same code as types
  not found (`C53_found_struct`): case analysis of the generator.
* **C54 Inlining = writing out** — simulation of the front end on the two files (same renderers, hence the
  same declarations), using uniqueness of flattening.
* **C55 A type's methods depend on nothing but the declarations it needs** — the generator is run on two packages in parallel: related names give
  output that is the same up to related names (a logical relation over every intermediate representation), and running that gives equal results;
  induction on the nesting of calls.

* **C56 Which declarations get methods** — the forms are listed in `Spec/Support.lean` by what is written in the declarations;
  case analysis on what a type expression resolves to, induction on fuel (only if) and on the listed forms (if). "Has a decoder"
  means: code is generated and is valid Go, provided the methods it calls on other types exist.
* **C57 What a run leaves on the disk** — the disk is a tree of files; `Print` is a sequence of writes, one character at a time, that can be cut
  anywhere, with the deferred formatter running after a failure; induction on the sequence for what is read afterwards. For the second run: the
  generated files add nothing to discovery once the source file of the same package has been seen (induction on the listing and on the path).
* **C58 What decoding can change when values share memory** — a set of cells and maps that contains the receiver, all new objects, and with a
  cell also the slices and maps in it; every statement keeps it closed and changes nothing else; induction on templates, loops and calls.
* **C59 Trees and memory** — `Rep` says which tree a value in memory stands for and in which objects it is kept; a simulation between
  `Model/RunFill` and `Model/Heap`, statement by statement, with the objects of the receiver without duplicates.
* **C60 Copies** — corollaries of C58, and the two counterexamples.
* **C61 Encoding and sharing** — the writers in `Model/HeapEnc` give, on any value that stands for a tree (`Rep`, sharing allowed), what the
  writers on trees give on that tree; induction on templates and calls.  Cyclic values stand for no tree; for rings of pointers of any
  length non-termination is proved.
* **C62 Reset and sharing** — as C58 for the frame (`ClearTouches`: like `Touches`, but slices only up to their length, and what a map holds);
  as C59 for the simulation.
* **C63 Copies and Reset** — corollary of C62, and the three counterexamples.
* **C64 Bytes** — `Model/Bytes`: `utf8.DecodeRune`, the loop of `jwriter.Writer.String` and fastjson's parser on `List UInt8`.  UTF-8 itself is
  Lean's `String.utf8EncodeChar`.  Each parser function is shown to commute with `utf8` by induction; decoding a rune is shown to be the
  inverse of encoding, so that what is written for any bytes is the text of the `Mended` string.
* **C65 Damaged output is refused** — the automaton of `Proof/Lexer`, which never rejects JSON and rejects every text with a misplaced
  comma, has a second setting in which it does not mind the words NaN and Inf; `Proof/LexLoose` shows that it then accepts whatever the
  parser accepts (`LooseDocument`).  The induction over values of C21 is done for both settings at once.
* **C66 Depth** — a JSON text has one reading only (the parser run with enough depth gives it), so that the limit of the parser is the only
  reason to refuse JSON.  The bound of a type (`Nests`, `Spec/Deep`) is carried through `Enc` by induction.  The witness is a list of any
  length above 300, not one list.
* **C67 Successive documents** — the emitted statements of a field either read the member or do nothing; a run on the joined object splits
  into two runs field by field, by induction on the fields and, for embedded structs, on the depth of calls.

* **C68 strict and embedding** — from C01 (the object check) on the same object for both structs, C33 (embedded structs read the parent's
  object) and C22 (what is written).
* **C69 one JSON name for several fields** — reading: the same statements are run for both fields (induction on the field list is in
  `runFields_ok`).  Writing: C22 gives both members; C01 then refuses the object.
* **C70 accepted or refused, and no hanging** — `Feasible` and the endless chains are in `Spec/Ends`; induction on the bound one way, on
  `Feasible` the other way; the end by induction on accessibility (no endless chain) with a bound for each of the finitely many fields.
* **C71 encoding errors** — `Spec/EncodeError` defines the places of times without text and their names; one invariant of a write (`Tells`:
  quiet if there is no such place, else the error of the first one), kept by every statement, induction on the bound. Partial: an error inside
  an embedded struct is named after the wrong field (`C71_wrong_place`).
* **C72 concurrent encodes** — `Model/Buffers`: every call of `MarshalJSON` as a program of small steps over the chunks of its writer and the
  pool they share, callers that overwrite their results included; ownership invariant (every chunk has at most one owner; what a call has
  written so far and what it has still to write make up its text), kept by every step.
* **C73 size of decoded values** — `Spec/Growth` counts the variables, entries, characters and bytes of a value and of a document; `ReadOnce` asks
  that the package is finite, that embedded fields are structs (or pointers to structs) of it, and that no key is read twice.  Invariant over the
  emitted code (`Proof/Growth`): every template leaves at most `max(old, Z) + Z + K·(document − 1)`, structs at most `old + D + K·(members they
  read)`; the constants come from the zero values and defaults of the finitely many declarations.  Texts: a document is at most twice its text.
  Without `ReadOnce`: a recursive type with two fields of one name, by induction on the depth of the document.
* **C74 calls on many variables** — `Spec/Calls`: programs as lists of calls with their answers on any family of variables (elements of one array
  and fields of one struct included) that own trees in disjoint parts of one memory; each call agrees with the call on the tree (C59, C61, C62)
  and leaves the other variables alone; induction on the program, in both directions, and determinism of the calls on trees.
* **C75 size of encoded text** — `Spec/EncodedSize`: `Short B v` (64-bit integers, floats and times with bounded texts), `Finite Γ B`. The
  invariant, for all templates of `runMarshal`, is that a call adds fewer than K characters for each unit of the value, with K above what keys,
  commas, brackets and layouts of any one struct add up to; K exists because there are finitely many declarations. Then induction on the calls.
  `C75_shared` shows that the value has to be counted as a tree: shared pointers are written once for each way that leads to them.
* **C76 copies** — from the simulation of C59 and C61 (a variable that refers to nothing gets new objects only) and the round trip of C31 and C49;
  `C76_independent` by induction on the history of calls on the copy.
* **C77 layout and order** — Spec/Layout.lean says when two values have the same contents (`SameValue`) and when a document repeats no key
  (`NoRepeats`).  Proof/Layout.lean follows the decoding code function by function: what succeeds on one document succeeds on every document that
  says the same (`SameDoc`), with the same result; by induction on the depth of calls.  Maps are compared through lookups (`setAll_layout`).
  Partial: slices of maps lose errors, and there order shows (`Examples.C77_slices_of_maps`).
* **C78 messages of decode errors** — `Spec/Message` says how a reader finds a place in a message (`placeIn`). Model/ErrorText gives the texts.
  With C17 (the path of an error is the path of a wrong part) it remains that the texts can be read back: `pieces (dotted p) = p` for names
  without dots. Partial: names with dots are ambiguous (`MessageSample.C78_ambiguous`).
* **C79 causes of encode errors** — errors are chains (`GoErr`), `fmt.Errorf` is run on its format; `LeadsBack` is `errors.Is`. An invariant of
  every write (`Proof/Speaks`: the names in an error are JSON names of the package) gives that no format has a foreign percent sign.
  Partial: JSON names with a percent sign (`MessageSample.C79_lost`).
* **C80 orders of walks** — `ParsedDir` and `AstPackage` are lists whose order stands for the order of a walk over a map; `Spec/Walks` says when two
  of them differ in order only. Searches by name are shown to give the same answer, then inlining by induction on its depth, then `link`.
  Partial: a type declared twice (`WalkSample.C80_declared_twice`).
* **C81 the module of a source file** — `Model/Paths` has package path on texts and the recursion of `discoveryModFile`; `Spec/Paths` says what a text names for a
  process with a working directory.  Proved: cleaned texts have a normal form (invariant of the loop of `path.Clean`), the search walks a list of directories
  read off that form (induction on its length).  FALSE for relative paths: witnesses; exact theorems for each form of path.
* **C82 which texts a time field takes** — `Spec/TimeText` says which text names which time: days are counted one by one from 0001-01-01 by
  `NextDay`. The calendar arithmetic of the model is shown to agree with the counting (induction both ways), then the loop of `time.Parse` is inverted
  element by element; the four layouts that `parseDateTime` tries accept disjoint texts.
* **C83 a time comes back** — each element of a layout is read back to its end, by induction on the layout (`loop_format`), unless it swallows a part of
  the next (`Swallows`, `Spec/TimeLayout`).  FALSE for offsets with seconds and for years beyond 9999: witnesses.
* **C84 layout tags** — the same induction; `Shows` says what a layout shows of a time.  Partial: layouts whose elements keep apart, made of the
  elements the model knows.  The tags `time.DateOnly`, `time.DateTime` and `time.TimeOnly` are shown to lose every time.
* **C85 values with times and floats** — the proof of C49 is carried out for packages with a parameter `Kinds` (are floats and times allowed?)
  and a condition `KeptParts` on the floats and times of a value; C49 is the case without either, C85 gets `KeptParts` from C83.
* **C86 floats as texts** — `Spec/Floats` says which rational number a text denotes, which one a float stands for, and which float is
  the nearest.  Rounding is on natural numbers (units of 2^-1074); that it gives the nearest float is proved for every
  quotient, and that the quick reading agrees with it where no exponent is written.  For the text of a float: the
  candidates are checked by reading them, so that whatever text is taken denotes the float.
  With an exponent the reading makes up to five roundings; each changes a number by a factor between 1 - 2^-53 and its inverse
  (`Proof/FloatsNear`), which bounds the error.

## Not expressible in this model

* Performance claims of the README (allocations, ns/op): not semantic.
* Data races inside fastjson or the Go runtime: the pool theorems assume
  `sync.Pool` hands one object to one holder at a time.

## Where the code disagrees with a property

Each item has a witness theorem (named in MANIFEST.json) evaluated on the model.

1. C21: no comma after a nil pointer written as null; `{null}` for an embedded struct that writes nothing; NaN and infinities are written as words; JSON names are written without escaping.
2. C08: narrow signed integers are not checked against their minimum. C09: inside collections and
   named types there is no check at all.
3. C34: `IsZero` of a named array of structs is inverted; a struct with a fixed array is never zero.
4. C35: `Reset` of a named map keeps the keys; slices and maps that were not nil stay non-nil.
5. C32: `json:"-"` fields are not decoded but are encoded, under the name `-`.
6. C24, C31: nil `*time.Time` is written as the zero date; C42: a layout `time.X` is a constant when
   decoding and literal text when encoding.
7. C23, C38: `omitempty` counts only as the second part of the tag; UUIDs and fixed arrays ignore it;
   empty non-nil collections are written. C46: a nil `*uuid.UUID` panics.
8. C07: null clears a field of a named byte-slice type. C31: a nil named slice is written as null,
   which its field cannot read.
9. C12, C13: struct elements of a reused slice keep old fields; a failed decode changes the elements
   beyond the slice's length.
10. C16: an error in an element of a slice of times, UUIDs or maps is swallowed and the slice ends early.
11. C17: elements of string slices, nested slices and bytes are reported with wrong paths.
12. C20: base64 text that is too long for a fixed byte array panics.
13. C37: a parser is not returned to the pool when parsing fails (it is lost, never shared).
14. C24: nil inner slices are written `[]`, a nil pointer to an empty struct `{}`.
15. C31: a zero written with omitempty comes back as the default.
16. C38: tags written as interpreted strings are ignored; default values end at the first comma.
17. C39: tags in comments inside a group of types are overridden; `encode` and `decode` together generate
    nothing; an untagged `type B []B` under a tagged slice makes the generator loop. C40: structs that inline one another make the generator loop.
18. C45: with a relative path the module above the working directory is not found.
19. C19: a type declared as a struct type forgets the receiver's fields; null and errors differ for names
    of named slices.
20. fastjson accepts more than JSON (`Spec/LooseText.lean`): control characters, wrong escapes, any run
    of number characters, NaN and infinities, and a lone sign at the end of the text.
21. C06: a default for an integer field is a Go literal, so `default:"010"` is eight.
22. C51: when several packages have the same name, names declared inside functions decide which one is taken,
    and such a local type can be the one that is inlined.
23. C30: a UUID is also read between any two ASCII characters, not only between braces.
24. C56: some types can be decoded but not encoded (slices of UUIDs, lists nested three deep) or the reverse (maps of times).
25. C57: a run killed just after the output file was created leaves an empty Go file, and every later run on any file of the module
    panics until it is removed; an error while formatting is dropped, so a run that ends normally can leave a truncated file.
26. C60: decoding into a variable a second time overwrites the slices and adds to the maps that were copied from it after the first time.
27. C63: `Reset` zeroes the elements of the slices and bytes, and empties the maps, that were copied from the variable before.
28. C61, C62: a value with a cycle of pointers is never encoded, and a value that is an element of its own slice is never reset: the calls
    recurse until the stack is full, which ends the program.
29. C64: bytes that are not UTF-8 are accepted inside the strings of a document and kept, but come back as U+FFFD once the value has been
    encoded and decoded again.
30. C16: when a variable is decoded into again, the place of a text that is not a time (UUID) keeps the time (UUID) of the earlier
    decode. {"times":["T2","bad"]} decoded over [T1,T5] gives [T2,T5] and no error.
31. C66: a linked list of more than 300 nodes (any value whose document is nested that deep) is encoded without error, and no decoder
    reads the result.
32. C67: a second document decoded into the same receiver resets fields with a default that it does not mention, and throws away what is
    in an embedded pointer to a struct even if it mentions none of its members.
33. C06: the text of a string default (and of a layout) is copied between quotes into the generated code, with only its quotes escaped, so
    backslashes in it are read again: the default `C:\temp` becomes `C:`, a tab and `emp`.
34. C68: a strict struct refuses the members of a struct embedded in it, and a strict struct embedded in another refuses the members of
    the other.
35. C69: the generator accepts two fields with the same JSON name (`A, B int` under one tag has it always); the output then has the
    member twice, and its own decoder refuses it.
36. C71: when the encoding of an embedded struct fails, its error is only kept in the writer; the next field that calls a `MarshalTo` returns
    it under its own name, so the error message names a field that is fine.
37. C73: a recursive struct with two pointer fields of one JSON name (`A, B *T` under one tag) doubles the decoded value at every level of the
    document: a text of 1796 characters decodes to more than 2^299 variables.
38. C77: in a slice of maps the order of members shows: what is read before the lost error (see C16) stays. {"l":[{"a":1,"b":"x"}]} and
    {"l":[{"b":"x","a":1}]} decoded over [{}] give [{"a":1}] and [{}].
39. C78: the path in a message is joined by dots without escaping, so {"a":{"b":"x"}} and {"a.b":"x"} can have the same message.
40. C79: a JSON name is pasted into the format of fmt.Errorf (field/marshalers.go:363, field/fields.go:183, 194), so with a name like
    `rate%d` the error of a nested value is printed where %d stands, %w is left without an operand, and errors.Is does not find the cause.
41. C80: parser.ParseDir reads files for all systems, and `ast.Walk` meets them in random order (analyse.go:308-331, parser.go:142-164). A struct
    declared differently for two systems is inlined in one version or the other, at random, and decoder and encoder can get different ones.
42. C81: `discoveryModFile` stops at "." and `path.Dir("..")` is "." (projstruct.go:43-46).  In a subdirectory of a module the generator panics for a file
    given by a relative path; for a file given by a path with `..` it can take the module of the working directory, which does not contain the file.
43. C52: the import of the package in the module's root directory has the module's path, without a slash after it, so
    `PackagePathFromPath` (discoverer/parser.go:45-50) looks for it in a directory named like the module, below the root: its types are not resolved.
44. C83: times whose offset has seconds (zones before about 1940, like Amsterdam's +00:19:32) are written with the offset cut to minutes, so decoding gives another
    instant; times after the year 9999 in struct fields are written without an error, and their text is refused when read back.
45. C84: a layout tag like `05.04` takes the minutes for a fraction of the second: what is written cannot be read.
46. C85: the zero instant in a zone other than UTC is written as if it were in UTC by fields, but not in slices and arrays.
47. C86: floats with an exponent in their text are read with two roundings (fastjson's quick reading): the float64 1005000 is
    written `1.005e+06` and comes back as 1004999.9999999999; `3e-5` is not read as the nearest float.
48. C84: the tag `time.DateOnly` names the constant `2006-01-02` for the decoder (field/extractors.go:321) but is itself the layout
    for the encoder (field/marshalers.go:57): every time (but a zero one under `omitempty`) is written as the text
    `time.DateOnly`, and the decoder refuses what the encoder wrote.  The same holds of `time.DateTime` and `time.TimeOnly`.

## Axioms

<!-- AXIOMS -->
* `propext` (3 theorems): `C41_no_error`, `C41_paths`, `C36_result_stays`

* `Quot.sound`, `propext` (10 theorems): `C27_safe`, `C45_module_root_partial`, `C37_lost_for_good`,
  `Examples.C37_parser_lost`, `C26_same_keys`, `C26_same_values`, `C53_names_distinct`, `C59_somewhere`,
  `Examples.C72_schedule`, `Examples.pair_apart`

* `Classical.choice`, `Quot.sound`, `propext` (514 theorems): `C01_rejected`, `C01_accepted`, `C02_not_json`,
  `C02_rejected_untouched`, `parseBytes_iff`, `looseDocument_document`, `C03_member_order`,
  `C04_unknown_members`, `C05_fieldwise`, `C05_independent`, `C06_default`, `C06_text_default_exact`,
  `C06_text_default_partial`, `Examples.C06_backslash_default`, `C06_required_fails`, `C06_required_error`,
  `C06_absent_keeps`, `C06_present_not_missing`, `C07_null_rejected`, `C07_null_keeps`, `C07_null_required`,
  `Examples.C07_null_clears_named_bytes`, `C08_decoded_integer_partial`, `C08_unsigned_and_64_bit_exact`,
  `C08_rejects`, `C08_accepts_in_range`, `Examples.C08_negative_overflow_is_accepted`,
  `C09_slice_elements_partial`, `C09_array_elements_partial`, `C09_map_values_partial`,
  `C09_chained_name_partial`, `C09_named_collections_partial`, `Examples.C09_overflow_is_accepted`,
  `C10_slice_mirrors_array_partial`, `C10_slice_of_scalars`, `C10_old_contents_irrelevant`,
  `C10_slice_accepts`, `C10_named_slice_partial`, `C12_slice_elements_partial`,
  `Examples.C12_stale_field_survives`, `C11_slice_storage`, `C11_capacity`, `C14_array_field_iff`,
  `C14_named_array_iff`, `C14_wrong_length_rejected`, `C14_named_wrong_length_rejected`,
  `C18_failing_field_kept`, `C20_outcomes`, `C20_decode_returns`, `C20_only_panic`, `C20_typed`,
  `C20_named_bytes_exactly`, `C20_history_typed`, `C20_unmarshal_outcomes`, `C20_unmarshal_only_panic`,
  `C20_decode_returns_partial`, `C20_no_panic_partial`, `C20_history_returns_partial`,
  `C20_unmarshal_returns_partial`, `Examples.C20_fixed_bytes_panic`, `C15_map_field`, `C15_named_map`,
  `C16_bad_element_is_an_error_partial`, `C16_cut`, `C16_struct_exact`, `Examples.C16_error_is_swallowed`,
  `Examples.C16_stale_time`, `Examples.C16_map_is_swallowed`, `C16_cut_maps`, `Examples.C16_map_half_filled`,
  `C43_nested`, `C43_nested_ptr`, `C43_nested_value`, `C43_nested_pointer`, `C43_nested_slice`,
  `C43_nested_map`, `C43_nested_list_error`, `C43_nested_map_error`, `C17_error_paths_partial`,
  `C17_error_paths_text_partial`, `C17_cause_partial`, `C17_cause_text_partial`,
  `Examples.C17_strings_lose_field`, `Examples.C17_nested_slices_lose_path`, `Examples.C17_bytes_lose_path`,
  `Examples.C17_embedded_leading_dot`, `Examples.C17_named_string_root`, `C18_failing_prefix`, `C19_encode`,
  `C19_encode_json`, `C19_decode_scalar`, `C19_decode_scalar_text`, `C19_decode_struct`,
  `C19_decode_slice_partial`, `C19_decode_array_partial`, `Examples.C19_struct_forgets`,
  `Examples.C19_slice_null`, `Examples.C19_slice_error`, `Examples.C19_bytes_null`,
  `Examples.C19_slice_stale`, `C44_decode_again`, `C44_only`, `C44_any_number`, `C44_unmarshal_again`,
  `Examples.C44_first`, `Examples.C44_not_other`, `C32_not_read_partial`, `Examples.C32_written`,
  `C27_lossless`, `C27_injective`, `C29_base64`, `C29_bytes_field`, `C29_fixed_field`, `C29_named`,
  `C29_written`, `C29_round_trip`, `C29_written_partial`, `C29_round_trip_partial`, `C30_uuid`, `C30_accepts`,
  `C30_field`, `C30_written`, `C30_round_trip`, `C30_written_partial`, `C30_round_trip_partial`, `C42_read`,
  `C42_accepts`, `C42_default_layouts`, `C42_written`, `C42_round_trip`, `C42_round_trip_zero`,
  `C42_written_partial`, `C42_round_trip_partial`, `C21_exact`, `C21_if_json`, `C21_trouble_not_json`,
  `C21_output_is_json_partial`, `C21_nil_receiver`, `C21_no_trouble_partial`, `encode_document`, `enc_unique`,
  `Examples.C21_missing_comma`, `Examples.C21_empty_embedded`, `Examples.C21_name_with_quote`, `C22_members`,
  `C22_members_partial`, `C23_if_json_partial`, `C23_omitempty_partial`, `C23_written`,
  `Examples.C23_wrong_omissions`, `C24_nil_receiver_partial`, `C24_named_nil`, `C24_nil_field_partial`,
  `C24_nil_element_partial`, `Examples.C24_nil_not_null`, `Examples.C24_nil_uuid_panics`, `C25_appends`,
  `C25_keeps`, `C25_marshalJSON`, `methods_tame`, `C28_written`, `C28_round_trip`, `C28_written_partial`,
  `C28_round_trip_partial`, `C31_if_json_partial`, `C31_round_trip_partial`, `C31_round_trip_exact_partial`,
  `encoded_fills`, `Examples.trip_back`, `Examples.C31_lost_nil_slice`, `Examples.C31_lost_nil_time`,
  `Examples.C31_lost_dash`, `Examples.C31_lost_zero`, `Examples.C31_lost_named_nil`,
  `Examples.C31_lost_nil_pointer`, `C33_spliced`, `C33_spliced_partial`, `C33_read_from_parent`,
  `Examples.C33_zero_left_out`, `C34_isZero_partial`, `C34_zero_value_partial`, `C34_true_partial`,
  `C34_false_partial`, `Examples.C34_array_field_never_zero`, `Examples.C34_named_array_inverted`,
  `Examples.C34_empty_slice`, `C38_field_tags_partial`, `C38_options_partial`, `C38_only_these`,
  `Examples.C38_age`, `Examples.C38_escapes`, `Examples.C38_double_quoted_tag_lost`,
  `Examples.C38_second_option_unseen`, `C39_comment_line`, `C39_other_line`, `C39_once`, `C39_tagged_partial`,
  `C39_untagged_partial`, `C39_only_declared`, `C39_exact`, `C39_own_tags`, `C39_chosen_own`,
  `Examples.C39_item_decodes`, `Examples.C39_srcFile`, `Examples.C39_group_tags_lost`,
  `Examples.C39_both_tags`, `Examples.C39_recursive_slice_never_ends`, `C40_flattened_partial`,
  `C40_in_place`, `C40_from_declarations`, `C40_nothing_to_inline`, `C40_unique`, `Examples.C40_user`,
  `Examples.C40_own_name_kept`, `Examples.C40_named_foreign_kept`, `Examples.C40_cycle_never_ends`,
  `C45_every_directory_once`, `C45_errors`, `Examples.C45_tree`, `Examples.C45_parent_module_missed`,
  `Examples.C45_foreign_module`, `C36_as_if_alone`, `C36_document_stays`, `C36_never_blocked`,
  `C36_unmarshal`, `C36_parse_error`, `readsLikeFill_exists`, `Examples.C36_schedule`, `C37_one_owner`,
  `C37_lost_how`, `C35_reset_partial`, `C35_reset_zero_partial`, `C35_isZero_partial`, `C35_named_slice`,
  `C35_named_map_keeps_keys`, `Examples.C35_slice_not_zero`, `Examples.C35_named_map_not_zero`,
  `C13_reset_as_new_partial`, `C13_named_slice`, `C13_named_map_partial`, `C13_history_partial`,
  `Examples.C13_stale_tail`, `Examples.C13_named_map_null`, `Examples.C13_failed_decode_differs`,
  `C46_append_returns_partial`, `C46_encode_returns_partial`, `C46_encode_succeeds_partial`,
  `C46_nil_returns`, `C46_document_partial`, `C46_only_panic`, `C46_panics_exactly`, `C46_succeeds_exactly`,
  `Examples.C46_nil_uuid_never_returns`, `C26_same_document`, `C26_every_order`, `C26_each_once`,
  `C26_map_field`, `C26_same_document_partial`, `C26_every_order_partial`, `C26_each_once_partial`,
  `C26_map_field_partial`, `Examples.C26_both_orders`, `C47_old_reader`, `C47_new_reader`, `C47_added_fields`,
  `C47_old_reader_text`, `C47_written_by_new_partial`, `Examples.C47_strict_old_reader`, `C48_known_members`,
  `C48_strict_success`, `C48_strict_iff`, `C48_rest_same`, `C49_every_value`, `C49_injective`,
  `C49_same_text`, `C49_decoded`, `C50_text`, `C50_append`, `C50_isZero`, `C51_finds`, `C51_sound`,
  `C51_unknown`, `C51_first`, `Examples.C51_shop`, `Examples.C51_shop_any`, `Examples.C51_local_type_taken`,
  `C52_sound_partial`, `C52_resolves_partial`, `C52_other_modules_partial`, `Examples.C52_neighbour`,
  `Examples.C52_root_package`, `C53_tagged_partial`, `C53_untagged_partial`, `C53_nothing_else`,
  `C53_reads_partial`, `C53_writes_partial`, `C53_chosen`, `C53_not_chosen`, `C53_chosen_reads`,
  `C53_chosen_writes`, `C53_found_struct`, `Examples.C53_item_strict`, `Examples.C53_file`,
  `Examples.C53_user_read`, `Examples.C53_user_written`, `Examples.C53_user_strict`, `Examples.C53_order`,
  `Examples.C53_order_read`, `Examples.C53_order_written`, `C54_written_out`, `C54_determined`,
  `Examples.C54_example`, `C55_alike`, `C55_unrelated`, `C55_renamed`, `C55_twins`, `Examples.bag_unrelated`,
  `C56_decoder_partial`, `C56_encoder_partial`, `C56_isZero_partial`, `C56_reset_partial`,
  `Examples.C56_uuid_list`, `Examples.C56_deep_list`, `Examples.C56_seven_slices`, `C57_only_two_files`,
  `C57_refused`, `C57_complete`, `C57_finished_partial`, `C57_killed`, `C57_repeat_partial`, `C57_recover`,
  `C57_stuck`, `C57_blocked`, `Examples.C57_undisturbed`, `Examples.C57_repeated`,
  `Examples.C57_blocked_module`, `Examples.C57_recovered`, `Examples.C57_truncated`, `C58_frame`,
  `C58_others`, `Examples.C58_ring`, `C59_returns`, `C59_panics`, `C59_apart`, `Examples.C59_shared`,
  `C60_copy_partial`, `C60_declared_partial`, `Examples.C60_slice_changes`, `Examples.C60_map_changes`,
  `Examples.C60_pointer`, `Examples.C60_ints`, `C61_marshalTo`, `C61_marshalJSON`, `C61_nil`, `C61_isZero`,
  `C61_same`, `Examples.C61_shared`, `Examples.C61_circle`, `Examples.C61_ring`, `C62_frame`, `C62_others`,
  `C62_returns`, `Examples.C62_ring_resets`, `Examples.C62_ring`, `Examples.C62_self`, `C63_copy_partial`,
  `Examples.C63_slice_changes`, `Examples.C63_map_changes`, `Examples.C63_bytes_change`,
  `Examples.C63_pointer`, `C64_parse`, `C64_write`, `C64_injective`, `C64_mended`, `C64_read_back`,
  `C64_survives`, `C64_any_text`, `C64_accepted`, `Examples.C64_latin1`, `C65_not_json_refused`,
  `C65_own_output_refused`, `C65_accepted_is_json`, `C65_not_even_loose`, `Examples.C65_infinities_pass`,
  `C66_too_deep`, `C66_refused`, `C66_survives_iff`, `C66_bounded`, `C66_bounded_round_trip`, `C66_plain`,
  `Examples.C66_long_list`, `C67_two`, `C67_together`, `C67_any_order`, `C67_texts`,
  `Examples.C67_default_comes_back`, `Examples.C67_embedded_pointer_forgets`, `C68_strict_parent`,
  `C68_strict_embedded`, `C68_strict_parent_own_output`, `C68_strict_embedded_own_output`,
  `Examples.C68_refused`, `C69_read_alike`, `C69_written_twice`, `C69_own_output_refused`,
  `Examples.C69_one_for_both`, `Examples.twin_refused`, `C70_accepted`, `C70_ends`, `C70_endless_refused`,
  `Examples.C70_srcFile`, `Examples.C70_selfSlice`, `Examples.C70_selfInline`, `Examples.C70_other_refused`,
  `C71_fails_exactly`, `C71_append_fails_exactly`, `C71_names_first_partial`, `C71_one_name`,
  `C71_succeeds_exactly`, `TimeSample.C71_wrong_place`, `C72_as_if_alone`, `C72_error`, `C72_result_stays`,
  `C72_one_owner`, `C72_never_blocked`, `C72_marshal`, `writesLikeMarshal_exists`, `C73_document_partial`,
  `C73_text_partial`, `Examples.nodeEnv_once`, `Examples.nodeEnv_decodes`, `Examples.C73_doubles`,
  `Examples.C73_no_bound`, `Examples.C73_text_doubles`, `C74_alone`, `C74_together`, `C74_interleavings`,
  `C74_any_order`, `Examples.C74_pair`, `Examples.C74_joint`, `C75_append`, `C75_text`, `Examples.C75_item`,
  `Examples.C75_fork`, `Examples.C75_shared`, `C76_new_memory`, `C76_survivor`, `C76_copy`, `C76_independent`,
  `Examples.C76_dict`, `C77_spelling`, `C77_document_partial`, `C77_text_partial`, `C77_verdict_partial`,
  `Examples.C77_box`, `Examples.box_texts`, `Examples.C77_slices_of_maps`, `Examples.C77_repeated_keys`,
  `C78_place_partial`, `C78_place_text_partial`, `C78_rejected`, `C78_required`,
  `MessageSample.C78_ambiguous`, `C79_wraps_partial`, `C79_percent`, `C79_doubled`, `MessageSample.C79_lost`,
  `C80_directory`, `C80_methods_partial`, `C80_passes_partial`, `WalkSample.C80_declared_twice`,
  `C81_absolute`, `C81_relative_partial`, `C81_dotdot`, `C81_ends`, `PathSample.C81_above`,
  `PathSample.C81_beside`, `C82_reads`, `C82_accepts`, `C82_holds`, `Examples.Times.goTimes`,
  `Examples.Times.leapDay_names`, `C83_same_partial`, `C83_shifted`, `C83_field_partial`, `C83_value_partial`,
  `C83_lossless`, `C83_plain`, `Examples.Times.C83_seconds_lost`, `Examples.Times.C83_years_lost`,
  `C84_shows_partial`, `C84_stable`, `C84_field_partial`, `Examples.Times.C84_swallowed`, `C84_constants`,
  `C84_constants_field`, `Examples.Times.C84_day_lost`, `C85_every_value`, `C85_injective`, `C85_same_text`,
  `marshalText_some`, `Examples.Kept.good`, `Examples.Kept.C85_zone_lost`, `C86_numbers`, `C86_reads_partial`,
  `C86_close_partial`, `C86_field_partial`, `C86_text`, `C86_text_injective`, `C86_survives_partial`,
  `C86_comes_back_partial`, `C86_values`, `C86_exponent`, `Examples.FloatTexts.C86_lost`
<!-- END AXIOMS -->
