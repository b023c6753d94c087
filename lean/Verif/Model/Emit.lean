import Verif.Model.Link

/-!
# The Go text of the templates

Every constructor of the intermediate representations of `Model/GenFill` and
`Model/GenMarshal` stands for statements of Go.  Here they are written out, line by line and
without indentation.  No theorem depends on this file: `tools/conform.py` uses it to compare
the model with the generated code that is checked in at /repo (test/tests/fill, test/race,
test/vjson, benchmark).

The representations leave out what has no effect on the result, such as the choice between
`Int` and `Int64` on a 64-bit machine and conversions between types of the same shape; the
functions below take the types as further arguments to put these back.
-/

namespace VJ.Emit

abbrev Lines := List String

def text (s : Str) : String := String.ofList s

/-- the inverse of `nameCode` -/
def decodeName : Nat → Nat → Str
  | 0, _ => []
  | k + 1, n => if n = 0 then [] else Char.ofNat (n % 1114113 - 1) :: decodeName k (n / 1114113)

def nameText (n : Nat) : String := text (decodeName 200 (n / 2))

def primText : Prim → String
  | .int => "int" | .int8 => "int8" | .int16 => "int16" | .int32 => "int32" | .int64 => "int64"
  | .uint => "uint" | .uint8 => "uint8" | .uint16 => "uint16" | .uint32 => "uint32"
  | .uint64 => "uint64" | .float32 => "float32" | .float64 => "float64" | .bool => "bool"
  | .string => "string" | .byte => "byte" | .rune => "rune"

/-- a type expression -/
def ty : TExpr → String
  | .prim p => primText p
  | .named n | .sel n => nameText n
  | .time => "time.Time"
  | .uuid => "uuid.UUID"
  | .structT => "struct"
  | .star t => "*" ++ ty t
  | .slice t => "[]" ++ ty t
  | .array n t => s!"[{n}]" ++ ty t
  | .map t => "map[string]" ++ ty t

/-- `asthlp.ExpressionTypeConvert` -/
def conv (t : TExpr) (e : String) : String :=
  match t with
  | .star _ => "(" ++ ty t ++ ")(" ++ e ++ ")"
  | _ => ty t ++ "(" ++ e ++ ")"

/-- a string constant: `asthlp.StringConstant` -/
def quote (s : String) : String :=
  "\"" ++ String.join (s.toList.map fun c =>
    if c = '"' then "\\\"" else if c = '\\' then "\\\\" else c.toString) ++ "\""

/-- a text copied between quotes (helpers/asthelpers.go:52, field/extractors.go:327) -/
def copied (s : Str) : String := "\"" ++ text (escapeQuotes s) ++ "\""

/-- field/fields.go:453-455 -/
def interVar (name : String) : String :=
  match name.toList with
  | [] => "_"
  | c :: cs => "_" ++ String.ofList (c.toLower :: cs)

def parsingErr (path : String) : Lines :=
  ["if err != nil {", s!"return newParsingError({path}, err)", "}"]

/-! ## Decoding -/

/-- helpers.DenotedType until a predeclared type shows (field/fill.go:193-196) -/
def primOf (Γ : Env) (t : TExpr) : Option Prim :=
  let u := match t with
    | .star x => x
    | x => x
  let r := Γ.denoted u
  let r := match r with
    | .star x => x
    | x => x
  match r with
  | .prim p => some p
  | x => match Γ.denoted x with
    | .prim p => some p
    | _ => none

/-- the element type of a slice, array or map, names looked through -/
def under (Γ : Env) (t : TExpr) : TExpr :=
  match t with
  | .star x => Γ.denoted x
  | x => Γ.denoted x

/-- field/byteslice.go:12-83 -/
def bytesFill (src dest : String) (spec : TExpr) (len : Option Nat) : Lines :=
  let par := if dest.startsWith "*" then s!"({dest})" else dest
  [s!"if {src}.Type() != fastjson.TypeNull \{",
   s!"b, err := {src}.StringBytes()",
   "if err != nil {", "return err", "}"] ++
  (match len with
   | none => [s!"{dest} = make({ty spec}, base64.StdEncoding.DecodedLen(len(b)))",
      s!"n, err := base64.StdEncoding.Decode({dest}, b)",
      "if err != nil {", "return err", "}",
      s!"{dest} = {par}[:n]"]
   | some _ => [s!"n, err := base64.StdEncoding.Decode({par}[:], b)",
      "if err != nil {", "return err", "}",
      s!"if n != len({dest}) \{", "return errors.New(\"incomplete data\")", "}"]) ++
  ["}"]

def pathText (idx : String) : PathE → String
  | .const s => quote (text s)
  | .index => s!"strconv.Itoa({idx})"

/-- `Field.TypedValue` (field/fill.go:191-264).  `lvl`: field level; `dst`: the variable that
gets the value; `v`: the JSON value; `fld`: the place in the receiver; `idx`: the loop index;
`t`: the type asked for; `layout`: the text of the tag. -/
def extr (Γ : Env) (layout : Str) :
    (lvl : Nat) → (dst v fld idx : String) → (t : TExpr) → Extr → Lines
  | _, dst, v, _, _, t, .int =>
    let (a, b) := if primOf Γ t = some .int64 then ("int64", "Int64") else ("int", "Int")
    [s!"var {dst} {a}", s!"{dst}, err = {v}.{b}()"]
  | _, dst, v, _, _, t, .uint =>
    let (a, b) := if primOf Γ t = some .uint64 then ("uint64", "Uint64") else ("uint", "Uint")
    [s!"var {dst} {a}", s!"{dst}, err = {v}.{b}()"]
  | _, dst, v, _, _, _, .float => [s!"var {dst} float64", s!"{dst}, err = {v}.Float64()"]
  | _, dst, v, _, _, _, .bool => [s!"var {dst} bool", s!"{dst}, err = {v}.Bool()"]
  | _, dst, v, _, idx, _, .strChecked p =>
    [s!"var {dst} []byte", s!"if {dst}, err = {v}.StringBytes(); err != nil \{",
     s!"return newParsingError({pathText idx p}, err)", "}"]
  | _, dst, v, _, _, _, .strUnchecked => [s!"var {dst} []byte", s!"{dst}, err = {v}.StringBytes()"]
  | _, dst, v, _, _, _, .time json l =>
    [s!"b, err := {v}.StringBytes()"] ++ parsingErr (quote (text json)) ++
    [match l with
     | none => s!"{dst}, err := parseDateTime(string(b))"
     | some _ =>
       let e := if layout.take 5 = str "time." then text layout else copied layout
       s!"{dst}, err := time.Parse({e}, string(b))"]
  | _, dst, v, _, _, _, .uuid json =>
    [s!"var {dst} uuid.UUID", s!"b, err := {v}.StringBytes()"] ++ parsingErr (quote (text json)) ++
    [s!"{dst}, err = uuid.ParseBytes(b)"]
  | _, dst, v, _, _, _, .nestedFresh t => [s!"var {dst} {ty t}", s!"err = {dst}.FillFromJSON({v})"]
  | _, dst, v, fld, _, _, .nestedInPlace _ => [s!"var {dst} = &{fld}", s!"err = {dst}.FillFromJSON({v})"]
  | _, dst, v, _, _, _, .bytes len =>
    let spec := match len with
      | none => TExpr.slice (.prim .byte)
      | some n => .array n (.prim .byte)
    [s!"var {dst} {ty spec}"] ++ bytesFill v dst spec len
  | lvl, dst, v, fld, _, _, .slice json elt nullable x brk store =>
    let l := lvl + 1
    let e := s!"_elem{l}"
    let k := s!"_key{l}"
    let par := if fld.startsWith "*" then s!"({fld})" else fld
    ["var listA []*fastjson.Value", s!"listA, err = {v}.Array()"] ++ parsingErr (quote (text json)) ++
    [s!"{dst} := {fld}",
     s!"if l := len(listA); cap({dst}) < l || (l == 0 && {fld} == nil) \{",
     s!"{dst} = make([]{ty elt}, 0, len(listA))", "} else {", s!"{dst} = {par}[:0]", "}",
     s!"for {k}, _val{l} := range listA \{",
     s!"{dst} = {dst}[:len({dst})+1]"] ++
    (if nullable then
      [s!"if !valueIsNotNull(_val{l}) \{", s!"{dst}[len({dst})-1] = nil", "continue", "}"] else []) ++
    extr Γ layout l e s!"_val{l}" s!"{dst}[len({dst})-1]" k elt x ++
    (if brk then ["if err != nil {", s!"err = newParsingError(strconv.Itoa({k}), err)", "break", "}"]
     else []) ++
    (match store with
     | .ref t => [s!"newElem := {conv t e}", s!"{dst}[{k}] = &newElem"]
     | .val t => [s!"{dst}[{k}] = {conv t e}"]
     | .filled => []) ++ ["}"]
  | lvl, dst, v, _, _, _, .array json n elt x brk store =>
    let l := lvl + 1
    let e := s!"_tmp{l}"
    let k := s!"_key{l}"
    ["var listA []*fastjson.Value", s!"listA, err = {v}.Array()"] ++ parsingErr (quote (text json)) ++
    [s!"var {dst} {ty (.array n elt)}",
     s!"if len(listA) != {n} \{",
     s!"return newParsingError({quote (text json)}, fmt.Errorf(\"array len mismatch\"))", "}",
     s!"for {k}, _val{l} := range listA \{"] ++
    extr Γ layout l e s!"_val{l}" s!"{dst}[len({dst})-1]" k elt x ++
    (if brk then ["if err != nil {", s!"err = newParsingError(strconv.Itoa({k}), err)", "break", "}"]
     else []) ++
    (match store with
     | .ref t => [s!"newElem := {conv t e}", s!"{dst}[{k}] = &newElem"]
     | .val t => [s!"{dst}[{k}] = {conv t e}"]
     | .filled => []) ++ ["}"]
  | _, dst, v, fld, idx, _, .map json star val x =>
    let whole := TExpr.map (if star then .star val else val)
    [s!"o, err := {v}.Object()"] ++ parsingErr (quote (text json)) ++
    [s!"{dst} := {fld}", s!"if {dst} == nil \{", s!"{dst} = make({ty whole}, o.Len())", "}",
     "o.Visit(func(key []byte, v *fastjson.Value) {",
     "if err != nil {", "return", "}"] ++
    (if star then ["if v.Type() == fastjson.TypeNull {", s!"{dst}[string(key)] = nil", "return", "}"]
     else []) ++
    extr Γ layout 0 "value" "v" "" idx val x ++
    ["if err != nil {", "err = newParsingError(string(key), err)", "} else {"] ++
    (if star then [s!"var valRef = {conv val "value"}", s!"{dst}[string(key)] = &valRef"]
     else [s!"{dst}[string(key)] = {conv val "value"}"]) ++
    ["}", "})"]

/-- field/fill.go:656-678 -/
def typedFillIn (rhs dst : String) : TExpr → String
  | .prim .int | .prim .uint | .prim .int64 | .prim .uint64 | .prim .float64 | .prim .bool
  | .prim .byte | .prim .rune => s!"{dst} = {rhs}"
  | t => s!"{dst} = {conv t rhs}"

/-- field/fill.go:538-654 -/
def store (Γ : Env) (expr : TExpr) (rhs dst : String) : Store → Lines
  | .filled => []
  | .val t =>
    match t with
    | .sel _ | .time | .uuid =>
      if (Γ.denoted t).isOrdinal then [s!"{dst} = {conv t rhs}"] else [s!"{dst} = {rhs}"]
    | .slice _ | .array _ _ | .map _ => [s!"{dst} = {rhs}"]
    | t => [typedFillIn rhs dst t]
  | .ref t =>
    match t with
    | .prim .bool | .prim .int64 | .prim .int | .prim .float64 => [s!"{dst} = &{rhs}"]
    | .prim .string => [s!"var valFieldStr = string({rhs})", s!"{dst} = &valFieldStr"]
    | .map _ => [s!"{dst} = &{rhs}"]
    | t => [s!"{dst} = new({ty t})", s!"*{dst} = {conv t rhs}"]
  | .named t =>
    [s!"var _ref {ty t}",
     match t with
     | .sel _ | .time | .uuid => s!"_ref = {rhs}"
     | t => typedFillIn rhs "_ref" t,
     s!"{dst} = {conv expr "&_ref"}"]
  | .refNamed t =>
    [s!"var _ref {ty t}",
     match t with
     | .sel _ | .time | .uuid => s!"_ref = {rhs}"
     | t => typedFillIn rhs "_ref" t,
     s!"{dst} = new({ty expr})", s!"*{dst} = {conv expr "&_ref"}"]

/-- helpers/asthelpers.go:26-72 -/
def literal (Γ : Env) (t : TExpr) (s : Str) : String :=
  if primOf Γ t = some .string then copied s else text s

/-- field/fill.go:721-771; the type of the variable in `var __X T = …` -/
def dflt (Γ : Env) (expr refx : TExpr) (json dv : Str) (name v : String) : Dflt → Lines
  | .nothing => []
  | .required =>
    let j := quote (text json)
    [s!"return newParsingError({j}, fmt.Errorf(\"required element '%s' is missing\", {j}))"]
  | .value val onlyAbsent =>
    let lit := literal Γ refx dv
    let base := match refx with
      | .star x => x
      | x => x
    if onlyAbsent then
      [s!"if {v} == nil \{", s!"var __{name} {ty expr} = {lit}", s!"s.{name} = &__{name}", "}"]
    else match val with
      | .ptr (.ptr _) =>
        [s!"var __{name} {ty base} = {lit}", s!"s.{name} = new({ty expr})",
         s!"*s.{name} = {conv expr s!"&__{name}"}"]
      | .ptr _ => [s!"var __{name} {ty base} = {lit}", s!"s.{name} = {conv expr s!"&__{name}"}"]
      | _ => [s!"s.{name} = {lit}"]

/-- the constants of package math that the bounds of the model stand for -/
def maxName : MaxCheck → String
  | .float32 => "math.MaxFloat32"
  | .int m =>
    if m = 127 then "math.MaxInt8" else if m = 32767 then "math.MaxInt16"
    else if m = 2147483647 then "math.MaxInt32" else if m = 255 then "math.MaxUint8"
    else if m = 65535 then "math.MaxUint16" else if m = 4294967295 then "math.MaxUint32" else "?"

/-- field/fields.go:107-135 -/
def fieldFill (Γ : Env) (name : String) (fd : FieldDecl) : Option FieldFill → Lines
  | none => []
  | some ff =>
    let f := Fld.prepare Γ true fd.typ fd.tags false false
    let v := interVar name
    let buf := s!"val{name}"
    let get := if ff.json = [] then "v" else s!"v.Get({quote (text ff.json)})"
    let cond := if ff.nullable then s!"valueIsNotNull({v})" else s!"{v} != nil"
    let d := dflt Γ f.expr f.refx ff.json fd.tags.dflt name v ff.dflt
    let lvl := match f.refx with
      | .star _ => 1
      | _ => 0
    [s!"if {v} := {get}; {cond} \{"] ++
    extr Γ fd.tags.layout lvl buf v s!"s.{name}" "" fd.typ ff.x ++
    (if ff.check then parsingErr (quote (text ff.json)) else []) ++
    (match ff.max with
     | none => []
     | some m =>
       let ph := match m with
         | .float32 => "%f"
         | _ => "%d"
       [s!"if {buf} > {maxName m} \{",
        s!"return newParsingError({quote (text ff.json)}, fmt.Errorf(\"{ph} exceeds maximum for data type {ty f.refx}\", {buf}))",
        "}"]) ++
    store Γ f.expr buf s!"s.{name}" ff.store ++
    (if d = [] then ["}"] else ["} else {"] ++ d ++ ["}"])

/-- codegen.go:31-65 -/
def unmarshal (n : String) : Lines :=
  [s!"var jsonParser{n} fastjson.ParserPool",
   s!"func (s *{n}) UnmarshalJSON(data []byte) error \{",
   s!"parser := jsonParser{n}.Get()", "v, err := parser.ParseBytes(data)",
   "if err != nil {", "return err", "}", s!"defer jsonParser{n}.Put(parser)",
   "return s.FillFromJSON(v)", "}"]

/-- a byte of a name in a slice literal -/
def byteLit (c : Char) : String := s!"'{c}'"

/-- codegen/struct.go:98-202 -/
def validate (n : String) (names : List Str) (strict : Bool) : Lines :=
  [s!"func (s *{n}) validate(v *fastjson.Value) error \{",
   "o, err := v.Object()", "if err != nil {", "return err", "}"] ++
  (if names = [] then [] else [s!"var checkFields [{names.length}]int"]) ++
  ["o.Visit(func(key []byte, _ *fastjson.Value) {", "if err != nil {", "return", "}"] ++
  (names.zipIdx.flatMap fun (nm, i) =>
    [s!"if bytes.Equal(key, []byte\{{", ".intercalate (nm.map byteLit)}}) \{",
     s!"checkFields[{i}]++", s!"if checkFields[{i}] > 1 \{",
     "err = newParsingError(string(key), fmt.Errorf(\"the '%s' field appears in the object twice\", string(key)))",
     "}", "return", "}"]) ++
  (if strict then ["err = fmt.Errorf(\"unexpected field '%s'\", string(key))"] else []) ++
  ["})", "return err", "}"]

def fillHead (n : String) : String := s!"func (s *{n}) FillFromJSON(v *fastjson.Value) (err error) \{"

/-- the decoding functions of a type -/
def fillIR (Γ : Env) (n : String) (goNames : List String) (d : Decl) : FillIR → Lines
  | .struct names strict fields =>
    let fds := match d with
      | .struct _ fds => fds
      | _ => []
    [fillHead n, "if err = s.validate(v); err != nil {", "return err", "}"] ++
    ((goNames.zip (fds.zip fields)).flatMap fun (g, fd, ff) => fieldFill Γ g fd ff) ++
    ["return nil", "}"] ++ validate n names strict
  | .map star val x =>
    let whole := TExpr.map (if star then .star val else val)
    [fillHead n, "if v.Type() == fastjson.TypeNull {", "return nil", "}",
     "o, err := v.Object()", "if err != nil {", "return err", "}",
     s!"*s = make({ty whole}, o.Len())", "o.Visit(func(key []byte, v *fastjson.Value) {",
     "if err != nil {", "return", "}"] ++
    (if star then ["if v.Type() == fastjson.TypeNull {", "(*s)[string(key)] = nil", "return", "}"]
     else []) ++
    extr Γ [] 0 "value" "v" "" "" val x ++
    ["if err != nil {", "err = newParsingError(string(key), err)", "return", "}",
     if star then "(*s)[string(key)] = &value" else s!"(*s)[string(key)] = {conv val "value"}",
     "})", "return err", "}"]
  | .list len elt x =>
    [fillHead n, "if v.Type() == fastjson.TypeNull {", "return nil", "}",
     "a, err := v.Array()", "if err != nil {", "return err", "}"] ++
    (match len with
     | none => [s!"*s = make([]{ty elt}, len(a))"]
     | some _ => ["if len(*s) != len(a) {",
        "return fmt.Errorf(\"expected %d elements, got %d\", len(*s), len(a))", "}"]) ++
    ["for i, v := range a {"] ++
    extr Γ [] 0 "value" "v" "*s" "i" elt x ++
    ["if err != nil {", "return newParsingError(fmt.Sprintf(\"%d\", i), err)", "}",
     s!"(*s)[i] = {conv elt "value"}", "}", "return nil", "}"]
  | .bytes len =>
    let spec := match len with
      | none => TExpr.slice (.prim .byte)
      | some n => .array n (.prim .byte)
    [fillHead n] ++ bytesFill "v" "*s" spec len ++ ["return", "}"]
  | .transit t x =>
    [fillHead n] ++ extr Γ [] 0 "_val" "v" "*s" "" t x ++
    ["if err != nil {", "return err", "}", s!"*s = {n}(_val)", "return nil", "}"]

/-! ## Encoding -/

def raw (s : String) : String := s!"result.RawString({quote s})"

def setComma : String := "wantComma = true"

def putComma : Lines := ["if wantComma {", "result.RawByte(',')", "}"]

def isUnsigned : Option Prim → Bool
  | some .uint | some .uint8 | some .uint16 | some .uint32 | some .uint64 => true
  | _ => false

/-- field/fields.go:279-287: a string is converted when a name stands for its type -/
def strDecor (Γ : Env) (t : TExpr) (decor : String → String) (e : String) : String :=
  if t ≠ .prim .string ∧ Γ.denoted t = .prim .string then s!"string({decor e})" else decor e

/-- `GetValueExtractor` (field/fields.go:227-408) on `src`; `t`: the type of `src`; `err`: what
is returned when writing fails; `decor`: the conversion added around `src` (array.go:220-224,
field/fields.go:212-225). -/
def vext (Γ : Env) (err : String) (decor : String → String) :
    (src : String) → (t : TExpr) → VExt → Lines
  | src, t, .int =>
    let (m, c) := if isUnsigned (primOf Γ t) then ("Uint64", "uint64") else ("Int64", "int64")
    [s!"result.{m}({c}({decor src}))"]
  | src, _, .float => [s!"result.Float64(float64({decor src}))"]
  | src, _, .bool =>
    [s!"if {decor src} \{", raw "true", "} else {", raw "false", "}"]
  | src, _, .str => [s!"result.String({decor src})"]
  | src, _, .time => [s!"writeTime(result, {src}, time.RFC3339Nano)"]
  | src, _, .call _ | src, _, .callPtr _ =>
    [s!"err = {src}.MarshalTo(result)", "if err != nil {", s!"return {err}", "}"]
  | src, t, .star x =>
    let u := match t with
      | .star u => u
      | u => u
    [s!"if {src} == nil \{", raw "null", "} else {"] ++
    vext Γ err (strDecor Γ u decor) s!"*{src}" t x ++ ["}"]
  | _, t, .arr x =>
    let e := match Γ.denoted t with
      | .slice e | .array _ e => e
      | x => x
    ["result.RawByte('[')", "for _k1, _v1 := range _v {"] ++ vext Γ err (strDecor Γ e decor) "_v1" e x ++
    ["if len(_v)-1 > _k1 {", "result.RawByte(',')", "}", "}", "result.RawByte(']')"]

def fieldDecor (Γ : Env) (t : TExpr) (e : String) : String :=
  match t with
  | .named _ => if Γ.denoted t = .prim .string then s!"string({e})" else e
  | _ => e

/-- field/byteslice.go:85-112 -/
def bytesMarshal (src arg : String) : Lines :=
  [s!"buf := make([]byte, base64.StdEncoding.EncodedLen(len({src})))",
   s!"base64.StdEncoding.Encode(buf, {arg})", "result.String(string(buf))"]

def stars : Nat → String
  | 0 => ""
  | n + 1 => "*" ++ stars n

/-- `WriteBlock.Block` -/
def body (Γ : Env) (name : Str) (typ : TExpr) (src : String) : Body → Lines
  | .prim w d =>
    let f := Fld.prepare Γ true typ {} false false
    let base := match f.refx with
      | .star x => x
      | x => x
    -- `nc` of field/marshal.go:55: the predeclared type is not written in the field itself
    let nc := match f.refx with
      | .star _ => true
      | x => x != f.expr
    let e := stars d ++ src
    let cast (p : String) (exact : Prim) :=
      if nc || base != .prim exact then s!"{p}({e})" else e
    let call := match w with
      | .int => if isUnsigned (primOf Γ base) then s!"result.Uint64({cast "uint64" .uint64})"
                else s!"result.Int64({cast "int64" .int64})"
      | .float => s!"result.Float64({cast "float64" .float64})"
      | .str => s!"result.String({cast "string" .string})"
    [raw s!"\"{text name}\":", call, setComma]
  | .boolTrue => [raw s!"\"{text name}\":true", setComma]
  | .refBool d =>
    [s!"if {stars d}{src} \{", raw s!"\"{text name}\":true", "} else {",
     raw s!"\"{text name}\":false", "}", setComma]
  | .time l d =>
    let lt := if l = str "2006-01-02T15:04:05.999999999Z07:00" then "time.RFC3339Nano" else quote (text l)
    [raw s!"\"{text name}\":", s!"writeTime(result, {stars d}{src}, {lt})", setComma]
  | .uuid _ =>
    [s!"if buf, err := {src}.MarshalText(); err != nil \{",
     s!"return newParsingError({quote (text name)}, err)", "} else {",
     raw s!"\"{text name}\":\"", "result.Buffer.AppendBytes(buf)", "result.RawByte('\"')",
     setComma, "}"]
  | .struct _ _ =>
    [raw s!"\"{text name}\":", s!"if err = {src}.MarshalTo(result); err != nil \{",
     s!"return fmt.Errorf({quote s!"can't marshal \"{text name}\" attribute: %w"}, err)", "}", setComma]
  | .inline _ => [s!"result.Raw(unpackObject({src}.MarshalJSON()))", setComma]
  | .map x =>
    let v := match under Γ typ with
      | .map v => v
      | t => t
    let err := s!"fmt.Errorf({quote s!"can't marshal \"{text name}\" attribute %q: %w"}, _k, err)"
    [setComma, raw ("\"" ++ text name ++ "\":{"), "var wantComma bool",
     s!"for _k, _v := range {src} \{"] ++ putComma ++
    [setComma, "result.String(_k)", "result.RawByte(':')"] ++
    vext Γ err (fieldDecor Γ v) "_v" v x ++ ["}", "result.RawByte('}')"]
  | .arr x =>
    let (e, fixed) := match under Γ typ with
      | .slice v => (v, false)
      | .array _ v => (v, true)
      | t => (t, false)
    let err := s!"fmt.Errorf({quote s!"can't marshal \"{text name}\" item at position %d: %w"}, _k, err)"
    [setComma, raw s!"\"{text name}\":[",
     if fixed then "wantComma = false" else "var wantComma bool",
     s!"for _k, _v := range {src} \{"] ++ putComma ++ [setComma, "_k = _k"] ++
    vext Γ err (fieldDecor Γ e) "_v" e x ++ ["}", "result.RawByte(']')", setComma]
  | .bytes =>
    let src := match under Γ typ with
      | .array _ _ => s!"{src}[:]"
      | _ => src
    [setComma, raw s!"\"{text name}\":"] ++ bytesMarshal src src

/-- `WriteBlock.NotZero` -/
def cond (Γ : Env) (typ : TExpr) (src : String) : Cond → String
  | .neZero =>
    match typ with
    | .star _ => s!"{src} != nil"
    | _ =>
      match Γ.denoted typ with
      | .prim .bool => src
      | .prim .string => s!"{src} != \"\""
      | .prim _ => s!"{src} != 0"
      | .array n e => s!"{src} != {ty (.array n e)}\{}"
      | _ => s!"{src} != nil"
  | .timeNotZero | .method _ => s!"!{src}.IsZero()"
  | .notNil2 => s!"{src} != nil && *{src} != nil"

/-- `WriteBlock.Render` (field/marshalers.go:21-46) -/
def blk (Γ : Env) (goName : String) (typ : TExpr) (b : Blk) : Lines :=
  let src := s!"s.{goName}"
  let inner := body Γ b.name typ src b.body
  -- maps set the flag before the text (field/marshalers.go:447-453)
  let early := match b.body with
    | .map _ => true
    | _ => false
  match b.cond, b.ifZero with
  | none, _ => putComma ++ inner
  | some c, some (z, set) =>
    let w := raw s!"\"{text b.name}\":{text z}"
    putComma ++ [s!"if {cond Γ typ src c} \{"] ++ inner ++ ["} else {"] ++
    (if set then if early then [setComma, w] else [w, setComma] else [w]) ++ ["}"]
  | some c, none => [s!"if {cond Γ typ src c} \{"] ++ putComma ++ inner ++ ["}"]

def marshalHead (n : String) : Lines :=
  [s!"func (s *{n}) MarshalJSON() ([]byte, error) \{", "var result jwriter.Writer",
   "if err := s.MarshalTo(&result); err != nil {", "return nil, err", "}",
   "return result.BuildBytes()", "}",
   s!"func (s *{n}) MarshalTo(result *jwriter.Writer) error \{"]

def needVars : Lines := ["var (", "err error", "wantComma bool", ")"]

def nilNull (c : String) : Lines := [s!"if {c} \{", raw "null", "return nil", "}"]

def writeEnd (c : String) : Lines := [s!"result.RawByte('{c}')", "err = result.Error", "return err", "}"]

/-- the encoding functions of a type -/
def marshalIR (Γ : Env) (n : String) (goNames : List String) (d : Decl) : MarshalIR → Lines
  | .struct blks =>
    let fds := match d with
      | .struct _ fds => fds
      | _ => []
    marshalHead n ++
    if blks = [] then [raw "{}", "return nil", "}"]
    else
      nilNull "s == nil" ++ needVars ++ ["result.RawByte('{')"] ++
      ((goNames.zip (fds.zip blks)).flatMap fun (g, fd, b) => blk Γ g fd.typ b) ++ writeEnd "}"
  | .map x =>
    let v := match d with
      | .alias (.map v) => v
      | _ => .structT
    let err := s!"fmt.Errorf({quote s!"can't marshal \"{n}\" attribute %q: %w"}, _k, err)"
    marshalHead n ++ nilNull "s == nil || *s == nil" ++ needVars ++
    ["result.RawByte('{')", "for _k, _v := range *s {"] ++ putComma ++
    [setComma, "result.String(string(_k))", "result.RawByte(':')"] ++
    vext Γ err (fieldDecor Γ v) "_v" v x ++ ["}"] ++ writeEnd "}"
  | .list fixed x =>
    let e := match d with
      | .alias (.slice v) | .alias (.array _ v) => v
      | _ => .structT
    let err := s!"fmt.Errorf({quote s!"can't marshal \"{n}\" value at position %d: %w"}, _k, err)"
    let dt := Γ.denoted e
    let decor (s : String) := if dt != e then conv dt s else s
    marshalHead n ++ nilNull (if fixed then "s == nil" else "s == nil || *s == nil") ++ needVars ++
    ["result.RawByte('[')", "for _k, _v := range *s {"] ++ putComma ++ [setComma, "_k = _k"] ++
    vext Γ err decor "_v" e x ++ ["}"] ++ writeEnd "]"
  | .bytes fixed =>
    marshalHead n ++ nilNull "s == nil" ++ (if fixed then [] else nilNull "*s == nil") ++
    bytesMarshal "*s" (if fixed then "(*s)[:]" else "*s") ++ ["return nil", "}"]
  | .prim p =>
    marshalHead n ++ nilNull "s == nil" ++
    (match p with
     | .float32 | .float64 => ["result.Float64(float64(*s))"]
     | .string => ["result.String(string(*s))"]
     | .bool => ["if *s {", raw "true", "} else {", raw "false", "}"]
     | p => if isUnsigned (some p) then ["result.Uint64(uint64(*s))"] else ["result.Int64(int64(*s))"]) ++
    ["return nil", "}"]
  | .time | .uuid =>
    let (v, t) := match d with
      | .alias .time => ("_time", "time.Time")
      | _ => ("_uuid", "uuid.UUID")
    marshalHead n ++ nilNull "s == nil" ++
    [s!"{v}, err := {t}(*s).MarshalText()", "if err == nil {", "result.RawByte('\"')",
     s!"result.Buffer.AppendBytes({v})", "result.RawByte('\"')", "}", "return err", "}"]
  | .call m =>
    marshalHead n ++ nilNull "s == nil" ++ [s!"return (*{nameText m})(s).MarshalTo(result)", "}"]

/-! ## IsZero -/

/-- helpers/asthelpers.go:131-173 -/
def zeroText (Γ : Env) : Nat → TExpr → String
  | _, .prim .string => "\"\""
  | _, .prim .bool => "false"
  | _, .prim _ => "0"
  | k + 1, .named n => zeroText Γ k (Γ.denotedIdent n (.named n))
  | _, .uuid => "uuid.Nil"
  | _, _ => "nil"

def ztest (Γ : Env) (t : TExpr) (src : String) : ZTest → String
  | .const => s!"{src} != {zeroText Γ 10 (Γ.denoted t)}"
  | .time | .method _ => s!"!{src}.IsZero()"

def zeroIR (Γ : Env) (n : String) (goNames : List String) (d : Decl) (ir : ZeroIR) : Lines :=
  let head := [s!"func (s {n}) IsZero() bool \{"]
  match ir with
  | .never => head ++ ["return false", "}"]
  | .struct tests =>
    let fds := match d with
      | .struct _ fds => fds
      | _ => []
    head ++ ((goNames.zip (fds.zip tests)).flatMap fun (g, fd, t) =>
      [s!"if {ztest Γ fd.typ s!"s.{g}" t} \{", "return false", "}"]) ++ ["return true", "}"]
  | .len => head ++ ["return len(s) == 0", "}"]
  | .all t =>
    let e := match d with
      | .alias (.array _ v) => v
      | _ => .structT
    let c := match t with
      | .const => s!"_v != {zeroText Γ 10 e}"
      | _ => "_v.IsZero()"
    head ++ ["for _, _v := range s {", s!"if {c} \{", "return false", "}", "}", "return true", "}"]
  | .allBytes =>
    head ++ ["for _, _v := range s {", "if _v != 0 {", "return false", "}", "}", "return true", "}"]
  | .single t =>
    let e := match d with
      | .alias t => t
      | _ => .structT
    let c := match t with
      | .const =>
        let z := zeroText Γ 10 e
        if z = "nil" then "s == nil" else s!"s == {n}({z})"
      | _ => s!"{conv e "s"}.IsZero()"
    head ++ [s!"return {c}", "}"]

/-! ## Reset -/

def loopVar (lvl : Nat) : String := ["i", "j", "k", "l", "m", "n"].getD lvl "?"

def rir (Γ : Env) (name : String) (t : TExpr) (lvl : Nat) : RIR → Lines
  | .slice x =>
    let e := match Γ.denoted t with
      | .slice e => e
      | x => x
    [s!"for {loopVar lvl} := range {name} \{"] ++ rir Γ s!"{name}[{loopVar lvl}]" e (lvl + 1) x ++
    ["}", s!"{name} = {name}[:0]"]
  | .bytes =>
    [s!"for {loopVar lvl} := range {name} \{", s!"{name}[{loopVar lvl}] = 0", "}", s!"{name} = {name}[:0]"]
  | .const d =>
    let cast (z : String) := if Γ.denoted t = t then z else conv t z
    match d with
    | .array n e => [s!"{name} = {ty (.array n e)}\{}"]
    | .uuid => [s!"{name} = {cast "uuid.Nil"}"]
    | .time => [s!"{name} = {cast "time.Time{}"}"]
    | d => [s!"{name} = {cast (zeroText Γ 10 d)}"]
  | .clearMap =>
    [s!"if len({name}) > 10000 \{", s!"{name} = nil", "} else {", s!"for key := range {name} \{",
     s!"delete({name}, key)", "}", "}"]
  | .method _ =>
    [(if name.startsWith "*" then text (name.toList.drop 1) else name) ++ ".Reset()"]

def resetIR (Γ : Env) (n : String) (goNames : List String) (d : Decl) : ResetIR → Lines
  | .struct xs =>
    let fds := match d with
      | .struct _ fds => fds
      | _ => []
    [s!"func (s *{n}) Reset() \{"] ++
    ((goNames.zip (fds.zip xs)).flatMap fun (g, fd, x) => rir Γ s!"s.{g}" fd.typ 0 x) ++ ["}"]
  | .map x =>
    let v := match d with
      | .alias (.map v) => v
      | _ => .structT
    [s!"func (s {n}) Reset() \{", "for k, v := range s {"] ++ rir Γ "v" v 0 x ++
    ["s[k] = v", "}", "}"]
  | .list elem =>
    [s!"func (s *{n}) Reset() \{"] ++
    (match elem with
     | some _ => ["for i := range *s {", "(*s)[i].Reset()", "}"]
     | none => []) ++ ["*s = (*s)[:0]", "}"]
  | .const _ => [s!"func (s *{n}) Reset() \{", s!"*s = {n}\{}", "}"]
  | .bytes => [s!"func (s *{n}) Reset() \{", "*s = (*s)[:0]", "}"]
  | .single x =>
    let t := match d with
      | .alias t => t
      | _ => .structT
    [s!"func (s *{n}) Reset() \{", s!"var tmp = (*{ty t})(s)"] ++ rir Γ "*tmp" t 0 x ++ ["}"]

/-! ## Whole files -/

def outLines (what : String) : Out Lines → Lines
  | .ok ls => ls
  | .panic => [s!"!! panic {what}"]
  | .loop => [s!"!! loop {what}"]
  | .unsupp => [s!"!! unsupp {what}"]

/-- the functions of one type, decoding part -/
def decoders [Ext] (Γ : Env) (n : String) (goNames : List String) (d : Decl) : Lines :=
  unmarshal n ++ outLines s!"fill {n}" (do
    let ir ← genFill Γ 20 d
    return fillIR Γ n goNames d ir)

/-- the functions of one type, encoding part -/
def encoders [Ext] (Γ : Env) (n : String) (goNames : List String) (d : Decl) : Lines :=
  outLines s!"marshal {n}" (do
    let ir ← genMarshal Γ d
    return marshalIR Γ n goNames d ir) ++
  outLines s!"zero {n}" (do
    let ir ← genZero Γ 20 d
    return zeroIR Γ n goNames d ir) ++
  outLines s!"reset {n}" (do
    let ir ← genResetDecl Γ 20 d
    return resetIR Γ n goNames d ir)

end VJ.Emit
