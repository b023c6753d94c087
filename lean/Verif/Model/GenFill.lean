import Verif.Model.GenCommon
import Verif.Model.GoText

/-!
# Generator: decoding code

`IR` constructors stand for the statement templates that generator/codegen/field/*.go
emits; the functions below choose templates exactly where the Go generator does.  A result
`.unsupp` means that the generator panics or that the emitted text is not valid Go; the
comment at each such place says which.
-/

namespace VJ

/-- The path argument of `stringExtraction`: a constant, or `strconv.Itoa(<loop index>)`. -/
inductive PathE where
  | const (s : Str)
  | index
deriving DecidableEq, Repr

/-- How one element of a slice/array loop is put into its cell
(field/fill.go:117-139 and 170-185). -/
inductive ElemStore where
  /-- `newElem := T(e); dst[i] = &newElem` -/
  | ref (t : TExpr)
  /-- `dst[i] = T(e)` -/
  | val (t : TExpr)
  /-- the element was filled in place -/
  | filled
deriving DecidableEq, Repr

/-- Statement templates that turn a `*fastjson.Value` into a local variable
(`Field.TypedValue`). -/
inductive Extr where
  /-- `var d int; d, err = v.Int()` (also Int64) — field/extractors.go:187-205 -/
  | int
  /-- `var d uint; d, err = v.Uint()` (also Uint64) — field/extractors.go:195-213 -/
  | uint
  /-- field/extractors.go:219-221 -/
  | float
  /-- field/extractors.go:227-229 -/
  | bool
  /-- `if d, err = v.StringBytes(); err != nil { return newParsingError(path, err) }`
  — field/extractors.go:146-168 -/
  | strChecked (path : PathE)
  /-- `d, err = v.StringBytes()` — field/extractors.go:170-181 -/
  | strUnchecked
  /-- `b, err := v.StringBytes(); if err … return newParsingError(json, err);
  d, err := parseDateTime(string(b))` or `time.Parse(layout, …)`
  — field/extractors.go:314-386; declares a new `err` -/
  | time (json : Str) (layout : Option Str)
  /-- field/extractors.go:270-305; declares a new `err` -/
  | uuid (json : Str)
  /-- `var d T; err = d.FillFromJSON(v)` — field/extractors.go:246-260, first branch -/
  | nestedFresh (t : TExpr)
  /-- `var d = &field; err = d.FillFromJSON(v)` — field/extractors.go:246-260, second -/
  | nestedInPlace (t : TExpr)
  /-- `var d []byte` (or `[N]byte`) and `ByteSliceFillFrom` — field/fill.go:226-231,
  field/byteslice.go:12-83 -/
  | bytes (len : Option Nat)
  /-- field/extractors.go:14-76 with the loop body of field/fill.go:78-140;
  `brk`: the body has the `if err != nil { err = newParsingError(i, err); break }` -/
  | slice (json : Str) (elt : TExpr) (nullable : Bool) (x : Extr) (brk : Bool) (store : ElemStore)
  /-- field/extractors.go:78-120 with the loop body of field/fill.go:150-187 -/
  | array (json : Str) (len : Nat) (elt : TExpr) (x : Extr) (brk : Bool) (store : ElemStore)
  /-- field/fill.go:332-434; `star`: values are pointers; declares a new `err` -/
  | map (json : Str) (star : Bool) (val : TExpr) (x : Extr)
deriving DecidableEq, Repr

/-- The template declares a new `err` variable in its block (`b, err := …`, `o, err := …`). -/
def Extr.declaresErr : Extr → Bool
  | .time _ _ | .uuid _ | .map _ _ _ _ => true
  | _ => false

/-- The layout expression of `timeExtraction` (field/extractors.go:317-328): none for
`parseDateTime`; `time.X` names a constant; anything else is copied between quotes. -/
def decodeLayout (l : Str) : Out (Option Str) :=
  if l = [] then .ok none
  else if l.take 5 = str "time." ∧ ¬ '.' ∈ l.drop 5 then
    match timeConst (l.drop 5) with
    | some c => .ok (some c)
    | none => .unsupp                     -- no such constant: not valid Go
  else match literalText l with
    | some c => .ok (some c)
    | none => .unsupp                     -- not a Go string

/-- `typeExtraction` (field/fill.go:273-304) for a predeclared type. -/
def primExtraction (dontCheckErr : Bool) (path : PathE) : Prim → Out Extr
  | .int | .int8 | .int16 | .int32 | .int64 => .ok .int
  | .uint | .uint8 | .uint16 | .uint32 | .uint64 => .ok .uint
  | .float32 | .float64 => .ok .float
  | .bool => .ok .bool
  | .string => .ok (if dontCheckErr then .strUnchecked else .strChecked path)
  -- `byte` and `rune` have no FillFromJSON: the emitted call does not compile
  | .byte | .rune => .unsupp

/-- `nestedExtraction` (field/extractors.go:246-260); the flag is `f.filled` afterwards. -/
def nestedExtraction (f : Fld) : Extr × Bool :=
  if !f.hasField || f.isStar then (.nestedFresh f.expr, false) else (.nestedInPlace f.expr, true)

/-- Result of `TypedValue`: the template and the flags it sets on the factory. -/
structure TVGen where
  x : Extr
  filled : Bool
  isStarType : Bool

/-- `Field.TypedValue` (field/fill.go:191-264).  `fuel` bounds the recursion through
element types (the Go recursion is unbounded). -/
def typedValue (Γ : Env) : Nat → Fld → PathE → Out TVGen
  | 0, _, _ => .loop
  | k + 1, f, path =>
    let refx := if (Γ.denoted f.refx).isOrdinal then Γ.denoted f.refx else f.refx
    match refx with
    | .prim p => do
      let x ← primExtraction f.dontCheckErr path p
      return ⟨x, false, false⟩
    | .named _ | .structT =>
      let r := nestedExtraction f
      .ok ⟨r.1, r.2, false⟩
    | .star x => do
      let r ← typedValue Γ k { f with refx := x } path
      return { r with filled := false, isStarType := true }
    | .time => do
      let l ← decodeLayout f.tags.layout
      return ⟨.time f.tags.jsonName l, false, false⟩
    | .uuid => .ok ⟨.uuid f.tags.jsonName, false, false⟩
    | .sel _ =>
      let r := nestedExtraction f
      .ok ⟨r.1, r.2, false⟩
    | .slice elt =>
      if elt.isByte then .ok ⟨.bytes none, false, false⟩
      -- a pointer to a slice: `d := s.F` has the wrong type, the code does not compile
      else if f.hasField && f.isStar then .unsupp
      -- without a field (`f.field == nil`) the storage is `*s`, which is right only for a
      -- named type declared by another name (Transitive)
      else if !f.hasField && !f.isStar then .unsupp
      else do
        -- field/fill.go:232-242; the tag text has no backquotes there, so it parses to ""
        let el := Fld.prepare Γ true elt {} false false
        let r ← typedValue Γ k el .index
        if r.isStarType then .unsupp     -- `dst[i] = P(elem)` does not compile
        else
          let store := if el.isStar then .ref el.expr else if r.filled then .filled else .val el.expr
          match elt with
          -- `dst[len-1] = nil` does not compile for an array
          | .array _ _ => .unsupp
          | _ => return ⟨.slice f.tags.jsonName elt el.isNullable r.x (el.expr != .prim .string) store, false, false⟩
    | .array n elt =>
      if elt.isByte then .ok ⟨.bytes (some n), false, false⟩
      else do
        let el := Fld.prepare Γ true elt {} false false
        if el.isNullable then .unsupp     -- `dst = append(dst, nil)` on an array
        else
          let r ← typedValue Γ k el .index
          if r.filled || r.isStarType then .unsupp   -- `dst[i] = T(tmp)` with tmp a pointer
          else match r.x with
            -- arrays of named slices, arrays and maps: not modelled
            | .slice _ _ _ _ _ _ | .array _ _ _ _ _ _ | .map _ _ _ _ => .unsupp
            | _ => return ⟨.array f.tags.jsonName n elt r.x (el.expr != .prim .string) (.val el.expr), false, false⟩
    | .map v =>
      if !f.hasField || f.isStar then .unsupp       -- `d := <nil>`; `d := s.F` of pointer type
      else do
        let el := Fld.prepare Γ false v f.tags false true
        let r ← typedValue Γ k el (.const f.tags.jsonName)
        if r.isStarType then .unsupp
        else match r.x with
          -- these return a value from the closure passed to Visit: not valid Go
          | .strChecked _ | .time _ _ | .uuid _ | .bytes _ | .slice _ _ _ _ _ _
          | .array _ _ _ _ _ _ | .map _ _ _ _ => .unsupp
          | x => return ⟨.map f.tags.jsonName el.isStar el.expr x, false, false⟩

/-- upper bound checked by `checkErr` (field/fill.go:484-514, `getMaxByType`) -/
inductive MaxCheck where
  | int (max : Int)
  | float32
deriving DecidableEq, Repr

/-- `getMaxByType` (field/fill.go:484-514) -/
def maxByType : TExpr → Option MaxCheck
  | .prim .float32 => some .float32
  | .prim .int8 => some (.int 127)
  | .prim .int16 => some (.int 32767)
  | .prim .int32 => some (.int 2147483647)
  | .prim .uint8 => some (.int 255)
  | .prim .uint16 => some (.int 65535)
  | .prim .uint32 => some (.int 4294967295)
  | _ => none

/-- How the extracted value reaches the field (field/fill.go:538-688). -/
inductive Store where
  /-- filled in place, nothing emitted -/
  | filled
  /-- `s.F = T(val)` -/
  | val (t : TExpr)
  /-- `s.F = &T(val)` (`new` + assignment, or `&val`) -/
  | ref (t : TExpr)
  /-- field of a named pointer type `type P *T`: `s.F = P(&T(val))` -/
  | named (t : TExpr)
  /-- pointer to a named pointer type: `*s.F = P(&T(val))` -/
  | refNamed (t : TExpr)
deriving DecidableEq, Repr

/-- The else branch of a field (`ifDefault`, field/fill.go:721-771). -/
inductive Dflt where
  | nothing
  /-- `return newParsingError(json, "required element … is missing")` -/
  | required
  /-- assigns a constant; `onlyAbsent`: guarded by `if v == nil` -/
  | value (v : GoVal) (onlyAbsent : Bool)

/-- Code emitted for one field by `FillStatements` (field/fields.go:107-135). -/
structure FieldFill where
  json : Str
  /-- the condition is `valueIsNotNull(x)` rather than `x != nil` -/
  nullable : Bool
  x : Extr
  /-- `if err != nil { return newParsingError(json, err) }` is emitted (field/fill.go:448-483) -/
  check : Bool
  max : Option MaxCheck
  store : Store
  dflt : Dflt

/-- The value the Go compiler gives to an integer literal without sign: a leading `0`
makes it octal, `0x`, `0o` and `0b` choose the base.
Simplification: no underscores between the digits. -/
def goNat : Str → Option Nat
  | '0' :: 'x' :: s | '0' :: 'X' :: s => baseNat 16 s
  | '0' :: 'o' :: s | '0' :: 'O' :: s => baseNat 8 s
  | '0' :: 'b' :: s | '0' :: 'B' :: s => baseNat 2 s
  | '0' :: c :: s => baseNat 8 (c :: s)
  | s => baseNat 10 s

/-- The text is copied into the source, so a sign in front of it is read as an operator
(helpers/asthelpers.go:36-40). -/
def goInt : Str → Option Int
  | '-' :: s => (goNat s).map fun (n : Nat) => -(n : Int)
  | '+' :: s => (goNat s).map Int.ofNat
  | s => (goNat s).map Int.ofNat

/-- The Go constant written by `BasicLiteralFromType` (helpers/asthelpers.go:26-72), as a
value of the predeclared type. -/
def basicLiteral [Ext] (p : Prim) (s : Str) : Out GoVal :=
  match p with
  | .int | .int8 | .int16 | .int32 | .int64
  | .uint | .uint8 | .uint16 | .uint32 | .uint64 =>
    match goInt s with
    | some i => if p.wrap i = i then .ok (.int i) else .unsupp   -- constant overflows: no Go
    | none => .unsupp
  | .float32 =>
    match Ext.parseFloat s with
    | some f => .ok (.float (Ext.toFloat32 f))
    | none => .unsupp
  | .float64 =>
    match Ext.parseFloat s with
    | some f => .ok (.float f)
    | none => .unsupp
  | .string =>
    match literalText s with
    | some t => .ok (.str t)
    | none => .unsupp
  | .bool =>
    if s = str "true" then .ok (.bool true)
    else if s = str "false" then .ok (.bool false)
    else .unsupp
  | .byte | .rune => .unsupp

/-- `BasicLiteralFromType` on a type expression (panics on anything but a predeclared
type or a pointer to one). -/
def literalFromType [Ext] : TExpr → Str → Out GoVal
  | .prim p, s => basicLiteral p s
  | .star t, s => literalFromType t s
  | _, _ => .unsupp

/-- `ifDefault` (field/fill.go:721-771). -/
def ifDefault [Ext] (f : Fld) (isStarType : Bool) : Out Dflt :=
  if f.tags.dflt = [] then
    .ok (if f.tags.required then .required else .nothing)
  else do
    let v ← literalFromType f.refx f.tags.dflt
    if isStarType then
      return .value (if f.isStar then .ptr (.ptr v) else .ptr v) false
    else if f.isStar then
      return .value (.ptr v) true
    else
      return .value v false

/-- The store part of `fillFrom` (field/fill.go:49-55, 538-688). -/
def storeOf (f : Fld) (r : TVGen) : Out Store :=
  if r.isStarType then
    -- fillFieldRef (field/fill.go:576-625)
    match f.refx with
    | .star x =>
      match x with
      | .prim _ | .named _ | .time | .uuid =>
        match r.x with
        | .nestedFresh _ | .nestedInPlace _ => .unsupp    -- pointer types have no methods
        | _ => .ok (if f.isStar then .refNamed x else .named x)
      | _ => .unsupp
    | _ => .unsupp
  else if f.isStar then .ok (.ref f.expr)
  else if r.filled then .ok .filled
  else .ok (.val f.expr)

/-- `FillStatements` and `fillFrom` (field/fields.go:107-135, field/fill.go:41-56);
`none`: nothing is emitted for a field named "-". -/
def genFieldFill [Ext] (Γ : Env) (k : Nat) (fd : FieldDecl) : Out (Option FieldFill) :=
  if fd.tags.jsonName = str "-" then .ok none
  else do
    let f := Fld.prepare Γ true fd.typ fd.tags false false
    let r ← typedValue Γ k f (.const fd.tags.jsonName)
    let st ← storeOf f r
    let d ← ifDefault f r.isStarType
    let isString := f.refx == .prim .string
    return some {
      json := fd.tags.jsonName, nullable := f.isNullable, x := r.x,
      check := !isString, max := if isString then none else maxByType f.refx,
      store := st, dflt := d }

/-- Decoding code of a declared type. -/
inductive FillIR where
  /-- Struct (codegen/struct.go:37-202): `validate` then the fields -/
  | struct (names : List Str) (strict : Bool) (fields : List (Option FieldFill))
  /-- Map (codegen/map.go:55-173) -/
  | map (star : Bool) (val : TExpr) (x : Extr)
  /-- Array (codegen/array.go:32-137) -/
  | list (len : Option Nat) (elt : TExpr) (x : Extr)
  /-- ByteSlice (codegen/byteslice.go:50-67) -/
  | bytes (len : Option Nat)
  /-- Transitive (codegen/transit.go:160-189): `_val`, error check, `*s = T(_val)` -/
  | transit (t : TExpr) (x : Extr)

/-- the statements for every field in order; a field named "-" has none -/
def genFields [Ext] (Γ : Env) (k : Nat) : List FieldDecl → Out (List (Option FieldFill))
  | [] => .ok []
  | fd :: fds => do
    let f ← genFieldFill Γ k fd
    let fs ← genFields Γ k fds
    return f :: fs

/-- `FillFromFunc` of every kind of declaration. -/
def genFill [Ext] (Γ : Env) (k : Nat) : Decl → Out FillIR
  | .struct strict fields => do
    let fs ← genFields Γ k fields
    return .struct (fields.map (·.tags.jsonName)) strict fs
  | .alias t =>
    match t with
    | .map v => do
      let el := Fld.prepare Γ false v {} false true
      let r ← typedValue Γ k el .index
      if r.isStarType then .unsupp
      else match r.x with
        -- return with a value inside the Visit closure: not valid Go
        | .strChecked _ | .time _ _ | .uuid _ | .bytes _ | .slice _ _ _ _ _ _
        | .array _ _ _ _ _ _ | .map _ _ _ _ => .unsupp
        | x =>
          if el.isStar then
            -- `(*s)[k] = &value`: only valid if value has exactly the pointee type
            match el.expr with
            | .prim .int | .prim .int64 | .prim .uint | .prim .uint64 | .prim .float64
            | .prim .bool => return .map true el.expr x
            | .prim _ => .unsupp
            | _ => match x with
              | .nestedFresh _ => return .map true el.expr x
              | _ => .unsupp
          else return .map false el.expr x
    | .slice elt =>
      if elt.isByte then .ok (.bytes none)
      else do
        let el := Fld.prepare Γ false elt {} false true
        if el.isStar then .unsupp      -- `(*s)[i] = (*T)(value)`
        else
          let r ← typedValue Γ k el .index
          if r.isStarType then .unsupp
          else match r.x with
            | .slice _ _ _ _ _ _ | .map _ _ _ _ => .unsupp
            | x => return .list none elt x
    | .array n elt =>
      if elt.isByte then .ok (.bytes (some n))
      else do
        let el := Fld.prepare Γ false elt {} false true
        if el.isStar then .unsupp
        else
          let r ← typedValue Γ k el .index
          if r.isStarType then .unsupp
          else match r.x with
            | .slice _ _ _ _ _ _ | .map _ _ _ _ => .unsupp
            | x => return .list (some n) elt x
    | .star _ => .unsupp               -- a pointer type cannot have methods
    | .structT => .unsupp
    | t => do
      let f := Fld.prepare Γ false t {} true false
      let r ← typedValue Γ k f (.const (str "(root)"))
      if r.isStarType then .unsupp
      else return .transit t r.x

end VJ
