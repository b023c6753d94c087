import Verif.Model.Json

/-!
# Type declarations the generator reads, and the Go values the generated code handles
-/

namespace VJ

/-- Predeclared Go types the generator knows (helpers/gotypes.go:28-45, `Ordinal`). -/
inductive Prim where
  | int | int8 | int16 | int32 | int64
  | uint | uint8 | uint16 | uint32 | uint64
  | float32 | float64
  | bool | string | byte | rune
deriving DecidableEq, Repr

/-- Type expressions as the generator sees them (`ast.Expr`).
* `named n`: an `*ast.Ident` that is not predeclared; `n` identifies it;
* `sel n`: an `*ast.SelectorExpr` other than `time.Time` and `uuid.UUID`;
* `structT`: a `*ast.StructType`, only ever met as the declared type of a name.
Simplifications: map keys are strings (or a named string type), which behave alike;
interfaces, channels, functions and anonymous struct fields are left out. -/
inductive TExpr where
  | prim (p : Prim)
  | named (n : Nat)
  | sel (n : Nat)
  | time
  | uuid
  | structT
  | star (t : TExpr)
  | slice (t : TExpr)
  | array (len : Nat) (t : TExpr)
  | map (v : TExpr)
deriving DecidableEq, Repr

/-- What the generator keeps of a field tag (tags/tags.go:22-70: `JsonName`,
`JsonAppendix`, `DefaultValue`, `Layout`). -/
structure Tags where
  jsonName : Str := []
  appendix : Str := []
  dflt : Str := []
  layout : Str := []
deriving DecidableEq, Repr

def Tags.omitempty (t : Tags) : Bool := t.appendix == str "omitempty"
def Tags.required (t : Tags) : Bool := t.appendix == str "required"

/-- One field of a struct.  A declaration with several names is several fields (`fieldDecls` in
`Model/Link`). -/
structure FieldDecl where
  typ : TExpr
  tags : Tags
deriving DecidableEq, Repr

/-- A declared type for which methods are generated (analyse.go `Visit`/`getNormalized`:
Struct, or — depending on the shape of `t` — Map, Array, ByteSlice, Transitive). -/
inductive Decl where
  | struct (strict : Bool) (fields : List FieldDecl)
  | alias (t : TExpr)
deriving DecidableEq, Repr

/-- The type expression a name stands for (`ast.TypeSpec.Type`). -/
def Decl.spec : Decl → TExpr
  | .struct _ _ => .structT
  | .alias t => t

/-- Go values.  A value is a tree: sharing between parts of a value is not modelled.
* `nil`: nil pointer, nil slice, nil map;
* `slice elems spare`: a non-nil slice with its elements and the elements of its backing
  array between len and cap;
* `map kvs`: a non-nil map; the list order stands for the iteration order of one run;
* `bytes`/`barr`: `[]byte` (non-nil) and `[N]byte`;
* `struct fs`: field values in declaration order. -/
inductive GoVal where
  | int (i : Int)
  | float (f : F64)
  | bool (b : Bool)
  | str (s : Str)
  | time (t : Time)
  | uuid (b : List UInt8)
  | nil
  | ptr (v : GoVal)
  | slice (elems spare : List GoVal)
  | arr (elems : List GoVal)
  | map (kvs : List (Str × GoVal))
  | bytes (b : List UInt8)
  | barr (b : List UInt8)
  | struct (fields : List GoVal)

/-- `m[key] = v` -/
def mapSet (key : Str) (v : GoVal) : List (Str × GoVal) → List (Str × GoVal)
  | [] => [(key, v)]
  | (k, w) :: rest => if k = key then (k, v) :: rest else (k, w) :: mapSet key v rest

def mapGet (key : Str) : List (Str × GoVal) → Option GoVal
  | [] => none
  | (k, w) :: rest => if k = key then some w else mapGet key rest

/-- `uuid.Nil` -/
def uuidNil : List UInt8 := List.replicate 16 0

/-- Go zero value of a predeclared type. -/
def Prim.zero : Prim → GoVal
  | .float32 | .float64 => .float 0
  | .bool => .bool false
  | .string => .str []
  | _ => .int 0

/-- Go integer conversion to a predeclared integer type: two's complement wrapping. -/
def Prim.wrap : Prim → Int → Int
  | .int8, i => i.bmod (2^8)
  | .int16, i => i.bmod (2^16)
  | .int32, i | .rune, i => i.bmod (2^32)
  | .int64, i | .int, i => i.bmod (2^64)
  | .uint8, i | .byte, i => i % 2^8
  | .uint16, i => i % 2^16
  | .uint32, i => i % 2^32
  | .uint64, i | .uint, i => i % 2^64
  | _, i => i

/-- Go conversion `T(x)` where the type underlying `T` is the predeclared type. -/
def Prim.conv [Ext] : Prim → GoVal → GoVal
  | .float32, .float f => .float (Ext.toFloat32 f)
  | p, .int i => .int (p.wrap i)
  | _, v => v

/-- What `fmt.Errorf("can't marshal …: %w")` puts in front of an error of encoding: a field, an
item of a list, a member of a map.  The name is the JSON name of the field; in a method of a list
or map type it is the name of the type, for which the model has no text, and left empty. -/
inductive ECtx where
  | attr (name : Str)
  | item (name : Str) (i : Nat)
  | member (name key : Str)
deriving DecidableEq, Repr

/-- What a method of a generated type does.  Receivers are passed by value and returned;
`marshalTo none` is a nil receiver.  Errors of encoding are described by `EErr`. -/
structure EErr where
  /-- the contexts added by `fmt.Errorf("can't marshal …: %w")`, outermost first -/
  ctx : List ECtx
  code : Nat
deriving DecidableEq, Repr

/-- `jwriter.Writer`: the text written so far and the sticky error.
Simplification: the chunked buffer is one text. -/
structure W where
  buf : Str
  err : Option EErr
deriving DecidableEq, Repr

structure Methods where
  /-- the Go zero value of the type -/
  zero : Out GoVal
  /-- the Go conversion `T(x)` to the type -/
  conv : GoVal → Out GoVal
  /-- `FillFromJSON(v)`: error, and the receiver afterwards -/
  fill : JV → GoVal → Out (Option Err × GoVal)
  /-- `MarshalTo(result)` -/
  marshalTo : Option GoVal → W → Out (Option EErr × W)
  /-- `IsZero()` -/
  isZero : GoVal → Out Bool
  /-- `Reset()` -/
  reset : GoVal → Out GoVal

/-- A package: the declarations the generator resolves names to.  Names without a
declaration here (types of other files, types with hand-written methods) are given by the
method table `ext`. -/
structure Env where
  decl : Nat → Option Decl
  ext : Nat → Methods

/-- No method terminates within zero calls. -/
def Methods.loop : Methods where
  zero := .loop
  conv := fun _ => .loop
  fill := fun _ _ => .loop
  marshalTo := fun _ _ => .loop
  isZero := fun _ => .loop
  reset := fun _ => .loop

/-- Methods of a type that has none. -/
def Methods.unsupp : Methods where
  zero := .unsupp
  conv := fun _ => .unsupp
  fill := fun _ _ => .unsupp
  marshalTo := fun _ _ => .unsupp
  isZero := fun _ => .unsupp
  reset := fun _ => .unsupp

end VJ
