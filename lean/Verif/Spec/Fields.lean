import Verif.Spec.Api
import Verif.Spec.Struct
import Verif.Spec.Codecs
import Verif.Spec.GoText

/-!
# Vocabulary about fields, defaults and null
-/

namespace VJ

/-- `m` is a type with the single field `fd`: decoding into it is what "decoding this field
alone" means. -/
def SingleField (Γ : Env) (m : Nat) (fd : FieldDecl) : Prop := Γ.decl m = some (.struct false [fd])

/-- Decoding `doc` into a struct of type `n` succeeded; `fd` is one of its fields, which held
`old` before and holds `new` afterwards. -/
def FieldAfter [Ext] (Γ : Env) (n : Nat) (doc : JV) (fd : FieldDecl) (old new : GoVal) : Prop :=
  ∃ (strict : Bool) (fields : List FieldDecl) (gs gs' : List GoVal) (i : Nat), Γ.decl n = some (.struct strict fields) ∧
    fields[i]? = some fd ∧ gs[i]? = some old ∧ gs'[i]? = some new ∧ Fills Γ n doc (.struct gs) none (.struct gs')

/-- A field of type `t` holds `x`; a field of a pointer type points to it. -/
def Holds : TExpr → GoVal → GoVal → Prop
  | .star _, field, x => field = .ptr x
  | _, field, x => field = x

/-- `t` is the predeclared type `p`, or a name declared as it. -/
inductive IsPrim (Γ : Env) : TExpr → Prim → Prop
  | self (p : Prim) : IsPrim Γ (.prim p) p
  | named {n : Nat} {p : Prim} (h : Γ.decl n = some (.alias (.prim p))) : IsPrim Γ (.named n) p
  | sel {n : Nat} {p : Prim} (h : Γ.decl n = some (.alias (.prim p))) : IsPrim Γ (.sel n) p

/-- the integer types -/
def Prim.isInt : Prim → Bool
  | .int | .int8 | .int16 | .int32 | .int64 | .uint | .uint8 | .uint16 | .uint32 | .uint64 => true
  | _ => false

/-- value range of an integer type, in Go's specification -/
def Prim.inRange : Prim → Int → Prop
  | .int8, i => -128 ≤ i ∧ i ≤ 127
  | .int16, i => -32768 ≤ i ∧ i ≤ 32767
  | .int32, i | .rune, i => -2147483648 ≤ i ∧ i ≤ 2147483647
  | .int64, i | .int, i => -9223372036854775808 ≤ i ∧ i ≤ 9223372036854775807
  | .uint8, i | .byte, i => 0 ≤ i ∧ i ≤ 255
  | .uint16, i => 0 ≤ i ∧ i ≤ 65535
  | .uint32, i => 0 ≤ i ∧ i ≤ 4294967295
  | .uint64, i | .uint, i => 0 ≤ i ∧ i ≤ 18446744073709551615
  | _, _ => True

/-- The constant a default tag denotes for a predeclared type. -/
inductive PrimLiteral [Ext] : Prim → Str → GoVal → Prop
  | int {p : Prim} {text : Str} {i : Int} (hp : p.isInt = true) (h : GoInteger text i) (hr : p.inRange i) : PrimLiteral p text (.int i)
  /-- the text of the tag as the Go compiler reads it between quotes: the text itself, unless it
  contains backslashes -/
  | string {text s : Str} (h : ReadAsSource text s) : PrimLiteral .string text (.str s)
  | boolTrue : PrimLiteral .bool (str "true") (.bool true)
  | boolFalse : PrimLiteral .bool (str "false") (.bool false)
  | float64 {text : Str} {f : F64} (h : Ext.parseFloat text = some f) : PrimLiteral .float64 text (.float f)
  | float32 {text : Str} {f : F64} (h : Ext.parseFloat text = some f) :
      PrimLiteral .float32 text (.float (Ext.toFloat32 f))

/-- The value a default tag denotes for a type. -/
inductive DefaultValue [Ext] (Γ : Env) : TExpr → Str → GoVal → Prop
  | prim {t : TExpr} {p : Prim} {text : Str} {v : GoVal} (ht : IsPrim Γ t p) (h : PrimLiteral p text v) :
      DefaultValue Γ t text v
  /-- a pointer to the constant -/
  | ptr {t : TExpr} {text : Str} {v : GoVal} (h : DefaultValue Γ t text v) : DefaultValue Γ (.star t) text (.ptr v)
  /-- a type declared as a pointer -/
  | named {n : Nat} {t : TExpr} {text : Str} {v : GoVal} (hn : Γ.decl n = some (.alias t))
      (h : DefaultValue Γ t text v) : DefaultValue Γ (.named n) text v

/-- Types written as a pointer, a slice, an array or a map literal (or a struct literal,
which the model does not follow further): `null` counts as absent. -/
def TExpr.nullLike : TExpr → Bool
  | .star _ | .slice _ | .array _ _ | .map _ | .structT => true
  | _ => false

/-- `t` is a pointer type, written out or declared by a name. -/
inductive IsPointer (Γ : Env) : TExpr → Prop
  | star (t : TExpr) : IsPointer Γ (.star t)
  | named {n : Nat} {t : TExpr} (h : Γ.decl n = some (.alias (.star t))) : IsPointer Γ (.named n)

/-- Hand-written decode methods do not produce the generator's own error "required element
is missing" without a path. -/
def HandWrittenOK (Γ : Env) : Prop :=
  ∀ n v s e s' name, (Γ.ext n).fill v s = .ok (some e, s') → e ≠ ⟨none, .required name⟩

/-- Types for which `null` is an error: scalars, strings, times, UUIDs (directly or by name),
named structs, and names declared as a collection (not of bytes). -/
inductive NullRejecting (Γ : Env) : TExpr → Prop
  | prim {t : TExpr} {p : Prim} (h : IsPrim Γ t p) : NullRejecting Γ t
  | time : NullRejecting Γ .time
  | uuid : NullRejecting Γ .uuid
  | namedTime {n : Nat} (h : Γ.decl n = some (.alias .time)) : NullRejecting Γ (.named n)
  | namedUuid {n : Nat} (h : Γ.decl n = some (.alias .uuid)) : NullRejecting Γ (.named n)
  | struct {n : Nat} {strict : Bool} {fields : List FieldDecl} (h : Γ.decl n = some (.struct strict fields)) :
      NullRejecting Γ (.named n)
  | namedSlice {n : Nat} {t : TExpr} (h : Γ.decl n = some (.alias (.slice t))) (hb : t ≠ .prim .byte) :
      NullRejecting Γ (.named n)
  | namedArray {n len : Nat} {t : TExpr} (h : Γ.decl n = some (.alias (.array len t))) (hb : t ≠ .prim .byte) :
      NullRejecting Γ (.named n)
  | namedMap {n : Nat} {t : TExpr} (h : Γ.decl n = some (.alias (.map t))) : NullRejecting Γ (.named n)

end VJ
