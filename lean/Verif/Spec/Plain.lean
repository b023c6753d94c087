import Verif.Spec.RoundTrip
import Verif.Spec.EncodeTotal

/-!
# Types whose every value survives

Conditions on declarations only: nothing is asked of the values.
-/

namespace VJ

/-- Kinds of values of which not every one survives. -/
structure Kinds where
  floats : Bool := false
  times : Bool := false

/-- Types whose values are never nil: integers, booleans, strings, UUIDs, structs, and names for
such types; and floats and times if `K` allows them. -/
inductive Solid (K : Kinds) (Γ : Env) : TExpr → Prop
  | prim {p : Prim} (h : p ≠ .float32 ∧ p ≠ .float64) : Solid K Γ (.prim p)
  | float {p : Prim} (h : K.floats = true) : Solid K Γ (.prim p)
  | time (h : K.times = true) : Solid K Γ .time
  | uuid : Solid K Γ .uuid
  | struct {n : Nat} {strict : Bool} {fields : List FieldDecl} (hd : Γ.decl n = some (.struct strict fields)) : Solid K Γ (.named n)
  | name {n : Nat} {u : TExpr} (hd : Γ.decl n = some (.alias u)) (h : Solid K Γ u) : Solid K Γ (.named n)

/-- Such types, and pointers to them (but not to UUIDs, and not to structs without fields). -/
inductive Simple (K : Kinds) (Γ : Env) : TExpr → Prop
  | solid {t : TExpr} (h : Solid K Γ t) : Simple K Γ t
  | ptr {t : TExpr} (h : Solid K Γ t) (hu : t ≠ .uuid) (he : ∀ n strict, t = .named n → Γ.decl n ≠ some (.struct strict [])) :
      Simple K Γ (.star t)

/-- … and slices, maps and fixed-length arrays of them, one deep. -/
inductive PlainType (K : Kinds) (Γ : Env) : TExpr → Prop
  | simple {t : TExpr} (h : Simple K Γ t) : PlainType K Γ t
  | slice {t : TExpr} (h : Simple K Γ t) : PlainType K Γ (.slice t)
  | map {t : TExpr} (h : Simple K Γ t) : PlainType K Γ (.map t)
  | array {t : TExpr} (len : Nat) (h : Simple K Γ t) (hb : t ≠ .prim .byte) : PlainType K Γ (.array len t)

/-- A field that is sure to survive. -/
structure PlainField (K : Kinds) (Γ : Env) (fd : FieldDecl) : Prop where
  /-- it has a name of its own -/
  named : fd.tags.jsonName ≠ [] ∧ fd.tags.jsonName ≠ str "-"
  /-- its type is plain, or the name of a plain type; in that case it has the option `omitempty` -/
  typ : PlainType K Γ fd.typ ∨ fd.tags.omitempty = true ∧ ∃ n u, fd.typ = .named n ∧ Γ.decl n = some (.alias u) ∧ PlainType K Γ u
  /-- structs do not have that option -/
  structs : fd.tags.omitempty = true → ∀ n strict fields, fd.typ = .named n → Γ.decl n ≠ some (.struct strict fields)
  /-- nor do fields with a default and required fields, and these are not of a type that can be nil -/
  always : fd.tags.dflt ≠ [] ∨ fd.tags.required = true → fd.tags.omitempty = false ∧ fd.typ.nullLike = false
  /-- times have the default layout, and pointers to times have the option `omitempty` -/
  times : pointee fd.typ = .time → fd.tags.layout = [] ∧ (fd.typ = .star .time → fd.tags.omitempty = true)

/-- `S` is a set of types of a package, all declared here, built from plain types. -/
structure PlainPackageOf [Ext] (K : Kinds) (Γ : Env) (S : Nat → Prop) : Prop where
  closed : ∀ n d t m, S n → Γ.decl n = some d → t ∈ d.types → m ∈ t.names → S m
  declared : ∀ n, S n → Γ.decl n ≠ none
  /-- what is generated is valid Go -/
  decoders : ∀ n, S n → HasDecoder Γ n
  encoders : ∀ n, S n → HasEncoder Γ n
  zeros : ∀ n d, S n → Γ.decl n = some d → ∃ k ir, genZero Γ k d = .ok ir
  /-- no type contains itself -/
  acyclic : ∃ rank : Nat → Nat, ∀ n d m, S n → Γ.decl n = some d → m ∈ d.inner → rank m < rank n
  fields : ∀ n strict fields fd, S n → Γ.decl n = some (.struct strict fields) → fd ∈ fields → PlainField K Γ fd
  /-- no name is used twice in a struct -/
  distinct : ∀ n strict fields, S n → Γ.decl n = some (.struct strict fields) → (fields.map fun fd => fd.tags.jsonName).Nodup
  /-- a pointer field without `omitempty` stands somewhere after a field that is not a pointer and does not have
  `omitempty` either (for otherwise a comma is missing, see C21) -/
  commas : ∀ n strict fields (i : Nat) fd, S n → Γ.decl n = some (.struct strict fields) → fields[i]? = some fd →
    (∃ t, fd.typ = .star t) → fd.tags.omitempty = false →
    ∃ (j : Nat) (fd' : FieldDecl), j < i ∧ fields[j]? = some fd' ∧ (∀ t, fd'.typ ≠ .star t) ∧ fd'.tags.omitempty = false
  /-- types declared by name are plain and not pointers -/
  names : ∀ n u, S n → Γ.decl n = some (.alias u) → PlainType K Γ u ∧ ∀ t, u ≠ .star t

/-- … without floats and times. -/
abbrev PlainPackage [Ext] (Γ : Env) (S : Nat → Prop) : Prop := PlainPackageOf {} Γ S

section
variable [Ext]

/-- The floats and times in the value `V` are of the kind that is kept. -/
structure KeptParts (Γ : Env) (T : TExpr) (V : GoVal) : Prop where
  /-- floats are written as numbers, which read back as the same floats (no `-0`, which is written `0`) -/
  floats : ∀ p f, Part Γ T V (.prim p) (.float f) → NumText (Ext.fmtFloat f) ∧ Ext.parseFloat (Ext.fmtFloat f) = some f ∧
    (f.isZero = true → f = 0) ∧ (p = .float32 → Ext.toFloat32 f = f ∧ Ext.gtMaxFloat32 f = false)
  /-- times have a text and read back as they were written, and the zero instant is in UTC -/
  times : ∀ t, Part Γ T V .time (.time t) → Ext.parseTime layoutNano (Ext.fmtTime layoutNano t) = some t ∧
    (∃ s, Ext.timeText t = some s) ∧ (∀ s, Ext.timeText t = some s → ReadsTime [] s t) ∧
    ReadsTime [] (Ext.fmtTime (writeLayout []) t) t ∧
    (t.isZero = true → t = .zero ∧ ReadsTime [] (Ext.fmtTime (zeroLayout []) t) t)

end

end VJ
