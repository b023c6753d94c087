import Verif.Spec.Encode

/-!
# Values that survive being encoded and decoded again
-/

namespace VJ

mutual
/-- The value without the unused capacity of its slices: what a program sees that does not
look beyond the length of a slice. -/
def GoVal.trim : GoVal → GoVal
  | .ptr v => .ptr v.trim
  | .slice es _ => .slice (trimAll es) []
  | .arr es => .arr (trimAll es)
  | .map kvs => .map (trimMembers kvs)
  | .struct gs => .struct (trimAll gs)
  | v => v
def trimAll : List GoVal → List GoVal
  | [] => []
  | v :: vs => v.trim :: trimAll vs
def trimMembers : List (Str × GoVal) → List (Str × GoVal)
  | [] => []
  | (k, v) :: kvs => (k, v.trim) :: trimMembers kvs
end

/-- `key` is the name of a field of the struct type `n`, or of a struct embedded in it. -/
inductive HasName (Γ : Env) : Nat → Str → Prop
  | own {n : Nat} {strict : Bool} {fields : List FieldDecl} {fd : FieldDecl} (hd : Γ.decl n = some (.struct strict fields))
      (hf : fd ∈ fields) (hn : fd.tags.jsonName ≠ []) : HasName Γ n fd.tags.jsonName
  | embedded {n m : Nat} {strict : Bool} {fields : List FieldDecl} {fd : FieldDecl} {key : Str}
      (hd : Γ.decl n = some (.struct strict fields)) (hf : fd ∈ fields) (hn : fd.tags.jsonName = []) (ht : fd.typ = .named m)
      (h : HasName Γ m key) : HasName Γ n key

/-- `key` is the name of the field, or of a field of the struct embedded by it. -/
def FieldName (Γ : Env) (fd : FieldDecl) (key : Str) : Prop :=
  (fd.tags.jsonName ≠ [] ∧ key = fd.tags.jsonName) ∨ (fd.tags.jsonName = [] ∧ ∃ m, fd.typ = .named m ∧ HasName Γ m key)

/-- the struct `m` is embedded in a struct of `S` -/
def Embedded (Γ : Env) (S : Nat → Prop) (m : Nat) : Prop :=
  ∃ n strict fields fd, S n ∧ Γ.decl n = some (.struct strict fields) ∧ fd ∈ fields ∧ fd.tags.jsonName = [] ∧ fd.typ = .named m

section
variable [Ext]

/-- What is asked of the types. -/
structure TripPackage (Γ : Env) (X : Nat → GoVal → Prop) (F : Nat → Option GoVal → JV → Prop) (S : Nat → Prop) : Prop where
  /-- a field has a name, or embeds a struct of the package -/
  named : ∀ n strict fields fd, S n → Γ.decl n = some (.struct strict fields) → fd ∈ fields →
    fd.tags.jsonName ≠ str "-" ∧ (fd.tags.jsonName = [] → ∃ m fields', fd.typ = .named m ∧ Γ.decl m = some (.struct false fields'))
  /-- no name is used twice -/
  distinct : ∀ n strict fields (i j : Nat) fd fd' key, S n → Γ.decl n = some (.struct strict fields) → fields[i]? = some fd →
    fields[j]? = some fd' → FieldName Γ fd key → FieldName Γ fd' key → i = j
  /-- strict structs embed nothing -/
  strict : ∀ n fields fd, S n → Γ.decl n = some (.struct true fields) → fd ∈ fields → fd.tags.jsonName ≠ []
  /-- fields with a default and required fields are always written, and not as `null` -/
  always : ∀ n strict fields fd, S n → Γ.decl n = some (.struct strict fields) → fd ∈ fields →
    fd.tags.dflt ≠ [] ∨ fd.tags.required = true → fd.tags.omitempty = false ∧ fd.typ.nullLike = false ∧ ¬ Embedded Γ S n
  /-- `0` reads as zero -/
  zeroText : Ext.parseFloat (str "0") = some 0
  /-- types declared elsewhere read back what they have written -/
  foreign : ∀ n v jv, S n → Γ.decl n = none → X n v → F n (some v) jv → ∀ z, (Γ.ext n).zero = .ok z → (Γ.ext n).fill jv z = .ok (none, v.trim)
  foreignConv : ∀ n v, S n → Γ.decl n = none → X n v → (Γ.ext n).conv v.trim = .ok v.trim
  foreignZero : ∀ n z, S n → Γ.decl n = none → (Γ.ext n).zero = .ok z → z.trim = z
  /-- … and write `null` for nil pointers only -/
  foreignNil : ∀ n jv, S n → Γ.decl n = none → F n none jv → jv = .null
  foreignSome : ∀ n v jv, S n → Γ.decl n = none → X n v → v ≠ .nil → F n (some v) jv → jv ≠ .null

/-- `x` is an element, of type `t`, of a slice, an array or a map in the value `V` -/
inductive ElementIn (Γ : Env) (T : TExpr) (V : GoVal) : TExpr → GoVal → Prop
  | slice {t : TExpr} {x : GoVal} {es sp : List GoVal} (h : Part Γ T V (.slice t) (.slice es sp)) (hx : x ∈ es) : ElementIn Γ T V t x
  | array {t : TExpr} {x : GoVal} {len : Nat} {es : List GoVal} (h : Part Γ T V (.array len t) (.arr es)) (hx : x ∈ es) : ElementIn Γ T V t x
  | map {t : TExpr} {kv : Str × GoVal} {kvs : List (Str × GoVal)} (h : Part Γ T V (.map t) (.map kvs)) (hx : kv ∈ kvs) : ElementIn Γ T V t kv.2

/-- `g` is the value of the field `fd` of a struct in the value `V` -/
def FieldIn (Γ : Env) (T : TExpr) (V : GoVal) (fd : FieldDecl) (g : GoVal) : Prop :=
  ∃ e n strict fields gs, ∃ i : Nat, Part Γ T V e (.struct gs) ∧ NameOf e n ∧ Γ.decl n = some (.struct strict fields) ∧
    fields[i]? = some fd ∧ gs[i]? = some g

/-- What is asked of the value `V`, of type `T`, apart from its times. -/
structure LosslessElse (Γ : Env) (T : TExpr) (V : GoVal) : Prop where
  /-- floats read back as they were written (no `-0`, which is written `0`) -/
  floats : ∀ p f, Part Γ T V (.prim p) (.float f) → Ext.parseFloat (Ext.fmtFloat f) = some f ∧ (f.isZero = true → f = 0) ∧
    (p = .float32 → Ext.toFloat32 f = f ∧ Ext.gtMaxFloat32 f = false)
  /-- what is omitted is zero -/
  omits : ∀ fd g, FieldIn Γ T V fd g → Omitted Γ fd g → ZeroOf Γ fd.typ g
  /-- nil pointers to times are omitted -/
  nilTimes : ∀ fd, FieldIn Γ T V fd .nil → fd.typ = .star .time → fd.tags.omitempty = true
  /-- fields that are nil have a type written out, a byte-slice type, or are omitted -/
  nilFields : ∀ fd, FieldIn Γ T V fd .nil → fd.typ.nullLike = true ∨ fd.tags.omitempty = true ∨ Is Γ fd.typ (.slice (.prim .byte))
  /-- elements that are nil are pointers or byte slices, or of a type declared elsewhere -/
  nilElements : ∀ t, ElementIn Γ T V t .nil → (∃ y, t = .star y) ∨ Is Γ t (.slice (.prim .byte)) ∨ ∃ n, NameOf t n ∧ Γ.decl n = none
  /-- if the value itself is nil, its type is declared as a slice or map, not as the name of one -/
  nilTop : ∀ n u, T = .named n → V = .nil → Γ.decl n = some (.alias u) → IsCollection u
  /-- no nil pointers to structs without fields -/
  nilEmpty : ∀ y n strict, ElementIn Γ T V (.star y) .nil → NameOf y n → Γ.decl n ≠ some (.struct strict [])
  /-- no pointers to nil pointers -/
  nilPtrs : ∀ t, ¬ Part Γ T V (.star t) (.ptr .nil)

/-- What is asked of the value `V`, of type `T`: nothing in it is of the kind that encoding
loses. -/
structure Lossless (Γ : Env) (T : TExpr) (V : GoVal) : Prop extends LosslessElse Γ T V where
  /-- times read back as they were written, in the default layouts and in those of the tags -/
  times : ∀ tm, Part Γ T V .time (.time tm) → Ext.parseTime layoutNano (Ext.fmtTime layoutNano tm) = some tm ∧
    ∀ s, Ext.timeText tm = some s → ReadsTime [] s tm
  timeFields : ∀ fd tm, FieldIn Γ T V fd (.time tm) ∨ FieldIn Γ T V fd (.ptr (.time tm)) → pointee fd.typ = .time →
    ReadsTime fd.tags.layout (Ext.fmtTime (writeLayout fd.tags.layout) tm) tm ∧
    (tm.isZero = true → tm = .zero ∧ ReadsTime fd.tags.layout (Ext.fmtTime (zeroLayout fd.tags.layout) tm) tm)

end

end VJ
