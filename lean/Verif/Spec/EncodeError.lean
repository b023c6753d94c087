import Verif.Spec.Encode

/-!
# Values that cannot be encoded

The only values the generated encoders refuse are times, of types declared as `time.Time`, that
have no text (their year has more than four digits).  `Unwritable` says where in a value there
is one, and what the way there is called in an error.
-/

namespace VJ

/-- the name of an item of a list -/
def atItem (name : Str) (i : Nat) : ECtx := .item name i
/-- the name of a member of a map -/
def atMember (name key : Str) : ECtx := .member name key

variable [Ext]

/-- `Unwritable Γ place v pos names emb`: in the value `v`, which stands in that place, there is
a time that is to be written and has no text.  `pos` is where it is: which field, item or member,
in which field, item or member of that, and so on; `names` is the way there as an error names it:
fields by their JSON names, items and members by the name of the list or map and their index or
key. `emb`: the way leads through an embedded struct, which has no name. -/
inductive Unwritable (Γ : Env) : Place → GoVal → List Nat → List ECtx → Bool → Prop
  -- declared types
  | time {n : Nat} {tm : Time} (hd : Γ.decl n = some (.alias .time)) (h : Ext.timeText tm = none) : Unwritable Γ (.decl n) (.time tm) [] [] false
  | struct {n i : Nat} {strict : Bool} {fields : List FieldDecl} {gs : List GoVal} {fd : FieldDecl} {g : GoVal} {pos : List Nat} {p : List ECtx}
      {b : Bool} (hd : Γ.decl n = some (.struct strict fields)) (hf : fields[i]? = some fd) (hg : gs[i]? = some g) (ho : ¬ Omitted Γ fd g)
      (h : Unwritable Γ (.field fd) g pos p b) : Unwritable Γ (.decl n) (.struct gs) (i :: pos) p b
  | namedList {n i : Nat} {u e : TExpr} {v x : GoVal} {es : List GoVal} {pos : List Nat} {p : List ECtx} {b : Bool}
      (hd : Γ.decl n = some (.alias u)) (hb : e ≠ .prim .byte) (hu : u = .slice e ∨ ∃ len, u = .array len e) (hv : Listing v es)
      (hx : es[i]? = some x) (h : Unwritable Γ (.elem true e) x pos p b) : Unwritable Γ (.decl n) v (i :: pos) (atItem [] i :: p) b
  | namedMap {n i : Nat} {e : TExpr} {kvs : List (Str × GoVal)} {key : Str} {x : GoVal} {pos : List Nat} {p : List ECtx} {b : Bool}
      (hd : Γ.decl n = some (.alias (.map e))) (hx : kvs[i]? = some (key, x)) (h : Unwritable Γ (.elem true e) x pos p b) :
      Unwritable Γ (.decl n) (.map kvs) (i :: pos) (atMember [] key :: p) b
  | namedName {n m : Nat} {u : TExpr} {v : GoVal} {pos : List Nat} {p : List ECtx} {b : Bool} (hd : Γ.decl n = some (.alias u))
      (hu : NameOf u m) (h : Unwritable Γ (.decl m) v pos p b) : Unwritable Γ (.decl n) v pos p b
  -- elements
  | ptr {o : Bool} {y : TExpr} {n : Nat} {v : GoVal} {pos : List Nat} {p : List ECtx} {b : Bool} (hy : NameOf y n)
      (hp : ∀ p, ¬ IsPrim Γ y p) (h : Unwritable Γ (.decl n) v pos p b) : Unwritable Γ (.elem o (.star y)) (.ptr v) pos p b
  | name {o : Bool} {t : TExpr} {n : Nat} {v : GoVal} {pos : List Nat} {p : List ECtx} {b : Bool} (ht : NameOf t n)
      (hp : ∀ p, ¬ IsPrim Γ t p) (hl : o = true → ∀ e, ¬ ListOf Γ t e) (h : Unwritable Γ (.decl n) v pos p b) :
      Unwritable Γ (.elem o t) v pos p b
  /-- an item of a list inside a list or map is not named -/
  | list {t e : TExpr} {v x : GoVal} {es : List GoVal} {i : Nat} {pos : List Nat} {p : List ECtx} {b : Bool} (ht : ListOf Γ t e)
      (hv : Listing v es) (hx : es[i]? = some x) (h : Unwritable Γ (.elem false e) x pos p b) : Unwritable Γ (.elem true t) v (i :: pos) p b
  -- struct fields
  | field {fd : FieldDecl} {n : Nat} {v : GoVal} {pos : List Nat} {p : List ECtx} {b : Bool} (hk : FieldKind Γ fd.typ (.method n))
      (hn : fd.tags.jsonName ≠ []) (h : Unwritable Γ (.decl n) v pos p b) : Unwritable Γ (.field fd) v pos (.attr fd.tags.jsonName :: p) b
  | ptrField {fd : FieldDecl} {n : Nat} {v : GoVal} {pos : List Nat} {p : List ECtx} {b : Bool} (hk : FieldKind Γ fd.typ (.methodPtr n))
      (h : Unwritable Γ (.decl n) v pos p b) : Unwritable Γ (.field fd) (.ptr v) pos (.attr fd.tags.jsonName :: p) b
  | embedded {fd : FieldDecl} {n : Nat} {v : GoVal} {pos : List Nat} {p : List ECtx} {b : Bool} (hk : FieldKind Γ fd.typ (.method n))
      (hn : fd.tags.jsonName = []) (h : Unwritable Γ (.decl n) v pos p b) : Unwritable Γ (.field fd) v pos p true
  | mapField {fd : FieldDecl} {e : TExpr} {kvs : List (Str × GoVal)} {i : Nat} {key : Str} {x : GoVal} {pos : List Nat} {p : List ECtx} {b : Bool}
      (hk : FieldKind Γ fd.typ (.map e)) (hx : kvs[i]? = some (key, x)) (h : Unwritable Γ (.elem true e) x pos p b) :
      Unwritable Γ (.field fd) (.map kvs) (i :: pos) (atMember fd.tags.jsonName key :: p) b
  | listField {fd : FieldDecl} {e : TExpr} {v x : GoVal} {es : List GoVal} {i : Nat} {pos : List Nat} {p : List ECtx} {b : Bool}
      (hk : FieldKind Γ fd.typ (.list e)) (hv : Listing v es) (hx : es[i]? = some x) (h : Unwritable Γ (.elem true e) x pos p b) :
      Unwritable Γ (.field fd) v (i :: pos) (atItem fd.tags.jsonName i :: p) b

/-- What is asked of a package: its hand-written encoders append only and never fail, and no
struct embeds a type that has one. -/
structure QuietPackage (Γ : Env) (S : Nat → Prop) : Prop extends TypeSet Γ S where
  tame : ForeignTame Γ
  quiet : ∀ n r w e w', Γ.decl n = none → w.err = none → (Γ.ext n).marshalTo r w = .ok (e, w') → e = none ∧ w'.err = none
  embeds : ∀ n strict fields fd m, S n → Γ.decl n = some (.struct strict fields) → fd ∈ fields → fd.tags.jsonName = [] →
    ByMethod Γ fd.typ m → Γ.decl m ≠ none

end VJ
