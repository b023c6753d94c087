import Verif.Spec.Typing

/-!
# What `Reset` does, and what a receiver owes to its past
-/

namespace VJ

variable [Ext]

/-- What the generated `Reset` relies on. -/
structure ResetPackage (Γ : Env) (X : Nat → GoVal → Prop) (S : Nat → Prop) : Prop where
  closed : ∀ n d t m, S n → Γ.decl n = some d → t ∈ d.types → m ∈ t.names → S m
  noAnon : ∀ n d t, S n → Γ.decl n = some d → t ∈ d.types → t.anon = false
  /-- `Reset` is generated and what is generated is valid Go -/
  generated : ∀ n d, S n → Γ.decl n = some d → ∃ k ir, genResetDecl Γ k d = .ok ir
  /-- a variable of the type can be declared -/
  zeros : ∀ n, S n → ∃ z, ZeroIs Γ n z ∧ HasType Γ X (.named n) z
  /-- types declared elsewhere, or with hand-written methods, have a right `Reset` -/
  foreign : ∀ n v, S n → Γ.decl n = none → X n v → ∃ z, (Γ.ext n).reset v = .ok z ∧ (Γ.ext n).zero = .ok z

/-- `Clears Γ t old new`: `new` is what is left of `old`, a value of type `t`, when it is
cleared: the zero value of the type, except that a slice or map that was there may stay, empty.
Nothing that was in `old` can be seen in `new`. -/
inductive Clears (Γ : Env) : TExpr → GoVal → GoVal → Prop
  | zero {t : TExpr} {old z : GoVal} (h : ZeroOf Γ t z) : Clears Γ t old z
  | slice {t : TExpr} {es sp sp' : List GoVal} (hl : sp'.length = es.length + sp.length) :
      Clears Γ (.slice t) (.slice es sp) (.slice [] sp')
  | bytes {b : List UInt8} : Clears Γ (.slice (.prim .byte)) (.bytes b) (.bytes [])
  | map {t : TExpr} {kvs : List (Str × GoVal)} (h : kvs.length ≤ 10000) : Clears Γ (.map t) (.map kvs) (.map [])
  | alias {e t : TExpr} {n : Nat} {old new : GoVal} (he : NameOf e n) (hd : Γ.decl n = some (.alias t))
      (h : Clears Γ t old new) : Clears Γ e old new
  | struct {e : TExpr} {n : Nat} {strict : Bool} {fields : List FieldDecl} {olds news : List GoVal} (he : NameOf e n)
      (hd : Γ.decl n = some (.struct strict fields)) (hlo : olds.length = fields.length) (hln : news.length = fields.length)
      (h : ∀ (i : Nat) (fd : FieldDecl) (old new : GoVal), fields[i]? = some fd → olds[i]? = some old →
        news[i]? = some new → Clears Γ fd.typ old new) : Clears Γ e (.struct olds) (.struct news)

/-- Every slice and map in the value (not behind a pointer) is nil. -/
inductive NoStorage : GoVal → Prop
  | struct {vs : List GoVal} (h : ∀ v ∈ vs, NoStorage v) : NoStorage (.struct vs)
  | other {v : GoVal} (hs : ∀ es sp, v ≠ .slice es sp) (hb : ∀ b, v ≠ .bytes b) (hm : ∀ kvs, v ≠ .map kvs)
      (hst : ∀ vs, v ≠ .struct vs) : NoStorage v

/-- Values of the type hold no slice and no map, except behind pointers. -/
inductive NoCollections (Γ : Env) : TExpr → Prop
  | prim (p : Prim) : NoCollections Γ (.prim p)
  | time : NoCollections Γ .time
  | uuid : NoCollections Γ .uuid
  | star (t : TExpr) : NoCollections Γ (.star t)
  | array (n : Nat) (t : TExpr) : NoCollections Γ (.array n t)
  | alias {e t : TExpr} {n : Nat} (he : NameOf e n) (hd : Γ.decl n = some (.alias t)) (h : NoCollections Γ t) : NoCollections Γ e
  | struct {e : TExpr} {n : Nat} {strict : Bool} {fields : List FieldDecl} (he : NameOf e n)
      (hd : Γ.decl n = some (.struct strict fields)) (h : ∀ fd ∈ fields, NoCollections Γ fd.typ) : NoCollections Γ e
  | foreign {e : TExpr} {n : Nat} (he : NameOf e n) (hd : Γ.decl n = none) : NoCollections Γ e

/-! ## Receivers that are as good as new -/

/-- A place of this type does not show, after decoding, what it held before: scalars, strings,
byte slices, and pointers (except to types whose errors get lost). -/
inductive Inert (Γ : Env) : TExpr → Prop
  | prim {t : TExpr} {p : Prim} (h : PrimName Γ t p) : Inert Γ t
  | ptr {t : TExpr} (h : ¬ LosesErrors Γ (.star t)) : Inert Γ (.star t)
  | bytes {t : TExpr} (h : Is Γ t (.slice (.prim .byte))) : Inert Γ t

/-- As good as new: the zero value, except that slices and maps may be empty instead of nil.
Between the length and the capacity of a slice there are only values that are as good as new
(or cannot show). -/
inductive AsNew (Γ : Env) : TExpr → GoVal → Prop
  | zero {t : TExpr} {z : GoVal} (h : ZeroOf Γ t z) : AsNew Γ t z
  | slice {t : TExpr} {sp : List GoVal} (h : ¬ Inert Γ t → ∀ x ∈ sp, AsNew Γ t x)
      (hl : LosesErrors Γ t → ∀ x ∈ sp, ZeroOf Γ t x) : AsNew Γ (.slice t) (.slice [] sp)
  | bytes : AsNew Γ (.slice (.prim .byte)) (.bytes [])
  | map (t : TExpr) : AsNew Γ (.map t) (.map [])
  | alias {e t : TExpr} {n : Nat} {v : GoVal} (he : NameOf e n) (hd : Γ.decl n = some (.alias t))
      (h : AsNew Γ t v) : AsNew Γ e v
  | struct {e : TExpr} {n : Nat} {strict : Bool} {fields : List FieldDecl} {gs : List GoVal} (he : NameOf e n)
      (hd : Γ.decl n = some (.struct strict fields)) (hl : gs.length = fields.length)
      (h : ∀ (i : Nat) (fd : FieldDecl) (g : GoVal), fields[i]? = some fd → gs[i]? = some g → AsNew Γ fd.typ g) :
      AsNew Γ e (.struct gs)

/-- No leftovers: between the length and the capacity of every slice (not behind a pointer)
there are only values that are as good as new, or cannot show; and there are no maps as
elements of slices. -/
inductive NoLeftovers (Γ : Env) : TExpr → GoVal → Prop
  | slice {t : TExpr} {es sp : List GoVal} (he : ∀ x ∈ es, NoLeftovers Γ t x) (hm : ∀ val, ¬ Is Γ t (.map val))
      (h : ¬ Inert Γ t → ∀ x ∈ sp, AsNew Γ t x)
      (hl : LosesErrors Γ t → ∀ x ∈ sp, ZeroOf Γ t x) : NoLeftovers Γ (.slice t) (.slice es sp)
  | other {t : TExpr} {v : GoVal} (hs : ∀ es sp, v ≠ .slice es sp) (hst : ∀ vs, v ≠ .struct vs) : NoLeftovers Γ t v
  | alias {e t : TExpr} {n : Nat} {v : GoVal} (he : NameOf e n) (hd : Γ.decl n = some (.alias t))
      (h : NoLeftovers Γ t v) : NoLeftovers Γ e v
  | struct {e : TExpr} {n : Nat} {strict : Bool} {fields : List FieldDecl} {gs : List GoVal} (he : NameOf e n)
      (hd : Γ.decl n = some (.struct strict fields))
      (h : ∀ (i : Nat) (fd : FieldDecl) (g : GoVal), fields[i]? = some fd → gs[i]? = some g → NoLeftovers Γ fd.typ g) :
      NoLeftovers Γ e (.struct gs)
  | foreign {e : TExpr} {n : Nat} {v : GoVal} (he : NameOf e n) (hd : Γ.decl n = none) : NoLeftovers Γ e v

/-- The elements of slices written in the package are scalars, strings, byte slices or pointers,
and not pointers to times, UUIDs or maps. -/
def InertSlices (Γ : Env) (S : Nat → Prop) : Prop :=
  ∀ n d t, S n → Γ.decl n = some d → .slice t ∈ d.types → t ≠ .prim .byte → Inert Γ t ∧ ¬ LosesErrors Γ t

/-- A receiver that was declared, and then decoded into and reset any number of times,
whatever the documents and whether decoding failed. -/
inductive Life (Γ : Env) (n : Nat) : GoVal → Prop
  | new {z : GoVal} (h : ZeroIs Γ n z) : Life Γ n z
  | decode {s s' : GoVal} {doc : JV} {e : Option Err} (h : Life Γ n s) (hf : Fills Γ n doc s e s') : Life Γ n s'
  | reset {s s' : GoVal} (h : Life Γ n s) (hr : ResetsTo Γ n s s') : Life Γ n s'

/-- The first value is the second, except that an empty slice or map may stand for a nil one,
and capacities may differ. -/
inductive SameButEmpty : GoVal → GoVal → Prop
  | refl (v : GoVal) : SameButEmpty v v
  | slice {es es' sp sp' : List GoVal} (hl : es.length = es'.length)
      (h : ∀ (i : Nat) (v v' : GoVal), es[i]? = some v → es'[i]? = some v' → SameButEmpty v v') :
      SameButEmpty (.slice es sp) (.slice es' sp')
  | emptySlice {sp : List GoVal} : SameButEmpty (.slice [] sp) .nil
  | emptyBytes : SameButEmpty (.bytes []) .nil
  | emptyMap : SameButEmpty (.map []) .nil
  | struct {gs gs' : List GoVal} (hl : gs.length = gs'.length)
      (h : ∀ (i : Nat) (v v' : GoVal), gs[i]? = some v → gs'[i]? = some v' → SameButEmpty v v') :
      SameButEmpty (.struct gs) (.struct gs')

end VJ
