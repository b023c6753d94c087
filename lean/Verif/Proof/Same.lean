import Verif.Spec.Same

/-!
# Types declared alike have the same methods

The generator is run on both packages in parallel: what it emits is the same up to names, and
running it gives the same results.
-/

set_option linter.unusedSectionVars false

namespace VJ

/-- the same kind of outcome, with related results -/
inductive ORel {α β : Type} (P : α → β → Prop) : Out α → Out β → Prop
  | ok {a : α} {b : β} (h : P a b) : ORel P (.ok a) (.ok b)
  | panic : ORel P .panic .panic
  | loop : ORel P .loop .loop
  | unsupp : ORel P .unsupp .unsupp

theorem ORel.bind {α β γ δ : Type} {P : α → β → Prop} {Q : γ → δ → Prop} {x : Out α} {y : Out β}
    {f : α → Out γ} {g : β → Out δ} (h : ORel P x y) (hf : ∀ a b, P a b → ORel Q (f a) (g b)) :
    ORel Q (x >>= f) (y >>= g) := by
  cases h with
  | ok h => exact hf _ _ h
  | panic => exact .panic
  | loop => exact .loop
  | unsupp => exact .unsupp

theorem ORel.same {α : Type} (x : Out α) : ORel Eq x x := by
  cases x with
  | ok a => exact .ok rfl
  | panic => exact .panic
  | loop => exact .loop
  | unsupp => exact .unsupp

theorem ORel.eq {α : Type} {x y : Out α} (h : ORel Eq x y) : x = y := by
  cases h with
  | ok h => rw [h]
  | _ => rfl

/-- binding a related pair and running both -/
theorem ORel.bind_eq {α β γ : Type} {P : α → β → Prop} {x : Out α} {y : Out β} {f : α → Out γ} {g : β → Out γ}
    (h : ORel P x y) (hf : ∀ a b, P a b → f a = g b) : (x >>= f) = (y >>= g) := by
  cases h with
  | ok h => exact hf _ _ h
  | _ => rfl

section
variable {R : Nat → Nat → Prop} {Γ Δ : Env}

theorem denotedIdent_same (hA : DeclaredAlike R Γ Δ) {n m : Nat} {t u : TExpr} (h : R n m) (ht : SameT R t u) :
    SameT R (Γ.denotedIdent n t) (Δ.denotedIdent m u) := by
  unfold Env.denotedIdent
  rcases hA n m h with ⟨d, e, hd, he, hs⟩ | ⟨hd, he, _⟩
  · rw [hd, he]
    cases hs with
    | struct => exact .structT
    | «alias» h => exact h
  · rw [hd, he]; exact ht

theorem denoted_same (hA : DeclaredAlike R Γ Δ) {t u : TExpr} (h : SameT R t u) : SameT R (Γ.denoted t) (Δ.denoted u) := by
  cases h with
  | named h => exact denotedIdent_same hA h (.named h)
  | sel h => exact denotedIdent_same hA h (.sel h)
  | prim p => exact .prim p
  | time => exact .time
  | uuid => exact .uuid
  | structT => exact .structT
  | star h => exact .star h
  | slice h => exact .slice h
  | array n h => exact .array n h
  | map h => exact .map h

theorem SameT.isOrdinal {t u : TExpr} (h : SameT R t u) : t.isOrdinal = u.isOrdinal := by cases h <;> rfl

theorem SameT.isByte {t u : TExpr} (h : SameT R t u) : t.isByte = u.isByte := by
  cases h with
  | prim p => rfl
  | _ => rfl

theorem SameT.isFixed {t u : TExpr} (h : SameT R t u) : t.isFixedArray = u.isFixedArray := by cases h <;> rfl

/-- comparison with a predeclared type -/
theorem SameT.beq_prim {t u : TExpr} (h : SameT R t u) (p : Prim) : (t == .prim p) = (u == .prim p) := by
  cases h with
  | prim q => rfl
  | _ => rfl

theorem SameT.eq_prim {t u : TExpr} (h : SameT R t u) (p : Prim) : t = .prim p ↔ u = .prim p := by
  cases h with
  | prim q => exact Iff.rfl
  | _ => simp

theorem SameT.bne_prim {t u : TExpr} (h : SameT R t u) (p : Prim) : (t != .prim p) = (u != .prim p) := by
  unfold bne; rw [h.beq_prim]

/-! ## What the generator emits -/

inductive SameStore (R : Nat → Nat → Prop) : ElemStore → ElemStore → Prop
  | ref {t u : TExpr} (h : SameT R t u) : SameStore R (.ref t) (.ref u)
  | val {t u : TExpr} (h : SameT R t u) : SameStore R (.val t) (.val u)
  | filled : SameStore R .filled .filled

inductive SameX (R : Nat → Nat → Prop) : Extr → Extr → Prop
  | int : SameX R .int .int
  | uint : SameX R .uint .uint
  | float : SameX R .float .float
  | bool : SameX R .bool .bool
  | strChecked (p : PathE) : SameX R (.strChecked p) (.strChecked p)
  | strUnchecked : SameX R .strUnchecked .strUnchecked
  | time (j : Str) (l : Option Str) : SameX R (.time j l) (.time j l)
  | uuid (j : Str) : SameX R (.uuid j) (.uuid j)
  | nestedFresh {t u : TExpr} (h : SameT R t u) : SameX R (.nestedFresh t) (.nestedFresh u)
  | nestedInPlace {t u : TExpr} (h : SameT R t u) : SameX R (.nestedInPlace t) (.nestedInPlace u)
  | bytes (l : Option Nat) : SameX R (.bytes l) (.bytes l)
  | slice (j : Str) {t u : TExpr} (h : SameT R t u) (n : Bool) {x y : Extr} (hx : SameX R x y) (b : Bool)
      {st su : ElemStore} (hs : SameStore R st su) : SameX R (.slice j t n x b st) (.slice j u n y b su)
  | array (j : Str) (l : Nat) {t u : TExpr} (h : SameT R t u) {x y : Extr} (hx : SameX R x y) (b : Bool)
      {st su : ElemStore} (hs : SameStore R st su) : SameX R (.array j l t x b st) (.array j l u y b su)
  | map (j : Str) (star : Bool) {t u : TExpr} (h : SameT R t u) {x y : Extr} (hx : SameX R x y) :
      SameX R (.map j star t x) (.map j star u y)

structure SameFld (R : Nat → Nat → Prop) (f g : Fld) : Prop where
  hasField : f.hasField = g.hasField
  expr : SameT R f.expr g.expr
  refx : SameT R f.refx g.refx
  tags : f.tags = g.tags
  isStar : f.isStar = g.isStar
  isNullable : f.isNullable = g.isNullable
  dontCheckErr : f.dontCheckErr = g.dontCheckErr

structure SameTV (R : Nat → Nat → Prop) (r s : TVGen) : Prop where
  x : SameX R r.x s.x
  filled : r.filled = s.filled
  isStarType : r.isStarType = s.isStarType

theorem prepare_same (hA : DeclaredAlike R Γ Δ) {t u : TExpr} (h : SameT R t u) (hf : Bool) (tags : Tags) (st dc : Bool) :
    SameFld R (Fld.prepare Γ hf t tags st dc) (Fld.prepare Δ hf u tags st dc) := by
  have key : ∀ {x y : TExpr}, SameT R x y → SameT R
      (if (Γ.denoted x).isOrdinal then Γ.denoted x else match x with | .named n => Γ.denotedIdent n (.named n) | t => t)
      (if (Δ.denoted y).isOrdinal then Δ.denoted y else match y with | .named n => Δ.denotedIdent n (.named n) | t => t) := by
    intro x y hxy
    rw [(denoted_same hA hxy).isOrdinal]
    split
    · exact denoted_same hA hxy
    · cases hxy with
      | named h => exact denotedIdent_same hA h (.named h)
      | sel h => exact .sel h
      | prim p => exact .prim p
      | time => exact .time
      | uuid => exact .uuid
      | structT => exact .structT
      | star h => exact .star h
      | slice h => exact .slice h
      | array n h => exact .array n h
      | map h => exact .map h
  cases h with
  | star h => exact ⟨rfl, h, key h, rfl, rfl, rfl, rfl⟩
  | named h => exact ⟨rfl, .named h, key (.named h), rfl, rfl, rfl, rfl⟩
  | sel h => exact ⟨rfl, .sel h, key (.sel h), rfl, rfl, rfl, rfl⟩
  | prim p => exact ⟨rfl, .prim p, key (.prim p), rfl, rfl, rfl, rfl⟩
  | time => exact ⟨rfl, .time, key .time, rfl, rfl, rfl, rfl⟩
  | uuid => exact ⟨rfl, .uuid, key .uuid, rfl, rfl, rfl, rfl⟩
  | structT => exact ⟨rfl, .structT, key .structT, rfl, rfl, rfl, rfl⟩
  | slice h => exact ⟨rfl, .slice h, key (.slice h), rfl, rfl, rfl, rfl⟩
  | array n h => exact ⟨rfl, .array n h, key (.array n h), rfl, rfl, rfl, rfl⟩
  | map h => exact ⟨rfl, .map h, key (.map h), rfl, rfl, rfl, rfl⟩

theorem primExtraction_same (dc : Bool) (path : PathE) (p : Prim) :
    ORel (SameX R) (primExtraction dc path p) (primExtraction dc path p) := by
  cases p <;> simp only [primExtraction] <;> first
    | exact .ok .int | exact .ok .uint | exact .ok .float | exact .ok .bool | exact .unsupp | skip
  cases dc
  · exact .ok (.strChecked _)
  · exact .ok .strUnchecked

theorem nested_same {f g : Fld} (h : SameFld R f g) :
    SameX R (nestedExtraction f).1 (nestedExtraction g).1 ∧ (nestedExtraction f).2 = (nestedExtraction g).2 := by
  unfold nestedExtraction
  rw [h.hasField, h.isStar]
  split
  · exact ⟨.nestedFresh h.expr, rfl⟩
  · exact ⟨.nestedInPlace h.expr, rfl⟩

theorem typedValue_same (hA : DeclaredAlike R Γ Δ) : ∀ (k : Nat) {f g : Fld} (path : PathE), SameFld R f g →
    ORel (SameTV R) (typedValue Γ k f path) (typedValue Δ k g path)
  | 0, _, _, _, _ => .loop
  | k + 1, f, g, path, h => by
    unfold typedValue
    have hr : SameT R (if (Γ.denoted f.refx).isOrdinal then Γ.denoted f.refx else f.refx)
        (if (Δ.denoted g.refx).isOrdinal then Δ.denoted g.refx else g.refx) := by
      rw [(denoted_same hA h.refx).isOrdinal]
      split
      · exact denoted_same hA h.refx
      · exact h.refx
    dsimp only
    generalize (if (Γ.denoted f.refx).isOrdinal then Γ.denoted f.refx else f.refx) = a at hr
    generalize (if (Δ.denoted g.refx).isOrdinal then Δ.denoted g.refx else g.refx) = b at hr
    cases hr with
    | prim p =>
      dsimp only
      rw [h.dontCheckErr]
      exact (primExtraction_same _ _ _).bind fun a b hab => .ok ⟨hab, rfl, rfl⟩
    | named hn => exact .ok ⟨(nested_same h).1, (nested_same h).2, rfl⟩
    | structT => exact .ok ⟨(nested_same h).1, (nested_same h).2, rfl⟩
    | sel hn => exact .ok ⟨(nested_same h).1, (nested_same h).2, rfl⟩
    | @star x y hx =>
      refine (typedValue_same hA k (f := { f with refx := x }) (g := { g with refx := y }) path ⟨h.hasField, h.expr, hx, h.tags, h.isStar, h.isNullable, h.dontCheckErr⟩).bind ?_
      intro a b hab
      exact .ok ⟨hab.x, rfl, rfl⟩
    | time =>
      dsimp only
      rw [h.tags]
      exact (ORel.same _).bind fun a b hab => by subst hab; exact .ok ⟨.time _ _, rfl, rfl⟩
    | uuid => dsimp only; rw [h.tags]; exact .ok ⟨.uuid _, rfl, rfl⟩
    | @slice e e' he =>
      dsimp only
      rw [he.isByte, h.hasField, h.isStar, h.tags]
      split
      · exact .ok ⟨.bytes _, rfl, rfl⟩
      split
      · exact .unsupp
      split
      · exact .unsupp
      have hp := prepare_same hA he true {} false false
      refine (typedValue_same hA k .index hp).bind fun r s hrs => ?_
      rw [hrs.isStarType]
      split
      · exact .unsupp
      · have hst : SameStore R
            (if (Fld.prepare Γ true e {} false false).isStar then .ref (Fld.prepare Γ true e {} false false).expr
              else if r.filled then .filled else .val (Fld.prepare Γ true e {} false false).expr)
            (if (Fld.prepare Δ true e' {} false false).isStar then .ref (Fld.prepare Δ true e' {} false false).expr
              else if s.filled then .filled else .val (Fld.prepare Δ true e' {} false false).expr) := by
          rw [hp.isStar, hrs.filled]
          split
          · exact .ref hp.expr
          split
          · exact .filled
          · exact .val hp.expr
        have hx := SameX.slice g.tags.jsonName he (Fld.prepare Γ true e {} false false).isNullable hrs.x
          ((Fld.prepare Γ true e {} false false).expr != .prim .string) hst
        rw [hp.isNullable, hp.expr.bne_prim] at hx
        rw [hp.isNullable, hp.expr.bne_prim]
        cases he with
        | array n he => exact .unsupp
        | _ => exact .ok ⟨hx, rfl, rfl⟩
    | @array n e e' he =>
      dsimp only
      rw [he.isByte, h.tags]
      split
      · exact .ok ⟨.bytes _, rfl, rfl⟩
      have hp := prepare_same hA he true {} false false
      rw [hp.isNullable]
      split
      · exact .unsupp
      refine (typedValue_same hA k .index hp).bind fun r s hrs => ?_
      rw [hrs.filled, hrs.isStarType]
      split
      · exact .unsupp
      · have hx := SameX.array g.tags.jsonName n he hrs.x ((Fld.prepare Γ true e {} false false).expr != .prim .string)
          (.val hp.expr)
        rw [hp.expr.bne_prim] at hx
        rw [hp.expr.bne_prim]
        obtain ⟨rx, _, _⟩ := r
        obtain ⟨sx, _, _⟩ := s
        have hxy := hrs.x
        dsimp only at hxy hx ⊢
        cases hxy with
        | slice => exact .unsupp
        | array => exact .unsupp
        | map => exact .unsupp
        | _ => exact .ok ⟨hx, rfl, rfl⟩
    | @map e e' he =>
      dsimp only
      rw [h.hasField, h.isStar, h.tags]
      split
      · exact .unsupp
      have hp := prepare_same hA he false g.tags false true
      refine (typedValue_same hA k _ hp).bind fun r s hrs => ?_
      rw [hrs.isStarType]
      split
      · exact .unsupp
      · have hx := SameX.map g.tags.jsonName (Fld.prepare Γ false e g.tags false true).isStar hp.expr hrs.x
        rw [hp.isStar] at hx ⊢
        obtain ⟨rx, _, _⟩ := r
        obtain ⟨sx, _, _⟩ := s
        have hxy := hrs.x
        dsimp only at hxy hx ⊢
        cases hxy with
        | strChecked => exact .unsupp
        | time => exact .unsupp
        | uuid => exact .unsupp
        | bytes => exact .unsupp
        | slice => exact .unsupp
        | array => exact .unsupp
        | map => exact .unsupp
        | _ => exact .ok ⟨hx, rfl, rfl⟩

inductive SameStoreF (R : Nat → Nat → Prop) : Store → Store → Prop
  | filled : SameStoreF R .filled .filled
  | val {t u : TExpr} (h : SameT R t u) : SameStoreF R (.val t) (.val u)
  | ref {t u : TExpr} (h : SameT R t u) : SameStoreF R (.ref t) (.ref u)
  | named {t u : TExpr} (h : SameT R t u) : SameStoreF R (.named t) (.named u)
  | refNamed {t u : TExpr} (h : SameT R t u) : SameStoreF R (.refNamed t) (.refNamed u)

structure SameFF (R : Nat → Nat → Prop) (f g : FieldFill) : Prop where
  json : f.json = g.json
  nullable : f.nullable = g.nullable
  x : SameX R f.x g.x
  check : f.check = g.check
  max : f.max = g.max
  store : SameStoreF R f.store g.store
  dflt : f.dflt = g.dflt

def starStore (st : Bool) (x : TExpr) : Extr → Out Store
  | .nestedFresh _ | .nestedInPlace _ => .unsupp
  | _ => .ok (if st = true then .refNamed x else .named x)

theorem starStore_same (st : Bool) {x y : TExpr} (h : SameT R x y) {r s : Extr} (hr : SameX R r s) :
    ORel (SameStoreF R) (starStore st x r) (starStore st y s) := by
  have : SameStoreF R (if st = true then .refNamed x else .named x) (if st = true then .refNamed y else .named y) := by
    split
    · exact .refNamed h
    · exact .named h
  cases hr with
  | nestedFresh => exact .unsupp
  | nestedInPlace => exact .unsupp
  | _ => exact .ok this

theorem storeOf_same {f g : Fld} {r s : TVGen} (h : SameFld R f g) (hr : SameTV R r s) :
    ORel (SameStoreF R) (storeOf f r) (storeOf g s) := by
  unfold storeOf
  rw [hr.isStarType, h.isStar, hr.filled]
  split
  · have hrefx := h.refx
    generalize f.refx = a at hrefx
    generalize g.refx = b at hrefx
    obtain ⟨rx, _, _⟩ := r
    obtain ⟨sx, _, _⟩ := s
    have hxy := hr.x
    dsimp only at hxy ⊢
    have key {x y : TExpr} (h : SameT R x y) := starStore_same g.isStar h hxy
    cases hrefx with
    | star hx =>
      cases hx with
      | prim p => exact key (.prim p)
      | named hn => exact key (.named hn)
      | time => exact key .time
      | uuid => exact key .uuid
      | _ => exact .unsupp
    | _ => exact .unsupp
  split
  · exact .ok (.ref h.expr)
  split
  · exact .ok .filled
  · exact .ok (.val h.expr)

variable [Ext]

theorem literal_same {t u : TExpr} (h : SameT R t u) (s : Str) : literalFromType t s = literalFromType u s := by
  induction h with
  | prim p => rfl
  | star h ih => exact ih
  | _ => rfl

theorem ifDefault_same {f g : Fld} (h : SameFld R f g) (b : Bool) : ifDefault f b = ifDefault g b := by
  unfold ifDefault
  rw [h.tags, h.isStar, literal_same h.refx]

theorem maxByType_same {t u : TExpr} (h : SameT R t u) : maxByType t = maxByType u := by
  cases h <;> rfl

theorem fieldFill_same (hA : DeclaredAlike R Γ Δ) (k : Nat) {f g : FieldDecl} (h : SameField R f g) :
    ORel (fun a b => (a = none ∧ b = none) ∨ ∃ x y, a = some x ∧ b = some y ∧ SameFF R x y)
      (genFieldFill Γ k f) (genFieldFill Δ k g) := by
  unfold genFieldFill
  rw [h.2]
  split
  · exact .ok (.inl ⟨rfl, rfl⟩)
  have hp := prepare_same hA h.1 true g.tags false false
  dsimp only
  refine (typedValue_same hA k _ hp).bind fun r s hrs => ?_
  refine (storeOf_same hp hrs).bind fun a b hab => ?_
  rw [ifDefault_same hp, hrs.isStarType]
  refine (ORel.same _).bind fun d d' hd => ?_
  subst hd
  refine .ok (.inr ⟨_, _, rfl, rfl, rfl, hp.isNullable, hrs.x, ?_, ?_, hab, rfl⟩)
  · simp only [hp.refx.beq_prim]
  · simp only [hp.refx.beq_prim, maxByType_same hp.refx]

/-- both absent, or both present and related -/
def SameOpt (R : Nat → Nat → Prop) (a b : Option FieldFill) : Prop :=
  (a = none ∧ b = none) ∨ ∃ x y, a = some x ∧ b = some y ∧ SameFF R x y

theorem fields_same (hA : DeclaredAlike R Γ Δ) (k : Nat) {fs gs : List FieldDecl} (h : List.Forall₂ (SameField R) fs gs) :
    ORel (List.Forall₂ (SameOpt R)) (genFields Γ k fs) (genFields Δ k gs) := by
  induction h with
  | nil => exact .ok .nil
  | cons h _ ih =>
    exact (fieldFill_same hA k h).bind fun a b hab => ih.bind fun as bs habs => .ok (.cons hab habs)

inductive SameFill (R : Nat → Nat → Prop) : FillIR → FillIR → Prop
  | struct (names : List Str) (strict : Bool) {fs gs : List (Option FieldFill)} (h : List.Forall₂ (SameOpt R) fs gs) :
      SameFill R (.struct names strict fs) (.struct names strict gs)
  | map (star : Bool) {t u : TExpr} (h : SameT R t u) {x y : Extr} (hx : SameX R x y) : SameFill R (.map star t x) (.map star u y)
  | list (len : Option Nat) {t u : TExpr} (h : SameT R t u) {x y : Extr} (hx : SameX R x y) : SameFill R (.list len t x) (.list len u y)
  | bytes (len : Option Nat) : SameFill R (.bytes len) (.bytes len)
  | transit {t u : TExpr} (h : SameT R t u) {x y : Extr} (hx : SameX R x y) : SameFill R (.transit t x) (.transit u y)

theorem names_same {fs gs : List FieldDecl} (h : List.Forall₂ (SameField R) fs gs) :
    fs.map (·.tags.jsonName) = gs.map (·.tags.jsonName) := by
  induction h with
  | nil => rfl
  | cons h _ ih => simp only [List.map_cons, h.2, ih]

theorem genFill_same (hA : DeclaredAlike R Γ Δ) (k : Nat) {d e : Decl} (h : SameDecl R d e) :
    ORel (SameFill R) (genFill Γ k d) (genFill Δ k e) := by
  cases h with
  | struct strict h =>
    simp only [genFill, names_same h]
    exact (fields_same hA k h).bind fun a b hab => .ok (.struct _ _ hab)
  | «alias» h =>
    have transit : ∀ {t u : TExpr}, SameT R t u → ORel (SameFill R)
        (do
          let f := Fld.prepare Γ false t {} true false
          let r ← typedValue Γ k f (.const (str "(root)"))
          if r.isStarType then .unsupp
          else return .transit t r.x)
        (do
          let f := Fld.prepare Δ false u {} true false
          let r ← typedValue Δ k f (.const (str "(root)"))
          if r.isStarType then .unsupp
          else return .transit u r.x) := by
      intro t u htu
      refine (typedValue_same hA k _ (prepare_same hA htu _ _ _ _)).bind fun r s hrs => ?_
      rw [hrs.isStarType]
      split
      · exact .unsupp
      · exact .ok (.transit htu hrs.x)
    have list : ∀ {t u : TExpr} (len : Option Nat), SameT R t u → ORel (SameFill R)
        (do
        let el := Fld.prepare Γ false t {} false true
        if el.isStar then .unsupp
        else
          let r ← typedValue Γ k el .index
          if r.isStarType then .unsupp
          else match r.x with
            | .slice _ _ _ _ _ _ | .map _ _ _ _ => .unsupp
            | x => return .list len t x)
        (do
        let el := Fld.prepare Δ false u {} false true
        if el.isStar then .unsupp
        else
          let r ← typedValue Δ k el .index
          if r.isStarType then .unsupp
          else match r.x with
            | .slice _ _ _ _ _ _ | .map _ _ _ _ => .unsupp
            | x => return .list len u x) := by
      intro t u len htu
      have hp := prepare_same hA htu false {} false true
      dsimp only
      rw [hp.isStar]
      split
      · exact .unsupp
      refine (typedValue_same hA k _ hp).bind fun r s hrs => ?_
      rw [hrs.isStarType]
      split
      · exact .unsupp
      · obtain ⟨rx, _, _⟩ := r
        obtain ⟨sx, _, _⟩ := s
        have hxy := hrs.x
        dsimp only at hxy ⊢
        have hl := SameFill.list len htu hxy
        cases hxy with
        | slice => exact .unsupp
        | map => exact .unsupp
        | _ => exact .ok hl
    cases h with
    | prim p => exact transit (.prim p)
    | named h => exact transit (.named h)
    | sel h => exact transit (.sel h)
    | time => exact transit .time
    | uuid => exact transit .uuid
    | structT => exact .unsupp
    | star h => exact .unsupp
    | slice h =>
      simp only [genFill]
      rw [h.isByte]
      split
      · exact .ok (.bytes _)
      · exact list none h
    | array n h =>
      simp only [genFill]
      rw [h.isByte]
      split
      · exact .ok (.bytes _)
      · exact list (some n) h
    | @map t u h =>
      simp only [genFill]
      have hp := prepare_same hA h false {} false true
      refine (typedValue_same hA k _ hp).bind fun r s hrs => ?_
      rw [hrs.isStarType]
      split
      · exact .unsupp
      · have hxy := hrs.x
        have hexpr := hp.expr
        rw [hp.isStar]
        generalize (Fld.prepare Γ false t {} false true).expr = a at hexpr ⊢
        generalize (Fld.prepare Δ false u {} false true).expr = b at hexpr ⊢
        obtain ⟨rx, _, _⟩ := r
        obtain ⟨sx, _, _⟩ := s
        dsimp only at hxy ⊢
        have hf := SameFill.map false hexpr hxy
        have ht := SameFill.map true hexpr hxy
        cases hxy with
        | strChecked => exact .unsupp
        | time => exact .unsupp
        | uuid => exact .unsupp
        | bytes => exact .unsupp
        | slice => exact .unsupp
        | array => exact .unsupp
        | map => exact .unsupp
        | _ =>
          dsimp only
          split
          · cases hexpr with
            | prim p => cases p <;> first | exact .ok ht | exact .unsupp
            | _ => first | exact .unsupp | exact .ok ht
          · exact .ok hf

/-! ## Encoders -/

inductive SameV (R : Nat → Nat → Prop) : VExt → VExt → Prop
  | int : SameV R .int .int
  | float : SameV R .float .float
  | bool : SameV R .bool .bool
  | str : SameV R .str .str
  | time : SameV R .time .time
  | call {n m : Nat} (h : R n m) : SameV R (.call n) (.call m)
  | callPtr {n m : Nat} (h : R n m) : SameV R (.callPtr n) (.callPtr m)
  | star {x y : VExt} (h : SameV R x y) : SameV R (.star x) (.star y)
  | arr {x y : VExt} (h : SameV R x y) : SameV R (.arr x) (.arr y)

theorem primVExt_same (p : Prim) : ORel (SameV R) (primVExt p) (primVExt p) := by
  cases p <;> first | exact .ok .int | exact .ok .float | exact .ok .bool | exact .ok .str | exact .unsupp

theorem callExt_same {t u : TExpr} (h : SameT R t u) : ORel (SameV R) (callExt t) (callExt u) := by
  cases h with
  | named h => exact .ok (.call h)
  | sel h => exact .ok (.call h)
  | star h =>
    cases h with
    | named h => exact .ok (.callPtr h)
    | sel h => exact .ok (.callPtr h)
    | _ => exact .unsupp
  | _ => exact .unsupp

/-- a name that denotes a predeclared type is not that type -/
theorem ordinal_iff {t : TExpr} : (t ≠ Γ.denoted t ∧ (Γ.denoted t).isOrdinal) ↔
    (t.isOrdinal = false ∧ (Γ.denoted t).isOrdinal = true) := by
  constructor
  · rintro ⟨h1, h2⟩
    refine ⟨?_, h2⟩
    cases t <;> first | rfl | exact absurd rfl h1
  · rintro ⟨h1, h2⟩
    refine ⟨?_, h2⟩
    intro he
    rw [← he, h1] at h2
    cases h2

def wrapStar (st : Bool) (x : VExt) : VExt := if st = true then .star x else x

theorem wrapStar_same (st : Bool) {x y : VExt} (h : SameV R x y) : SameV R (wrapStar st x) (wrapStar st y) := by
  unfold wrapStar
  split
  · exact .star h
  · exact h

def leafIn (Γ : Env) (srcT : TExpr) (st : Bool) (t : TExpr) (d : Bool) : Out VExt :=
  if t ≠ Γ.denoted t ∧ (Γ.denoted t).isOrdinal then
    match Γ.denoted t with
    | .prim p => do
      let x ← primVExt p
      return wrapStar st x
    | _ => .unsupp
  else match t with
    | .prim .string => if st ∨ srcT = .prim .string ∨ d then .ok (wrapStar st .str) else .unsupp
    | .prim p => do
      let x ← primVExt p
      return wrapStar st x
    | .named _ | .sel _ | .structT => callExt srcT
    | .time => if st ∨ srcT ≠ .time then .unsupp else .ok .time
    | _ => .unsupp

theorem leafIn_same (hA : DeclaredAlike R Γ Δ) {s s' t u : TExpr} (hs : SameT R s s') (st : Bool) (h : SameT R t u) (d : Bool) :
    ORel (SameV R) (leafIn Γ s st t d) (leafIn Δ s' st u d) := by
  have hd := denoted_same hA h
  unfold leafIn
  by_cases hc : t ≠ Γ.denoted t ∧ (Γ.denoted t).isOrdinal
  · have hc' : u ≠ Δ.denoted u ∧ (Δ.denoted u).isOrdinal := by
      rw [ordinal_iff] at hc ⊢
      rw [← h.isOrdinal, ← hd.isOrdinal]
      exact hc
    rw [if_pos hc, if_pos hc']
    generalize Γ.denoted t = a at hd
    generalize Δ.denoted u = b at hd
    cases hd with
    | prim p => exact (primVExt_same p).bind fun a b hab => .ok (wrapStar_same _ hab)
    | _ => exact .unsupp
  · have hc' : ¬ (u ≠ Δ.denoted u ∧ (Δ.denoted u).isOrdinal) := by
      rw [ordinal_iff] at hc ⊢
      rw [← h.isOrdinal, ← hd.isOrdinal]
      exact hc
    rw [if_neg hc, if_neg hc']
    have hp (p : Prim) : ORel (SameV R) (do let x ← primVExt p; return wrapStar st x : Out VExt)
        (do let x ← primVExt p; return wrapStar st x) :=
      (primVExt_same p).bind fun a b hab => .ok (wrapStar_same _ hab)
    cases h with
    | prim p =>
      cases p with
      | string =>
        dsimp only
        have : (st = true ∨ s = .prim .string ∨ d = true) ↔ (st = true ∨ s' = .prim .string ∨ d = true) := by
          rw [hs.eq_prim]
        by_cases hx : st = true ∨ s = .prim .string ∨ d = true
        · rw [if_pos hx, if_pos (this.1 hx)]; exact .ok (wrapStar_same _ .str)
        · rw [if_neg hx, if_neg (mt this.2 hx)]; exact .unsupp
      | _ => exact hp _
    | named h => exact callExt_same hs
    | sel h => exact callExt_same hs
    | structT => exact callExt_same hs
    | time =>
      dsimp only
      have : (st = true ∨ s ≠ .time) ↔ (st = true ∨ s' ≠ .time) := by
        cases hs <;> simp
      by_cases hx : st = true ∨ s ≠ .time
      · rw [if_pos hx, if_pos (this.1 hx)]; exact .unsupp
      · rw [if_neg hx, if_neg (mt this.2 hx)]; exact .ok .time
    | _ => exact .unsupp

theorem leafExt_same (hA : DeclaredAlike R Γ Δ) {s s' t u : TExpr} (hs : SameT R s s') (h : SameT R t u) (d : Bool) :
    ORel (SameV R) (leafExt Γ s t d) (leafExt Δ s' u d) := by
  cases h with
  | star h => exact leafIn_same hA hs true h d
  | prim p => exact leafIn_same hA hs false (.prim p) d
  | named h => exact leafIn_same hA hs false (.named h) d
  | sel h => exact leafIn_same hA hs false (.sel h) d
  | time => exact leafIn_same hA hs false .time d
  | uuid => exact leafIn_same hA hs false .uuid d
  | structT => exact leafIn_same hA hs false .structT d
  | slice h => exact leafIn_same hA hs false (.slice h) d
  | array n h => exact leafIn_same hA hs false (.array n h) d
  | map h => exact leafIn_same hA hs false (.map h) d

theorem valueExt_same (hA : DeclaredAlike R Γ Δ) {s s' t u : TExpr} (hs : SameT R s s') (h : SameT R t u) (d : Bool) :
    ORel (SameV R) (valueExt Γ s t d) (valueExt Δ s' u d) := by
  have list : ∀ {e e' : TExpr}, SameT R e e' → ORel (SameV R)
      (if e.isByte then .unsupp
        else match e with
        | .slice _ | .array _ _ => .unsupp
        | _ => do let x ← leafExt Γ e e false; return .arr x)
      (if e'.isByte then .unsupp
        else match e' with
        | .slice _ | .array _ _ => .unsupp
        | _ => do let x ← leafExt Δ e' e' false; return .arr x) := by
    intro e e' he
    rw [he.isByte]
    split
    · exact .unsupp
    · have hl : ORel (SameV R) (do let x ← leafExt Γ e e false; return .arr x) (do let x ← leafExt Δ e' e' false; return .arr x) :=
        (leafExt_same hA he he false).bind fun a b hab => .ok (.arr hab)
      cases he with
      | slice => exact .unsupp
      | array => exact .unsupp
      | _ => exact hl
  cases h with
  | slice h => exact list h
  | array n h => exact list h
  | star h => exact leafExt_same hA hs (.star h) d
  | prim p => exact leafExt_same hA hs (.prim p) d
  | named h => exact leafExt_same hA hs (.named h) d
  | sel h => exact leafExt_same hA hs (.sel h) d
  | time => exact leafExt_same hA hs .time d
  | uuid => exact leafExt_same hA hs .uuid d
  | structT => exact leafExt_same hA hs .structT d
  | map h => exact leafExt_same hA hs (.map h) d

theorem fieldDecStr_same (hA : DeclaredAlike R Γ Δ) {t u : TExpr} (h : SameT R t u) : fieldDecStr Γ t = fieldDecStr Δ u := by
  cases h with
  | named h => exact (denotedIdent_same hA h (.named h)).beq_prim _
  | _ => rfl

inductive SameBody (R : Nat → Nat → Prop) : Body → Body → Prop
  | prim (w : PW) (d : Nat) : SameBody R (.prim w d) (.prim w d)
  | boolTrue : SameBody R .boolTrue .boolTrue
  | refBool (d : Nat) : SameBody R (.refBool d) (.refBool d)
  | time (l : Str) (d : Nat) : SameBody R (.time l d) (.time l d)
  | uuid (b : Bool) : SameBody R (.uuid b) (.uuid b)
  | struct {n m : Nat} (h : R n m) (b : Bool) : SameBody R (.struct n b) (.struct m b)
  | inline {n m : Nat} (h : R n m) : SameBody R (.inline n) (.inline m)
  | map {x y : VExt} (h : SameV R x y) : SameBody R (.map x) (.map y)
  | arr {x y : VExt} (h : SameV R x y) : SameBody R (.arr x) (.arr y)
  | bytes : SameBody R .bytes .bytes

inductive SameCond (R : Nat → Nat → Prop) : Option Cond → Option Cond → Prop
  | none : SameCond R none none
  | neZero : SameCond R (some .neZero) (some .neZero)
  | timeNotZero : SameCond R (some .timeNotZero) (some .timeNotZero)
  | method {n m : Nat} (h : R n m) : SameCond R (some (.method n)) (some (.method m))
  | notNil2 : SameCond R (some .notNil2) (some .notNil2)

structure SameBlk (R : Nat → Nat → Prop) (b c : Blk) : Prop where
  name : b.name = c.name
  cond : SameCond R b.cond c.cond
  body : SameBody R b.body c.body
  ifZero : b.ifZero = c.ifZero

theorem typeMarshal_same (tags : Tags) (p : Prim) (d : Nat) :
    ORel (SameBlk R) (typeMarshal tags p d) (typeMarshal tags p d) := by
  unfold typeMarshal
  have hcond : SameCond R (some (if d = 1 then .neZero else .notNil2)) (some (if d = 1 then .neZero else .notNil2)) := by
    split
    · exact .neZero
    · exact .notNil2
  refine ORel.bind (P := fun a b => SameBody R a.1 b.1 ∧ a.2 = b.2) ?_ ?_
  · cases p <;> first
      | exact .ok ⟨.prim _ _, rfl⟩
      | exact .unsupp
      | (refine .ok ⟨?_, rfl⟩
         dsimp only
         split
         · exact .boolTrue
         · exact .refBool _)
  · rintro ⟨a, z⟩ ⟨b, z'⟩ ⟨hab, hz⟩
    dsimp only at hab hz ⊢
    subst hz
    split
    · exact .ok ⟨rfl, .neZero, hab, rfl⟩
    · exact .ok ⟨rfl, hcond, hab, rfl⟩

theorem timeMarshal_same (tags : Tags) (d : Nat) : SameBlk R (timeMarshal tags d) (timeMarshal tags d) := by
  refine ⟨rfl, ?_, .time _ _, rfl⟩
  unfold timeMarshal
  dsimp only
  split
  · exact .timeNotZero
  · exact .neZero

theorem marshalTransit_same (tags : Tags) {n m : Nat} (h : R n m) (st : Bool) :
    ORel (SameBlk R) (marshalTransit tags n st) (marshalTransit tags m st) := by
  unfold marshalTransit
  split
  · split
    · exact .unsupp
    · exact .ok ⟨rfl, .method h, .inline h, rfl⟩
  split
  · exact .ok ⟨rfl, .neZero, .struct h _, rfl⟩
  · refine .ok ⟨rfl, ?_, .struct h _, rfl⟩
    dsimp only
    split
    · exact .method h
    · exact .none

theorem fieldMarshal_same (hA : DeclaredAlike R Γ Δ) {f g : FieldDecl} (h : SameField R f g) :
    ORel (SameBlk R) (genFieldMarshal Γ f) (genFieldMarshal Δ g) := by
  unfold genFieldMarshal
  have hp := prepare_same hA h.1 true f.tags false false
  rw [h.2] at hp ⊢
  dsimp only
  rw [hp.isStar]
  have hexpr := hp.expr
  have hrefx := hp.refx
  generalize (Fld.prepare Γ true f.typ g.tags false false).expr = a at hexpr ⊢
  generalize (Fld.prepare Δ true g.typ g.tags false false).expr = b at hexpr ⊢
  generalize (Fld.prepare Γ true f.typ g.tags false false).refx = r at hrefx ⊢
  generalize (Fld.prepare Δ true g.typ g.tags false false).refx = s at hrefx ⊢
  cases hrefx with
  | prim p => exact typeMarshal_same _ _ _
  | named => exact .unsupp
  | star hx =>
    cases hx with
    | prim p => exact typeMarshal_same _ _ _
    | time =>
      dsimp only
      split
      · exact .unsupp
      · exact .ok (timeMarshal_same _ _)
    | _ => exact .unsupp
  | time =>
    dsimp only
    have : a ≠ .time ↔ b ≠ .time := by cases hexpr <;> simp
    by_cases hx : a ≠ .time
    · rw [if_pos hx, if_pos (this.1 hx)]; exact .unsupp
    · rw [if_neg hx, if_neg (mt this.2 hx)]; exact .ok (timeMarshal_same _ _)
  | uuid =>
    dsimp only
    have : a ≠ .uuid ↔ b ≠ .uuid := by cases hexpr <;> simp
    by_cases hx : a ≠ .uuid
    · rw [if_pos hx, if_pos (this.1 hx)]; exact .unsupp
    · rw [if_neg hx, if_neg (mt this.2 hx)]; exact .ok ⟨rfl, .none, .uuid _, rfl⟩
  | sel h => exact marshalTransit_same _ h _
  | structT =>
    cases hexpr with
    | named h => exact marshalTransit_same _ h _
    | sel h => exact marshalTransit_same _ h _
    | _ => exact .unsupp
  | map h =>
    dsimp only
    rw [fieldDecStr_same hA h]
    split
    · exact .unsupp
    · exact (valueExt_same hA h (denoted_same hA h) _).bind fun a b hab => .ok ⟨rfl, .neZero, .map hab, rfl⟩
  | slice h =>
    dsimp only
    rw [fieldDecStr_same hA h, h.isByte]
    split
    · exact .unsupp
    split
    · exact .ok ⟨rfl, .neZero, .bytes, rfl⟩
    · exact (valueExt_same hA h (denoted_same hA h) _).bind fun a b hab => .ok ⟨rfl, .neZero, .arr hab, rfl⟩
  | array n h =>
    dsimp only
    rw [fieldDecStr_same hA h, h.isByte]
    split
    · exact .unsupp
    split
    · exact .ok ⟨rfl, .neZero, .bytes, rfl⟩
    · exact (valueExt_same hA h (denoted_same hA h) _).bind fun a b hab => .ok ⟨rfl, .none, .arr hab, rfl⟩

inductive SameMIR (R : Nat → Nat → Prop) : MarshalIR → MarshalIR → Prop
  | struct {bs cs : List Blk} (h : List.Forall₂ (SameBlk R) bs cs) : SameMIR R (.struct bs) (.struct cs)
  | map {x y : VExt} (h : SameV R x y) : SameMIR R (.map x) (.map y)
  | list (b : Bool) {x y : VExt} (h : SameV R x y) : SameMIR R (.list b x) (.list b y)
  | bytes (b : Bool) : SameMIR R (.bytes b) (.bytes b)
  | prim (p : Prim) : SameMIR R (.prim p) (.prim p)
  | time : SameMIR R .time .time
  | uuid : SameMIR R .uuid .uuid
  | call {n m : Nat} (h : R n m) : SameMIR R (.call n) (.call m)

theorem blks_same (hA : DeclaredAlike R Γ Δ) {fs gs : List FieldDecl} (h : List.Forall₂ (SameField R) fs gs) :
    ORel (List.Forall₂ (SameBlk R)) (genBlks Γ fs) (genBlks Δ gs) := by
  induction h with
  | nil => exact .ok .nil
  | cons h _ ih => exact (fieldMarshal_same hA h).bind fun a b hab => ih.bind fun as bs habs => .ok (.cons hab habs)

/-- the encoder of a named slice or array of non-bytes (codegen/array.go:174-250) -/
def listIR (Γ : Env) (fixed : Bool) (e : TExpr) : Out MarshalIR := do
  let dt := Γ.denoted e
  match e, dt with
  | .named _, .slice _ | .sel _, .slice _ | .named _, .array _ _ | .sel _, .array _ _ => .unsupp
  | _, _ =>
    let x ← valueExt Γ e dt (dt == .prim .string)
    return .list fixed x

theorem listIR_same (hA : DeclaredAlike R Γ Δ) (b : Bool) {t u : TExpr} (h : SameT R t u) :
    ORel (SameMIR R) (listIR Γ b t) (listIR Δ b u) := by
  unfold listIR
  have hd := denoted_same hA h
  have hl : ORel (SameMIR R) (do let x ← valueExt Γ t (Γ.denoted t) (Γ.denoted t == .prim .string); return .list b x)
      (do let x ← valueExt Δ u (Δ.denoted u) (Δ.denoted u == .prim .string); return .list b x) := by
    rw [hd.beq_prim]
    exact (valueExt_same hA h hd _).bind fun x y hxy => .ok (.list b hxy)
  dsimp only
  generalize Γ.denoted t = x at hd hl ⊢
  generalize Δ.denoted u = y at hd hl ⊢
  cases h with
  | named h =>
    cases hd with
    | slice => exact .unsupp
    | array => exact .unsupp
    | _ => exact hl
  | sel h =>
    cases hd with
    | slice => exact .unsupp
    | array => exact .unsupp
    | _ => exact hl
  | _ => exact hl

theorem genMarshal_same (hA : DeclaredAlike R Γ Δ) {d e : Decl} (h : SameDecl R d e) :
    ORel (SameMIR R) (genMarshal Γ d) (genMarshal Δ e) := by
  cases h with
  | struct s h => exact (blks_same hA h).bind fun a b hab => .ok (.struct hab)
  | «alias» h =>
    cases h with
    | prim p => cases p <;> first | exact .ok (.prim _) | exact .unsupp
    | named h => exact .ok (.call h)
    | sel h => exact .ok (.call h)
    | time => exact .ok .time
    | uuid => exact .ok .uuid
    | structT => exact .unsupp
    | star => exact .unsupp
    | slice h =>
      simp only [genMarshal]
      rw [h.isByte]
      split
      · exact .ok (.bytes _)
      · exact listIR_same hA false h
    | array n h =>
      simp only [genMarshal]
      rw [h.isByte]
      split
      · exact .ok (.bytes _)
      · exact listIR_same hA true h
    | @map v v' h =>
      have key : ∀ {t u : TExpr}, SameT R t u → ORel (SameMIR R)
          (do let x ← valueExt Γ v t (fieldDecStr Γ v); return .map x)
          (do let x ← valueExt Δ v' u (fieldDecStr Δ v'); return .map x) := by
        intro t u htu
        rw [fieldDecStr_same hA h]
        exact (valueExt_same hA h htu _).bind fun a b hab => .ok (.map hab)
      cases h with
      | named h => exact key (denotedIdent_same hA h (.named h))
      | prim p => exact key (.prim p)
      | sel h => exact key (.sel h)
      | time => exact key .time
      | uuid => exact key .uuid
      | structT => exact key .structT
      | star h => exact key (.star h)
      | slice h => exact key (.slice h)
      | array n h => exact key (.array n h)
      | map h => exact key (.map h)

/-! ## IsZero and Reset -/

theorem zeroKnown_same (hA : DeclaredAlike R Γ Δ) : ∀ (k : Nat) {t u : TExpr}, SameT R t u → zeroKnown Γ k t = zeroKnown Δ k u
  | k, t, u, h => by
    cases h with
    | @named n m h =>
      cases k with
      | zero => rfl
      | succ k =>
        simp only [zeroKnown]
        rcases hA n m h with ⟨d, e, hd, he, hs⟩ | ⟨hd, he, _⟩
        · rw [hd, he]
          cases hs with
          | struct => exact zeroKnown_same hA k .structT
          | «alias» h => exact zeroKnown_same hA k h
        · rw [hd, he]
    | prim p => cases k <;> rfl
    | sel h => cases k <;> rfl
    | time => cases k <;> rfl
    | uuid => cases k <;> rfl
    | structT => cases k <;> rfl
    | star h => cases k <;> rfl
    | slice h => cases k <;> rfl
    | array n h => cases k <;> rfl
    | map h => cases k <;> rfl

inductive SameZT (R : Nat → Nat → Prop) : ZTest → ZTest → Prop
  | const : SameZT R .const .const
  | time : SameZT R .time .time
  | method {n m : Nat} (h : R n m) : SameZT R (.method n) (.method m)

theorem zTest_same (hA : DeclaredAlike R Γ Δ) (k : Nat) {a b t u : TExpr} (h : SameT R a b) (h' : SameT R t u) :
    ORel (SameZT R) (zTest Γ k a t) (zTest Δ k b u) := by
  unfold zTest
  rw [zeroKnown_same hA k h]
  refine (ORel.same _).bind fun x y hxy => ?_
  subst hxy
  split
  · exact .ok .const
  · cases h' with
    | time => exact .ok .time
    | named h => exact .ok (.method h)
    | sel h => exact .ok (.method h)
    | _ => exact .unsupp

theorem zTests_same (hA : DeclaredAlike R Γ Δ) (k : Nat) {fs gs : List FieldDecl} (h : List.Forall₂ (SameField R) fs gs) :
    ORel (List.Forall₂ (SameZT R)) (genZTests Γ k fs) (genZTests Δ k gs) := by
  induction h with
  | nil => exact .ok .nil
  | cons h _ ih =>
    exact (zTest_same hA k (denoted_same hA h.1) h.1).bind fun a b hab => ih.bind fun as bs habs => .ok (.cons hab habs)

inductive SameZIR (R : Nat → Nat → Prop) : ZeroIR → ZeroIR → Prop
  | never : SameZIR R .never .never
  | struct {ts us : List ZTest} (h : List.Forall₂ (SameZT R) ts us) : SameZIR R (.struct ts) (.struct us)
  | len : SameZIR R .len .len
  | all {t u : ZTest} (h : SameZT R t u) : SameZIR R (.all t) (.all u)
  | allBytes : SameZIR R .allBytes .allBytes
  | single {t u : ZTest} (h : SameZT R t u) : SameZIR R (.single t) (.single u)

theorem fixed_same {fs gs : List FieldDecl} (h : List.Forall₂ (SameField R) fs gs) :
    fs.any (·.typ.isFixedArray) = gs.any (·.typ.isFixedArray) := by
  induction h with
  | nil => rfl
  | cons h _ ih => simp only [List.any_cons, h.1.isFixed, ih]

theorem genZero_same (hA : DeclaredAlike R Γ Δ) (k : Nat) {d e : Decl} (h : SameDecl R d e) :
    ORel (SameZIR R) (genZero Γ k d) (genZero Δ k e) := by
  cases h with
  | struct s h =>
    simp only [genZero]
    rw [fixed_same h]
    split
    · exact .ok .never
    · exact (zTests_same hA k h).bind fun a b hab => .ok (.struct hab)
  | «alias» h =>
    have single : ∀ {t u : TExpr}, SameT R t u → ORel (SameZIR R)
        (do let z ← zTest Γ k t t; return .single z) (do let z ← zTest Δ k u u; return .single z) :=
      fun h => (zTest_same hA k h h).bind fun a b hab => .ok (.single hab)
    cases h with
    | map => exact .ok .len
    | slice => exact .ok .len
    | star => exact .unsupp
    | structT => exact .unsupp
    | array n h =>
      simp only [genZero]
      rw [h.isByte]
      split
      · exact .ok .allBytes
      · exact (zTest_same hA k h h).bind fun a b hab => .ok (.all hab)
    | prim p => exact single (.prim p)
    | named h => exact single (.named h)
    | sel h => exact single (.sel h)
    | time => exact single .time
    | uuid => exact single .uuid

inductive SameR (R : Nat → Nat → Prop) : RIR → RIR → Prop
  | slice {x y : RIR} (h : SameR R x y) : SameR R (.slice x) (.slice y)
  | bytes : SameR R .bytes .bytes
  | const {t u : TExpr} (h : SameT R t u) : SameR R (.const t) (.const u)
  | clearMap : SameR R .clearMap .clearMap
  | method {n m : Nat} (h : R n m) : SameR R (.method n) (.method m)

/-- the last case of `resetStmt` -/
def resetRest (Γ : Env) (k : Nat) (t d : TExpr) : Out RIR := do
  let b ← zeroKnown Γ k d
  if b then return .const d
  else match t with
    | .named n | .sel n => return .method n
    | _ => .unsupp

theorem resetRest_same (hA : DeclaredAlike R Γ Δ) (k : Nat) {t u d e : TExpr} (h : SameT R t u) (hd : SameT R d e) :
    ORel (SameR R) (resetRest Γ k t d) (resetRest Δ k u e) := by
  unfold resetRest
  rw [zeroKnown_same hA k hd]
  refine (ORel.same _).bind fun x y hxy => ?_
  subst hxy
  split
  · exact .ok (.const hd)
  · cases h with
    | named h => exact .ok (.method h)
    | sel h => exact .ok (.method h)
    | _ => exact .unsupp

theorem genReset_same (hA : DeclaredAlike R Γ Δ) (k : Nat) : ∀ (lvl : Nat) {t u : TExpr}, SameT R t u →
    ORel (SameR R) (genReset Γ k lvl t) (genReset Δ k lvl u)
  | lvl, t, u, h => by
    unfold genReset
    have hd := denoted_same hA h
    have hrest := @resetRest_same R Γ Δ _ hA k t u _ _ h hd
    generalize Γ.denoted t = a at hd hrest ⊢
    generalize Δ.denoted u = b at hd hrest ⊢
    cases hd with
    | slice he =>
      cases lvl with
      | zero => exact .unsupp
      | succ lvl =>
        dsimp only
        rw [he.isByte]
        split
        · exact .ok .bytes
        · exact (genReset_same hA k lvl he).bind fun a b hab => .ok (.slice hab)
    | array n he => exact .ok (.const (.array n he))
    | uuid => exact .ok (.const .uuid)
    | time => exact .ok (.const .time)
    | map he => exact .ok .clearMap
    | prim p => exact hrest
    | named h => exact hrest
    | sel h => exact hrest
    | structT => exact hrest
    | star h => exact hrest

theorem resets_same (hA : DeclaredAlike R Γ Δ) (k : Nat) {fs gs : List FieldDecl} (h : List.Forall₂ (SameField R) fs gs) :
    ORel (List.Forall₂ (SameR R)) (genResets Γ k fs) (genResets Δ k gs) := by
  induction h with
  | nil => exact .ok .nil
  | cons h _ ih =>
    exact (genReset_same hA k 6 h.1).bind fun a b hab => ih.bind fun as bs habs => .ok (.cons hab habs)

inductive SameRIR (R : Nat → Nat → Prop) : ResetIR → ResetIR → Prop
  | struct {xs ys : List RIR} (h : List.Forall₂ (SameR R) xs ys) : SameRIR R (.struct xs) (.struct ys)
  | map {x y : RIR} (h : SameR R x y) : SameRIR R (.map x) (.map y)
  | listNone : SameRIR R (.list none) (.list none)
  | list {n m : Nat} (h : R n m) : SameRIR R (.list (some n)) (.list (some m))
  | const {t u : TExpr} (h : SameT R t u) : SameRIR R (.const t) (.const u)
  | bytes : SameRIR R .bytes .bytes
  | single {x y : RIR} (h : SameR R x y) : SameRIR R (.single x) (.single y)

theorem genResetDecl_same (hA : DeclaredAlike R Γ Δ) (k : Nat) {d e : Decl} (h : SameDecl R d e) :
    ORel (SameRIR R) (genResetDecl Γ k d) (genResetDecl Δ k e) := by
  cases h with
  | struct s h => exact (resets_same hA k h).bind fun a b hab => .ok (.struct hab)
  | «alias» h =>
    have single : ∀ {t u : TExpr}, SameT R t u → ORel (SameRIR R)
        (do let z ← genReset Γ k 6 t; return .single z) (do let z ← genReset Δ k 6 u; return .single z) :=
      fun h => (genReset_same hA k 6 h).bind fun a b hab => .ok (.single hab)
    cases h with
    | map h => exact (genReset_same hA k 6 h).bind fun a b hab => .ok (.map hab)
    | @slice t u h =>
      simp only [genResetDecl]
      rw [h.isByte]
      split
      · exact .ok .bytes
      · have hd := denoted_same hA h
        generalize Γ.denoted t = a at hd ⊢
        generalize Δ.denoted u = b at hd ⊢
        cases hd with
        | structT =>
          cases h with
          | named h => exact .ok (.list h)
          | sel h => exact .ok (.list h)
          | _ => exact .unsupp
        | _ => exact .ok .listNone
    | array n h => exact .ok (.const (.array n h))
    | star => exact .unsupp
    | structT => exact .unsupp
    | prim p => exact single (.prim p)
    | named h => exact single (.named h)
    | sel h => exact single (.sel h)
    | time => exact single .time
    | uuid => exact single .uuid

/-! ## Running it -/

/-- related names have the same methods -/
def MSame (R : Nat → Nat → Prop) (M N : Nat → Methods) : Prop := ∀ n m, R n m → M n = N m

variable {M N : Nat → Methods}

theorem zeroT_same (hM : MSame R M N) {t u : TExpr} (h : SameT R t u) : zeroT M t = zeroT N u := by
  induction h with
  | named h => simp only [zeroT, hM _ _ h]
  | sel h => simp only [zeroT, hM _ _ h]
  | array n h ih => simp only [zeroT, h.isByte, ih]
  | _ => rfl

theorem convT_same (hM : MSame R M N) {t u : TExpr} (h : SameT R t u) : convT M t = convT N u := by
  funext v
  cases h with
  | named h => simp only [convT, hM _ _ h]
  | sel h => simp only [convT, hM _ _ h]
  | _ => rfl

theorem fillT_same (hM : MSame R M N) {t u : TExpr} (h : SameT R t u) : fillT M t = fillT N u := by
  funext v s
  cases h with
  | named h => simp only [fillT, hM _ _ h]
  | sel h => simp only [fillT, hM _ _ h]
  | _ => rfl

theorem storeElem_same (hM : MSame R M N) {t u : ElemStore} (h : SameStore R t u) : storeElem M t = storeElem N u := by
  funext v c
  cases h with
  | ref h => simp only [storeElem, convT_same hM h]
  | val h => simp only [storeElem, convT_same hM h]
  | filled => rfl

theorem elemRound_same (hM : MSame R M N) (a b : Bool) {t u : ElemStore} (h : SameStore R t u) {x y : Nat → JV → GoVal → Out TV}
    (hxy : x = y) : elemRound M a b t x = elemRound N a b u y := by
  funext i v c
  simp only [elemRound, storeElem_same hM h, hxy]

theorem mapLoop_same (hM : MSame R M N) (star : Bool) {t u : TExpr} (h : SameT R t u) {x y : JV → Out TV} (hxy : x = y) :
    ∀ (kvs : List (Str × JV)) (m : List (Str × GoVal)), mapLoop M star t x kvs m = mapLoop N star u y kvs m
  | [], m => rfl
  | (key, v) :: rest, m => by
    subst hxy
    simp only [mapLoop, convT_same hM h, mapLoop_same hM star h rfl rest]

theorem SameX.declaresErr {x y : Extr} (h : SameX R x y) : x.declaresErr = y.declaresErr := by cases h <;> rfl

theorem runExtr_alike (hM : MSame R M N) {x y : Extr} (h : SameX R x y) : runExtr M x = runExtr N y := by
  induction h with
  | nestedFresh h => funext i v f; simp only [runExtr, zeroT_same hM h, fillT_same hM h]
  | nestedInPlace h => funext i v f; simp only [runExtr, fillT_same hM h]
  | slice j h n hx b hs ih =>
    funext i v f
    simp only [runExtr, zeroT_same hM h, elemRound_same hM n b hs ih, hx.declaresErr]
  | array j l h hx b hs ih =>
    funext i v f
    simp only [runExtr, zeroT_same hM h, elemRound_same hM false b hs ih, hx.declaresErr]
  | @map j star t u h x y hx ih =>
    funext i v f
    have := fun kvs m => mapLoop_same hM star h (x := fun v => runExtr M x 0 v .nil) (y := fun v => runExtr N y 0 v .nil)
      (by rw [ih]) kvs m
    simp only [runExtr, this]
  | _ => funext i v f; rfl

theorem storeField_same (hM : MSame R M N) {t u : Store} (h : SameStoreF R t u) : storeField M t = storeField N u := by
  funext v c
  cases h with
  | filled => rfl
  | val h => simp only [storeField, convT_same hM h]
  | ref h => simp only [storeField, convT_same hM h]
  | named h => simp only [storeField, convT_same hM h]
  | refNamed h => simp only [storeField, convT_same hM h]

theorem runField_same (hM : MSame R M N) {f g : FieldFill} (h : SameFF R f g) : runField M f = runField N g := by
  funext v c
  simp only [runField, h.json, h.nullable, runExtr_alike hM h.x, h.check, h.max, storeField_same hM h.store, h.dflt]

theorem runFields_alike (hM : MSame R M N) (v : JV) {fs gs : List (Option FieldFill)} (h : List.Forall₂ (SameOpt R) fs gs) :
    ∀ l, runFields M v fs l = runFields N v gs l := by
  induction h with
  | nil => intro l; cases l <;> rfl
  | @cons a b as bs hab _ ih =>
    intro l
    cases l with
    | nil =>
      rcases hab with ⟨rfl, rfl⟩ | ⟨x, y, rfl, rfl, _⟩ <;> rfl
    | cons c cs =>
      rcases hab with ⟨rfl, rfl⟩ | ⟨x, y, rfl, rfl, hxy⟩
      · simp only [runFields, ih]
      · simp only [runFields, ih, runField_same hM hxy]

theorem listRound_same (hM : MSame R M N) {t u : TExpr} (h : SameT R t u) {x y : Extr} (hx : SameX R x y) :
    listRound M t x = listRound N u y := by
  funext i a c
  simp only [listRound, runExtr_alike hM hx, convT_same hM h]

theorem runFill_same (hM : MSame R M N) {a b : FillIR} (h : SameFill R a b) : runFill M a = runFill N b := by
  funext v s
  cases h with
  | struct names strict h =>
    cases s with
    | struct gs => simp only [runFill, runFields_alike hM v h]
    | _ => rfl
  | @map star t u h x y hx =>
    have := fun kvs m => mapLoop_same hM star h (x := fun v => runExtr M x 0 v .nil) (y := fun v => runExtr N y 0 v .nil)
      (by rw [runExtr_alike hM hx]) kvs m
    simp only [runFill, this]
  | list len h hx =>
    cases len with
    | none => simp only [runFill, zeroT_same hM h, listRound_same hM h hx]
    | some n => simp only [runFill, listRound_same hM h hx]
  | bytes len => rfl
  | transit h hx => simp only [runFill, runExtr_alike hM hx, convT_same hM h]

theorem runVExt_same (hM : MSame R M N) (label : ECtx) {x y : VExt} (h : SameV R x y) : runVExt M label x = runVExt N label y := by
  induction h with
  | call h => funext v w; simp only [runVExt, hM _ _ h]
  | callPtr h => funext v w; cases v <;> simp only [runVExt, hM _ _ h]
  | star h ih => funext v w; cases v <;> simp only [runVExt, ih]
  | arr h ih => funext v w; cases v <;> simp only [runVExt, ih]
  | _ => funext v w; cases v <;> rfl

theorem runVExt_label_same (hM : MSame R M N) {x y : VExt} (h : SameV R x y) :
    (fun l => runVExt M l x) = fun l => runVExt N l y := by
  funext l; exact runVExt_same hM l h

theorem writeList_same (hM : MSame R M N) (name : Str) {x y : VExt} (h : SameV R x y) :
    writeList M name x = writeList N name y := by
  funext es w
  simp only [writeList, runVExt_same hM _ h]

theorem writeMap_same (hM : MSame R M N) (name : Str) {x y : VExt} (h : SameV R x y) :
    writeMap M name x = writeMap N name y := by
  funext es w
  simp only [writeMap, runVExt_same hM _ h]

theorem runBody_same (hM : MSame R M N) (name : Str) {x y : Body} (h : SameBody R x y) :
    runBody M name x = runBody N name y := by
  funext v w
  cases h with
  | struct h b => simp only [runBody, hM _ _ h]
  | inline h => simp only [runBody, hM _ _ h]
  | map h => simp only [runBody, writeMap_same hM name h]
  | arr h => simp only [runBody, writeList_same hM name h]
  | _ => rfl

theorem runBlk_same (hM : MSame R M N) {b c : Blk} (h : SameBlk R b c) : runBlk M b = runBlk N c := by
  funext v wc w
  have hc := h.cond
  obtain ⟨n1, c1, b1, z1⟩ := b
  obtain ⟨n2, c2, b2, z2⟩ := c
  have hn := h.name
  have hz := h.ifZero
  have hb := h.body
  dsimp only at hc hn hz hb
  subst hn
  subst hz
  simp only [runBlk, runBody_same hM _ hb]
  cases hc with
  | method hn => simp only [runCond, hM _ _ hn]
  | _ => rfl

theorem runBlks_same (hM : MSame R M N) {bs cs : List Blk} (h : List.Forall₂ (SameBlk R) bs cs) :
    ∀ vs wc w, runBlks M bs vs wc w = runBlks N cs vs wc w := by
  induction h with
  | nil => intro vs wc w; cases vs <;> rfl
  | cons h _ ih =>
    intro vs wc w
    cases vs with
    | nil => rfl
    | cons v vs => simp only [runBlks, runBlk_same hM h, ih]

theorem runMarshal_same (hM : MSame R M N) {a b : MarshalIR} (h : SameMIR R a b) : runMarshal M a = runMarshal N b := by
  funext v w
  cases h with
  | struct h =>
    cases h with
    | nil => rfl
    | cons h hs =>
      have := runBlks_same hM (List.Forall₂.cons h hs)
      simp only [runMarshal, this]
  | map h => simp only [runMarshal, writeMap_same hM _ h]
  | list b h => simp only [runMarshal, writeList_same hM _ h]
  | call h => simp only [runMarshal, hM _ _ h]
  | _ => rfl

theorem runZTest_same (hM : MSame R M N) {t u : ZTest} (h : SameZT R t u) : runZTest M t = runZTest N u := by
  funext v
  cases h with
  | method h => simp only [runZTest, hM _ _ h]
  | time => cases v <;> rfl
  | const => rfl

theorem runZTests_same (hM : MSame R M N) {ts us : List ZTest} (h : List.Forall₂ (SameZT R) ts us) :
    ∀ vs, runZTests M ts vs = runZTests N us vs := by
  induction h with
  | nil => intro vs; cases vs <;> rfl
  | cons h _ ih =>
    intro vs
    cases vs with
    | nil => rfl
    | cons v vs => simp only [runZTests, runZTest_same hM h, ih]

theorem runAll_same (hM : MSame R M N) {t u : ZTest} (h : SameZT R t u) : ∀ vs, runAll M t vs = runAll N u vs
  | [] => rfl
  | v :: vs => by
    simp only [runAll, runZTest_same hM h, runAll_same hM h vs]
    cases h <;> rfl

theorem runZero_same (hM : MSame R M N) {a b : ZeroIR} (h : SameZIR R a b) : runZero M a = runZero N b := by
  funext v
  cases h with
  | struct h => simp only [runZero, runZTests_same hM h]
  | all h => simp only [runZero, runAll_same hM h]
  | single h => simp only [runZero, runZTest_same hM h]
  | _ => rfl

theorem runReset_same (hM : MSame R M N) {x y : RIR} (h : SameR R x y) : runReset M x = runReset N y := by
  induction h with
  | slice h ih => funext v; cases v <;> simp only [runReset, ih]
  | const h => funext v; simp only [runReset, zeroT_same hM h]
  | method h => funext v; simp only [runReset, hM _ _ h]
  | bytes => funext v; cases v <;> rfl
  | clearMap => funext v; cases v <;> rfl

theorem runResets_same (hM : MSame R M N) {xs ys : List RIR} (h : List.Forall₂ (SameR R) xs ys) :
    ∀ vs, runResets M xs vs = runResets N ys vs := by
  induction h with
  | nil => intro vs; cases vs <;> rfl
  | cons h _ ih =>
    intro vs
    cases vs with
    | nil => rfl
    | cons v vs => simp only [runResets, runReset_same hM h, ih]

theorem runResetDecl_same (hM : MSame R M N) {a b : ResetIR} (h : SameRIR R a b) : runResetDecl M a = runResetDecl N b := by
  funext v
  cases h with
  | struct h => simp only [runResetDecl, runResets_same hM h]
  | map h => simp only [runResetDecl, runReset_same hM h]
  | listNone => rfl
  | list h => simp only [runResetDecl, hM _ _ h]
  | const h => simp only [runResetDecl, zeroT_same hM h]
  | bytes => rfl
  | single h => simp only [runResetDecl, runReset_same hM h]

theorem zeroFields_same (hM : MSame R M N) {fs gs : List FieldDecl} (h : List.Forall₂ (SameField R) fs gs) :
    zeroFields M fs = zeroFields N gs := by
  induction h with
  | nil => rfl
  | cons h _ ih => simp only [zeroFields, zeroT_same hM h.1, ih]

theorem declMethods_same (hA : DeclaredAlike R Γ Δ) (k : Nat) (hM : MSame R M N) {d e : Decl} (h : SameDecl R d e) :
    declMethods Γ k M d = declMethods Δ k N e := by
  have h1 : (declMethods Γ k M d).zero = (declMethods Δ k N e).zero := by
    cases h with
    | struct s h => simp only [declMethods, zeroFields_same hM h]
    | «alias» h => simp only [declMethods, zeroT_same hM h]
  have h2 : (declMethods Γ k M d).conv = (declMethods Δ k N e).conv := by
    cases h with
    | struct s h => rfl
    | «alias» h => simp only [declMethods, convT_same hM h]
  have h3 : (declMethods Γ k M d).fill = (declMethods Δ k N e).fill := by
    funext v s
    exact (genFill_same hA k h).bind_eq fun a b hab => by rw [runFill_same hM hab]
  have h4 : (declMethods Γ k M d).marshalTo = (declMethods Δ k N e).marshalTo := by
    funext v s
    exact (genMarshal_same hA h).bind_eq fun a b hab => by rw [runMarshal_same hM hab]
  have h5 : (declMethods Γ k M d).isZero = (declMethods Δ k N e).isZero := by
    funext v
    exact (genZero_same hA k h).bind_eq fun a b hab => by rw [runZero_same hM hab]
  have h6 : (declMethods Γ k M d).reset = (declMethods Δ k N e).reset := by
    funext v
    exact (genResetDecl_same hA k h).bind_eq fun a b hab => by rw [runResetDecl_same hM hab]
  have eta : ∀ {x y : Methods}, x.zero = y.zero → x.conv = y.conv → x.fill = y.fill → x.marshalTo = y.marshalTo →
      x.isZero = y.isZero → x.reset = y.reset → x = y := by
    rintro ⟨⟩ ⟨⟩ h1 h2 h3 h4 h5 h6
    simp_all
  exact eta h1 h2 h3 h4 h5 h6

/-- Types declared alike have the same methods. -/
theorem methods_same (hA : DeclaredAlike R Γ Δ) : ∀ (k : Nat), MSame R (Γ.methods k) (Δ.methods k)
  | 0, _, _, _ => rfl
  | k + 1, n, m, h => by
    unfold Env.methods
    rcases hA n m h with ⟨d, e, hd, he, hs⟩ | ⟨hd, he, hx⟩
    · rw [hd, he]; exact declMethods_same hA k (methods_same hA k) hs
    · rw [hd, he]; exact hx

end
end VJ
