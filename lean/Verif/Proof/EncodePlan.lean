import Verif.Proof.EncodeList
import Verif.Props.Determinism

/-!
# What the generator emits for a struct field
-/

namespace VJ

variable [Ext] {Γ : Env} {X : Nat → GoVal → Prop} {S : Nat → Prop} {F : Nat → Option GoVal → JV → Prop}

/-! ### a type has one kind -/

/-- the kind of a field, computed -/
def kindOf (Γ : Env) : TExpr → Option EKind
  | .prim _ => some .scalar
  | .time => some .time
  | .uuid => some .uuid
  | .map e => some (.map e)
  | .slice e => some (if e = .prim .byte then .bytes else .list e)
  | .array _ e => some (if e = .prim .byte then .fixedBytes else .list e)
  | .sel n => match Γ.decl n with
    | none => some (.method n)
    | some (.alias (.prim _)) => some .scalar
    | _ => none
  | .named n => match Γ.decl n with
    | some (.struct _ _) => some (.method n)
    | some (.alias (.prim _)) => some .scalar
    | some (.alias (.star (.prim _))) => some .ptr
    | some (.alias (.star .time)) => some .timePtr
    | some (.alias (.sel m)) => some (.method m)
    | some (.alias (.map e)) => some (.map e)
    | some (.alias (.slice e)) => some (if e = .prim .byte then .bytes else .list e)
    | some (.alias (.array _ e)) => some (if e = .prim .byte then .fixedBytes else .list e)
    | _ => none
  | .star y => match y with
    | .prim _ => some .ptr
    | .time => some .timePtr
    | .uuid => some .uuidPtr
    | .star (.prim _) => some .ptr2
    | .sel n => match Γ.decl n with
      | none => some (.methodPtr n)
      | some (.alias (.prim _)) => some .ptr
      | _ => none
    | .named n => match Γ.decl n with
      | some (.struct _ _) => some (.methodPtr n)
      | some (.alias (.prim _)) => some .ptr
      | some (.alias (.star (.prim _))) => some .ptr2
      | some (.alias (.sel m)) => some (.methodPtr m)
      | _ => none
    | _ => none
  | .structT => none

omit [Ext] in
theorem FieldKind.kindOf {t : TExpr} {k : EKind} (h : FieldKind Γ t k) : kindOf Γ t = some k := by
  cases h with
  | scalar h => cases h <;> simp [VJ.kindOf, *]
  | ptr h => cases h <;> simp [VJ.kindOf, *]
  | namedPtr h => simp [VJ.kindOf, *]
  | ptr2 h => cases h <;> simp [VJ.kindOf, *]
  | time => rfl
  | timePtr h => cases h <;> simp [VJ.kindOf, *]
  | uuid => rfl
  | uuidPtr => rfl
  | method h => cases h <;> simp [VJ.kindOf, *]
  | methodPtr h => cases h <;> simp [VJ.kindOf, *]
  | map h => cases h <;> simp [VJ.kindOf, *]
  | slice h hb => cases h <;> simp [VJ.kindOf, *]
  | array h hb => cases h <;> simp [VJ.kindOf, *]
  | bytes h => cases h <;> simp [VJ.kindOf, *]
  | fixedBytes h => cases h <;> simp [VJ.kindOf, *]

omit [Ext] in
theorem fieldKind_unique {t : TExpr} {k k' : EKind} (h : FieldKind Γ t k) (h' : FieldKind Γ t k') : k = k' :=
  Option.some.inj (h.kindOf.symm.trans h'.kindOf)

theorem not_omitted {fd : FieldDecl} {k : EKind} {v : GoVal} (hk : FieldKind Γ fd.typ k)
    (h : IsEmpty Γ k v → fd.tags.omitempty = false ∧ ((∃ n, k = .method n) → fd.tags.jsonName ≠ [])) : ¬ Omitted Γ fd v := by
  rintro ⟨k', hk', he, h'⟩
  cases fieldKind_unique hk hk'
  obtain ⟨h1, h2⟩ := h he
  rcases h' with h' | ⟨h', h3⟩
  · rw [h1] at h'; cases h'
  · exact h2 h' h3

/-! ### emitted blocks -/

/-- text for an empty collection -/
def nullUnless (o : Bool) (sets : Bool) : Option (Str × Bool) := if o then none else some (str "null", sets)

inductive BlkPlan (Γ : Env) (fd : FieldDecl) : EKind → Blk → Prop
  | scalar {p : Prim} {b : Blk} (ht : IsPrim Γ fd.typ p) (h : typeMarshal fd.tags p 0 = .ok b) : BlkPlan Γ fd .scalar b
  | ptr {y : TExpr} {p : Prim} {b : Blk} (hk : FieldKind Γ fd.typ .ptr) (ht : Is Γ fd.typ (.star y)) (hy : IsPrim Γ y p)
      (h : typeMarshal fd.tags p 1 = .ok b) : BlkPlan Γ fd .ptr b
  | ptr2 {t : TExpr} {p : Prim} {b : Blk} (ht : fd.typ = .star t) (hy : Is Γ t (.star (.prim p)))
      (h : typeMarshal fd.tags p 2 = .ok b) : BlkPlan Γ fd .ptr2 b
  | time (ht : fd.typ = .time) : BlkPlan Γ fd .time (timeMarshal fd.tags 0)
  | timePtr (ht : Is Γ fd.typ (.star .time)) : BlkPlan Γ fd .timePtr (timeMarshal fd.tags 1)
  | uuid (ht : fd.typ = .uuid) : BlkPlan Γ fd .uuid ⟨fd.tags.jsonName, none, .uuid false, none⟩
  | uuidPtr (ht : fd.typ = .star .uuid) : BlkPlan Γ fd .uuidPtr ⟨fd.tags.jsonName, none, .uuid true, none⟩
  | method {n : Nat} {b : Blk} (ht : ByMethod Γ fd.typ n) (h : marshalTransit fd.tags n false = .ok b) : BlkPlan Γ fd (.method n) b
  | methodPtr {t : TExpr} {n : Nat} {b : Blk} (ht : fd.typ = .star t) (hy : ByMethod Γ t n) (h : marshalTransit fd.tags n true = .ok b) :
      BlkPlan Γ fd (.methodPtr n) b
  | map {e : TExpr} {x : VExt} (ht : Is Γ fd.typ (.map e)) (hx : ElemPlan Γ e x) :
      BlkPlan Γ fd (.map e) ⟨fd.tags.jsonName, some .neZero, .map x, nullUnless fd.tags.omitempty true⟩
  | slice {e : TExpr} {x : VExt} (ht : Is Γ fd.typ (.slice e)) (hb : e ≠ .prim .byte) (hx : ElemPlan Γ e x) :
      BlkPlan Γ fd (.list e) ⟨fd.tags.jsonName, some .neZero, .arr x, nullUnless fd.tags.omitempty true⟩
  | array {e : TExpr} {len : Nat} {x : VExt} (ht : Is Γ fd.typ (.array len e)) (hb : e ≠ .prim .byte) (hx : ElemPlan Γ e x) :
      BlkPlan Γ fd (.list e) ⟨fd.tags.jsonName, none, .arr x, nullUnless fd.tags.omitempty true⟩
  | bytes (ht : Is Γ fd.typ (.slice (.prim .byte))) :
      BlkPlan Γ fd .bytes ⟨fd.tags.jsonName, some .neZero, .bytes, nullUnless fd.tags.omitempty true⟩
  | fixedBytes {len : Nat} (ht : Is Γ fd.typ (.array len (.prim .byte))) :
      BlkPlan Γ fd .fixedBytes ⟨fd.tags.jsonName, some .neZero, .bytes, nullUnless fd.tags.omitempty true⟩

theorem BlkPlan.kind {fd : FieldDecl} {k : EKind} {b : Blk} (h : BlkPlan Γ fd k b) : FieldKind Γ fd.typ k := by
  cases h with
  | scalar ht => exact .scalar ht
  | ptr hk => exact hk
  | ptr2 ht hy => rw [ht]; exact .ptr2 hy
  | time ht => rw [ht]; exact .time
  | timePtr ht => exact .timePtr ht
  | uuid ht => rw [ht]; exact .uuid
  | uuidPtr ht => rw [ht]; exact .uuidPtr
  | method ht => exact .method ht
  | methodPtr ht hy => rw [ht]; exact .methodPtr hy
  | map ht => exact .map ht
  | slice ht hb => exact .slice ht hb
  | array ht hb => exact .array ht hb
  | bytes ht => exact .bytes ht
  | fixedBytes ht => exact .fixedBytes ht

/-- `genFieldMarshal` for a field of type `e`, or a pointer to it -/
def genCore (Γ : Env) (tags : Tags) (e : TExpr) (st : Bool) : Out Blk :=
  match Γ.denoted e with
  | .prim p => typeMarshal tags p (if st then 1 else 0)
  | .star x =>
    match x with
    | .prim p => typeMarshal tags p (if st then 2 else 1)
    | .time => if st then .unsupp else .ok (timeMarshal tags 1)
    | _ => .unsupp
  | .named _ => .unsupp
  | .time => if e ≠ .time then .unsupp else .ok (timeMarshal tags (if st then 1 else 0))
  | .uuid => if e ≠ .uuid then .unsupp else .ok ⟨tags.jsonName, none, .uuid st, none⟩
  | .sel n => marshalTransit tags n st
  | .structT =>
    match e with
    | .named n | .sel n => marshalTransit tags n st
    | _ => .unsupp
  | .map v =>
    if st then .unsupp
    else do
      let x ← valueExt Γ v (Γ.denoted v) (fieldDecStr Γ v)
      return ⟨tags.jsonName, some .neZero, .map x, nullUnless tags.omitempty true⟩
  | .slice e =>
    if st then .unsupp
    else if e.isByte then .ok ⟨tags.jsonName, some .neZero, .bytes, nullUnless tags.omitempty true⟩
    else do
      let x ← valueExt Γ e (Γ.denoted e) (fieldDecStr Γ e)
      return ⟨tags.jsonName, some .neZero, .arr x, nullUnless tags.omitempty true⟩
  | .array _ e =>
    if st then .unsupp
    else if e.isByte then .ok ⟨tags.jsonName, some .neZero, .bytes, nullUnless tags.omitempty true⟩
    else do
      let x ← valueExt Γ e (Γ.denoted e) (fieldDecStr Γ e)
      return ⟨tags.jsonName, none, .arr x, nullUnless tags.omitempty true⟩

omit [Ext] in
theorem refx_eq {e : TExpr} (hg : EGood Γ S e) :
    (if (Γ.denoted e).isOrdinal then Γ.denoted e else match (generalizing := false) e with
      | .named n => Γ.denotedIdent n (.named n)
      | t => t) = Γ.denoted e := by
  split
  · rfl
  · cases e with
    | sel n => simp [Env.denoted, Env.denotedIdent, hg.sel]
    | _ => rfl

theorem gen_star {fd : FieldDecl} {e : TExpr} (ht : fd.typ = .star e) (hg : EGood Γ S e) : genFieldMarshal Γ fd = genCore Γ fd.tags e true := by
  have h : (Fld.prepare Γ true fd.typ fd.tags false false).refx = Γ.denoted e := by rw [ht]; exact refx_eq hg
  have h2 : (Fld.prepare Γ true fd.typ fd.tags false false).isStar = true := by rw [ht]; rfl
  have h3 : (Fld.prepare Γ true fd.typ fd.tags false false).expr = e := by rw [ht]; rfl
  unfold genFieldMarshal genCore
  simp only [h, h2, h3]
  rfl

theorem gen_other {fd : FieldDecl} (ht : ∀ e, fd.typ ≠ .star e) (hg : EGood Γ S fd.typ) : genFieldMarshal Γ fd = genCore Γ fd.tags fd.typ false := by
  have h3 : (Fld.prepare Γ true fd.typ fd.tags false false).expr = fd.typ := by
    show (match fd.typ with | .star x => x | t => t) = fd.typ
    cases h : fd.typ <;> first | rfl | exact absurd h (ht _)
  have h : (Fld.prepare Γ true fd.typ fd.tags false false).refx = Γ.denoted fd.typ := by
    have : (Fld.prepare Γ true fd.typ fd.tags false false).refx =
      (if (Γ.denoted (Fld.prepare Γ true fd.typ fd.tags false false).expr).isOrdinal then Γ.denoted (Fld.prepare Γ true fd.typ fd.tags false false).expr
        else match (Fld.prepare Γ true fd.typ fd.tags false false).expr with
        | .named n => Γ.denotedIdent n (.named n)
        | t => t) := rfl
    rw [this, h3]; exact refx_eq hg
  have h2 : (Fld.prepare Γ true fd.typ fd.tags false false).isStar = false := by
    show (match fd.typ with | .star _ => true | _ => false : Bool) = false
    cases h : fd.typ <;> first | rfl | exact absurd h (ht _)
  unfold genFieldMarshal genCore
  simp only [h, h2, h3]
  rfl

omit [Ext] in
theorem denoted_self {e : TExpr} {n : Nat} (h : Γ.denoted e = .sel n) (hg : EGood Γ S e) : ByMethod Γ e n := by
  cases e with
  | named m =>
    simp only [Env.denoted, Env.denotedIdent] at h
    cases hd : Γ.decl m with
    | none => simp [hd] at h
    | some d =>
      cases d with
      | struct => simp [hd, Decl.spec] at h
      | alias u => simp only [hd, Decl.spec] at h; subst h; exact .named hd
  | sel m => simp only [Env.denoted, Env.denotedIdent, hg.sel] at h; cases h; exact .sel hg.sel
  | _ => cases h

omit [Ext] in
theorem denoted_struct (hP : TypeSet Γ S) {e : TExpr} (h : Γ.denoted e = .structT) (hg : EGood Γ S e) :
    ∃ n, e = .named n ∧ ByMethod Γ e n := by
  cases e with
  | named m =>
    simp only [Env.denoted, Env.denotedIdent] at h
    cases hd : Γ.decl m with
    | none => simp [hd] at h
    | some d =>
      cases d with
      | struct => exact ⟨m, rfl, .struct hd⟩
      | alias u =>
        simp only [hd, Decl.spec] at h; subst h
        have := (hP.alias (hg.name (.named m)) hd).good.noAnon
        cases this
  | sel m => simp only [Env.denoted, Env.denotedIdent, hg.sel] at h; cases h
  | structT => have := hg.good.noAnon; cases this
  | _ => cases h

theorem blk_plan (hP : TypeSet Γ S) {fd : FieldDecl} {b : Blk} (hg : EGood Γ S fd.typ) (h : genFieldMarshal Γ fd = .ok b) :
    ∃ k, BlkPlan Γ fd k b := by
  have isOf : ∀ {e u : TExpr}, EGood Γ S e → Γ.denoted e = u → u ≠ .structT → Is Γ e u := fun hg h hs => by
    subst h; exact step_is (.inr rfl) hg hs
  by_cases hs : ∃ e, fd.typ = .star e
  · obtain ⟨e, ht⟩ := hs
    have hge : EGood Γ S e := by rw [ht] at hg; exact hg.star
    rw [gen_star ht hge] at h
    unfold genCore at h
    split at h
    · rename_i p hp
      have := denoted_prim.1 hp
      exact ⟨_, .ptr (ht ▸ .ptr this) (ht ▸ .self _) this h⟩
    · rename_i x hx
      split at h
      · rename_i p
        exact ⟨_, .ptr2 ht (isOf hge hx (by simp)) h⟩
      · cases h
      · cases h
    · cases h
    · split at h
      · cases h
      · rename_i hne
        simp only [ne_eq, Decidable.not_not] at hne; subst hne
        cases h
        exact ⟨_, .timePtr (ht ▸ .self _)⟩
    · split at h
      · cases h
      · rename_i hne
        simp only [ne_eq, Decidable.not_not] at hne; subst hne
        cases h
        exact ⟨_, .uuidPtr ht⟩
    · rename_i n hn
      exact ⟨_, .methodPtr ht (denoted_self hn hge) h⟩
    · rename_i hn
      obtain ⟨n, rfl, hb⟩ := denoted_struct hP hn hge
      exact ⟨_, .methodPtr ht hb h⟩
    all_goals cases h
  · have hs' : ∀ e, fd.typ ≠ .star e := fun e he => hs ⟨e, he⟩
    rw [gen_other hs' hg] at h
    unfold genCore at h
    split at h
    · rename_i p hp
      exact ⟨_, .scalar (denoted_prim.1 hp) h⟩
    · rename_i x hx
      have hi := isOf hg hx (by simp)
      split at h
      · rename_i p
        refine ⟨_, .ptr ?_ hi (.self p) h⟩
        generalize ht : fd.typ = t at hi
        cases hi with
        | self => exact absurd ht (hs' _)
        | named hd => exact .namedPtr hd
      · cases h
        exact ⟨_, .timePtr hi⟩
      · cases h
    · cases h
    · split at h
      · cases h
      · rename_i hne
        simp only [ne_eq, Decidable.not_not] at hne
        cases h
        exact ⟨_, .time hne⟩
    · split at h
      · cases h
      · rename_i hne
        simp only [ne_eq, Decidable.not_not] at hne
        cases h
        exact ⟨_, .uuid hne⟩
    · rename_i n hn
      exact ⟨_, .method (denoted_self hn hg) h⟩
    · rename_i hn
      obtain ⟨n, he, hb⟩ := denoted_struct hP hn hg
      rw [he] at h
      exact ⟨_, .method hb h⟩
    · rename_i v hv
      have hi := isOf hg hv (by simp)
      simp only [Bool.false_eq_true, if_false] at h
      obtain ⟨x, hx, he⟩ := Out.bind_eq_ok.1 h
      cases he
      exact ⟨_, .map hi (valueExt_plan hP hx (hg.is hP hi).map)⟩
    · rename_i e he
      have hi := isOf hg he (by simp)
      simp only [Bool.false_eq_true, if_false] at h
      split at h
      · rename_i hb
        cases h
        have : e = .prim .byte := by
          cases e with
          | prim p => cases p <;> first | rfl | cases hb
          | _ => cases hb
        subst this
        exact ⟨_, .bytes hi⟩
      · rename_i hb
        obtain ⟨x, hx, he⟩ := Out.bind_eq_ok.1 h
        cases he
        exact ⟨_, .slice hi (isByte_false (by simpa using hb)) (valueExt_plan hP hx (hg.is hP hi).slice)⟩
    · rename_i n e he
      have hi := isOf hg he (by simp)
      simp only [Bool.false_eq_true, if_false] at h
      split at h
      · rename_i hb
        cases h
        have : e = .prim .byte := by
          cases e with
          | prim p => cases p <;> first | rfl | cases hb
          | _ => cases hb
        subst this
        exact ⟨_, .fixedBytes hi⟩
      · rename_i hb
        obtain ⟨x, hx, he⟩ := Out.bind_eq_ok.1 h
        cases he
        exact ⟨_, .array hi (isByte_false (by simpa using hb)) (valueExt_plan hP hx (hg.is hP hi).array)⟩

end VJ
