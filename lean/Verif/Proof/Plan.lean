import Verif.Proof.NamedDecode

/-!
# The shapes of template the generator can choose

`Plan` lists what `typedValue` can return, by kind of type, so that later proofs need not
unfold the generator.
-/

namespace VJ
set_option linter.unusedSectionVars false
set_option linter.unusedSimpArgs false

/-- templates that may stand in the closure passed to `Visit` -/
def Extr.simple : Extr → Bool
  | .int | .uint | .float | .bool | .strUnchecked | .nestedFresh _ | .nestedInPlace _ => true
  | _ => false

/-- how slice elements are stored -/
def elemStore (elt : TExpr) (filled : Bool) : ElemStore :=
  match elt with
  | .star u => .ref u
  | t => if filled then .filled else .val t

inductive Plan (Γ : Env) : Fld → PathE → Extr → Bool → Prop
  | prim {f : Fld} {path : PathE} {p : Prim} {x : Extr} (h : PrimName Γ f.expr p)
      (hx : primExtraction f.dontCheckErr path p = .ok x) : Plan Γ f path x false
  | fresh {f : Fld} {path : PathE} {n : Nat} (h : Calls Γ f.expr n) (hf : ¬ (f.hasField = true ∧ f.isStar = false)) :
      Plan Γ f path (.nestedFresh f.expr) false
  | inPlace {f : Fld} {path : PathE} {n : Nat} (h : Calls Γ f.expr n) (hf : f.hasField = true ∧ f.isStar = false) :
      Plan Γ f path (.nestedInPlace f.expr) true
  | anon {f : Fld} {path : PathE} {x : Extr} {b : Bool} (h : f.expr = .structT) : Plan Γ f path x b
  | time {f : Fld} {path : PathE} {l : Option Str} (h : Is Γ f.expr .time) (hl : decodeLayout f.tags.layout = .ok l) :
      Plan Γ f path (.time f.tags.jsonName l) false
  | uuid {f : Fld} {path : PathE} (h : Is Γ f.expr .uuid) : Plan Γ f path (.uuid f.tags.jsonName) false
  | bytes {f : Fld} {path : PathE} (h : Is Γ f.expr (.slice (.prim .byte))) : Plan Γ f path (.bytes none) false
  | fixedBytes {f : Fld} {path : PathE} {n : Nat} (h : Is Γ f.expr (.array n (.prim .byte))) :
      Plan Γ f path (.bytes (some n)) false
  | slice {f : Fld} {path : PathE} {elt : TExpr} {x : Extr} {b : Bool} (h : Is Γ f.expr (.slice elt)) (hb : elt ≠ .prim .byte)
      (ha : ∀ n t, elt ≠ .array n t) (hf : (f.hasField = true ∧ f.isStar = false) ∨ (f.hasField = false ∧ f.isStar = true))
      (hx : Plan Γ (Fld.prepare Γ true elt {} false false) .index x b) :
      Plan Γ f path (.slice f.tags.jsonName elt elt.nullLike x (pointee elt != .prim .string) (elemStore elt b)) false
  | array {f : Fld} {path : PathE} {elt : TExpr} {n : Nat} {x : Extr} (h : Is Γ f.expr (.array n elt)) (hb : elt ≠ .prim .byte)
      (hnl : elt.nullLike = false)
      (hx : Plan Γ (Fld.prepare Γ true elt {} false false) .index x false) :
      Plan Γ f path (.array f.tags.jsonName n elt x (elt != .prim .string) (.val elt)) false
  | map {f : Fld} {path : PathE} {val : TExpr} {x : Extr} {b : Bool} (h : Is Γ f.expr (.map val))
      (hf : f.hasField = true ∧ f.isStar = false) (hs : x.simple = true)
      (hx : Plan Γ (Fld.prepare Γ false val f.tags false true) (.const f.tags.jsonName) x b) :
      Plan Γ f path (.map f.tags.jsonName (val != pointee val) (pointee val) x) false

theorem star_ne_pointee {t : TExpr} : (t != pointee t) = true ↔ ∃ u, t = .star u := by
  cases t <;> simp [pointee]
  rename_i u
  intro h
  have := congrArg sizeOf h
  simp at this

theorem prepare_isStar_eq (Γ : Env) (b : Bool) (t : TExpr) (tags : Tags) (d : Bool) :
    (Fld.prepare Γ b t tags false d).isStar = (t != pointee t) := by
  rcases prepare_isStar Γ b t tags d with ⟨h, ht⟩ | ⟨h, ht, hn⟩
  · rw [h, eq_comm, star_ne_pointee]; exact ⟨_, ht⟩
  · rw [h]
    cases hh : (t != pointee t) with
    | false => rfl
    | true => obtain ⟨u, hu⟩ := star_ne_pointee.1 hh; exact absurd hu (hn u)

theorem prepare_nullLike (Γ : Env) (b : Bool) (t : TExpr) (tags : Tags) (s d : Bool) :
    (Fld.prepare Γ b t tags s d).isNullable = t.nullLike := by cases t <;> rfl

theorem nullLike_pointee {t : TExpr} (h : t.nullLike = false) : pointee t = t := by
  cases t <;> simp_all [pointee, TExpr.nullLike]

variable [Ext]

/-- `typedValue` follows a plan (pointer types declared by name are treated apart) -/
theorem typedValue_plan {Γ : Env} : ∀ {k : Nat} {f : Fld} {path : PathE} {r : TVGen}, typedValue Γ k f path = .ok r →
    f.refx = resolve Γ f.expr → r.isStarType = false → Plan Γ f path r.x r.filled := by
  intro k
  induction k with
  | zero => intro f path r hg; simp [typedValue] at hg
  | succ k ih =>
    intro f path r hg href hns
    have hk := kind_final Γ f.expr
    rw [← href] at hk
    unfold typedValue at hg
    simp only [resolve2_def] at hg
    generalize resolve2 Γ f.refx = T at hk hg
    have hnest : ∀ n, Calls Γ f.expr n → r = ⟨(nestedExtraction f).1, (nestedExtraction f).2, false⟩ → Plan Γ f path r.x r.filled := by
      rintro n hc rfl
      unfold nestedExtraction
      split
      · rename_i hb
        exact .fresh hc (by rintro ⟨h1, h2⟩; simp [h1, h2] at hb)
      · rename_i hb
        exact .inPlace hc (by simpa using hb)
    cases T with
    | prim p =>
      obtain ⟨x, hx, hr⟩ := Out.bind_eq_ok.1 hg
      simp only [Out.pure_eq, Out.ok.injEq] at hr
      subst hr
      have hp : PrimName Γ f.expr p := by
        cases hk with
        | prim h => exact h
        | call h hT => simp at hT
        | is _ h1 => exact absurd rfl (h1 p)
      exact .prim hp hx
    | named m =>
      simp only [Out.ok.injEq] at hg
      cases hk with
      | call h hT => exact hnest _ h hg.symm
      | is _ _ h2 => exact absurd rfl (h2 m)
    | sel m =>
      simp only [Out.ok.injEq] at hg
      cases hk with
      | call h hT => exact hnest _ h hg.symm
      | is _ _ _ h3 => exact absurd rfl (h3 m)
    | structT =>
      simp only [Out.ok.injEq] at hg
      cases hk with
      | call h hT => exact hnest _ h hg.symm
      | structLit h => exact .anon h
      | is _ _ _ _ h4 => exact absurd rfl h4
    | star u =>
      obtain ⟨r', _, hr⟩ := Out.bind_eq_ok.1 hg
      simp only [Out.pure_eq, Out.ok.injEq] at hr
      subst hr
      simp at hns
    | time =>
      have hi : Is Γ f.expr .time := by
        cases hk with
        | is h => exact h
        | call h hT => simp at hT
      obtain ⟨lo, hl, hr⟩ := Out.bind_eq_ok.1 hg
      simp only [Out.pure_eq, Out.ok.injEq] at hr
      subst hr
      exact .time hi hl
    | uuid =>
      have hi : Is Γ f.expr .uuid := by
        cases hk with
        | is h => exact h
        | call h hT => simp at hT
      simp only [Out.ok.injEq] at hg; subst hg
      exact .uuid hi
    | map mv =>
      have hi : Is Γ f.expr (.map mv) := by
        cases hk with
        | is h => exact h
        | call h hT => simp at hT
      simp only at hg
      split at hg
      · cases hg
      · rename_i hf
        obtain ⟨r', hr', hr⟩ := Out.bind_eq_ok.1 hg
        split at hr
        · cases hr
        · rename_i hns'
          have hp := ih hr' (prepare_resolve Γ false mv f.tags false true) (by simpa using hns')
          have key : r = ⟨.map f.tags.jsonName (mv != pointee mv) (pointee mv) r'.x, false, false⟩ ∧ r'.x.simple = true := by
            rw [prepare_expr, prepare_isStar_eq] at hr
            split at hr
            case h_8 =>
              rename_i h1 h2 h3 h4 h5 h6 h7
              simp only [Out.pure_eq, Out.ok.injEq] at hr
              refine ⟨hr.symm, ?_⟩
              clear hr hp hr' hns'
              generalize r'.x = x at h1 h2 h3 h4 h5 h6 h7 ⊢
              cases x <;> first
                | rfl | exact (h1 _ rfl).elim | exact (h2 _ _ rfl).elim | exact (h3 _ rfl).elim | exact (h4 _ rfl).elim
                | exact (h5 _ _ _ _ _ _ rfl).elim | exact (h6 _ _ _ _ _ _ rfl).elim | exact (h7 _ _ _ _ rfl).elim
            all_goals cases hr
          obtain ⟨rfl, hs⟩ := key
          exact .map hi (by simpa using hf) hs hp
    | slice elt =>
      have hi : Is Γ f.expr (.slice elt) := by
        cases hk with
        | is h => exact h
        | call h hT => simp at hT
      simp only at hg
      split at hg
      · rename_i hb
        obtain rfl := isByte_iff.1 hb
        simp only [Out.ok.injEq] at hg; subst hg
        exact .bytes hi
      · rename_i hb
        have hb' : elt ≠ .prim .byte := fun h => hb (isByte_iff.2 h)
        split at hg
        · cases hg
        · rename_i h1
          split at hg
          · cases hg
          · rename_i h2
            have hf : (f.hasField = true ∧ f.isStar = false) ∨ (f.hasField = false ∧ f.isStar = true) := by
              cases h3 : f.hasField <;> cases h4 : f.isStar <;> simp_all
            obtain ⟨r', hr', hr⟩ := Out.bind_eq_ok.1 hg
            split at hr
            · cases hr
            · rename_i hns'
              have hp := ih hr' (prepare_resolve Γ true elt {} false false) (by simpa using hns')
              have hfl : (∃ u, elt = .star u) → r'.filled = false := by
                rintro ⟨u, rfl⟩
                cases h : r'.filled with
                | false => rfl
                | true => have := (filled_spec hr' h).2; simp [Fld.prepare] at this
              split at hr
              · cases hr
              · rename_i hna
                simp only [Out.pure_eq, Out.ok.injEq] at hr
                subst hr
                rw [prepare_nullLike, prepare_expr, prepare_isStar_eq]
                have hst : (if (elt != pointee elt) = true then ElemStore.ref (pointee elt)
                    else if r'.filled = true then .filled else .val (pointee elt)) = elemStore elt r'.filled := by
                  by_cases h : ∃ u, elt = .star u
                  · rw [if_pos (star_ne_pointee.2 h)]
                    obtain ⟨u, rfl⟩ := h; rfl
                  · rw [if_neg (fun h' => h (star_ne_pointee.1 h'))]
                    cases elt <;> first | rfl | exact absurd ⟨_, rfl⟩ h
                rw [hst]
                exact .slice hi hb' (fun n t h => hna n t h) hf hp
    | array n elt =>
      have hi : Is Γ f.expr (.array n elt) := by
        cases hk with
        | is h => exact h
        | call h hT => simp at hT
      simp only at hg
      split at hg
      · rename_i hb
        obtain rfl := isByte_iff.1 hb
        simp only [Out.ok.injEq] at hg; subst hg
        exact .fixedBytes hi
      · rename_i hb
        have hb' : elt ≠ .prim .byte := fun h => hb (isByte_iff.2 h)
        split at hg
        · cases hg
        · rename_i hnl
          rw [prepare_nullLike] at hnl
          have hnl' : elt.nullLike = false := by simpa using hnl
          obtain ⟨r', hr', hr⟩ := Out.bind_eq_ok.1 hg
          split at hr
          · cases hr
          · rename_i hns'
            simp only [Bool.or_eq_true, not_or, Bool.not_eq_true] at hns'
            have hp := ih hr' (prepare_resolve Γ true elt {} false false) hns'.2
            rw [hns'.1] at hp
            have key : r = ⟨.array f.tags.jsonName n elt r'.x (elt != .prim .string) (.val elt), false, false⟩ := by
              rw [prepare_expr, nullLike_pointee hnl'] at hr
              split at hr <;> first
                | (simp only [Out.pure_eq, Out.ok.injEq] at hr; exact hr.symm)
                | cases hr
            subst key
            exact .array hi hb' hnl' hp

/-- The shapes of a field's decoding statements. -/
inductive FieldPlan (Γ : Env) (fd : FieldDecl) : Extr → Store → Prop
  | ptr {x : Extr} {t : TExpr} (ht : fd.typ = .star t)
      (h : Plan Γ (Fld.prepare Γ true fd.typ fd.tags false false) (.const fd.tags.jsonName) x false) : FieldPlan Γ fd x (.ref t)
  | filled {x : Extr} (ht : ∀ t, fd.typ ≠ .star t)
      (h : Plan Γ (Fld.prepare Γ true fd.typ fd.tags false false) (.const fd.tags.jsonName) x true) : FieldPlan Γ fd x .filled
  | val {x : Extr} (ht : ∀ t, fd.typ ≠ .star t)
      (h : Plan Γ (Fld.prepare Γ true fd.typ fd.tags false false) (.const fd.tags.jsonName) x false) :
      FieldPlan Γ fd x (.val fd.typ)
  /-- a type declared as a pointer, or a pointer to such a type -/
  | named {x : Extr} {t u : TExpr} (h : Is Γ (pointee fd.typ) (.star t))
      (hx : (∃ p, IsPrim Γ t p ∧ primExtraction false (.const fd.tags.jsonName) p = .ok x) ∨
        (t = .time ∧ ∃ l, decodeLayout fd.tags.layout = .ok l ∧ x = .time fd.tags.jsonName l) ∨
        (t = .uuid ∧ x = .uuid fd.tags.jsonName)) (hu : u = t) :
      FieldPlan Γ fd x (if fd.typ != pointee fd.typ then .refNamed u else .named u)

theorem resolve_star_is {Γ : Env} {e x : TExpr} (h : resolve Γ e = .star x) : Is Γ e (.star x) := by
  rcases resolve_cases (Γ := Γ) e with ⟨q, h2, _⟩ | ⟨_, _, h2⟩
  · rw [h] at h2; cases h2
  · rcases h2 with ⟨n, rfl, h'⟩ | ⟨n, rfl, _, h'⟩ | ⟨n, _, _, rfl, _, h'⟩ | ⟨n, u, rfl, hdn, h'⟩ | ⟨_, _, h'⟩
    · rw [h] at h'; cases h'
    · rw [h] at h'; cases h'
    · rw [h] at h'; cases h'
    · rw [h] at h'; subst h'; exact .named hdn
    · rw [h] at h'; subst h'; exact .self _

theorem field_plan {Γ : Env} {k : Nat} {fd : FieldDecl} {f : FieldFill} (hg : genFieldFill Γ k fd = .ok (some f)) :
    FieldPlan Γ fd f.x f.store := by
  obtain ⟨_, _, r, htv, hx, hso, _⟩ := genFieldFill_some hg
  rw [hx]
  cases hst' : r.isStarType with
  | true =>
    cases k with
    | zero => simp [typedValue] at htv
    | succ k =>
      obtain ⟨x, r', h1, h2, h3, h4⟩ := typedValue_isStarType htv hst'
      have hrefx := prepare_resolve Γ true fd.typ fd.tags false false
      have h1' : (Fld.prepare Γ true fd.typ fd.tags false false).refx = .star x := by
        unfold resolve2 at h1
        split at h1
        · rename_i ho
          rw [h1] at ho; cases ho
        · exact h1
      rw [h1'] at hrefx
      have his := resolve_star_is hrefx.symm
      rw [prepare_expr] at his
      simp only [storeOf, hst', if_true, h1', prepare_isStar_eq] at hso
      have hcase : (∃ p, x = .prim p) ∨ (∃ n, x = .named n) ∨ x = .time ∨ x = .uuid := by
        cases x <;> simp at hso ⊢
      have hcore : ((∀ t, r'.x ≠ .nestedFresh t) ∧ ∀ t, r'.x ≠ .nestedInPlace t) ∧
          f.store = (if fd.typ != pointee fd.typ then .refNamed x else .named x) := by
        rw [h3] at hso
        rcases hcase with ⟨p, rfl⟩ | ⟨n, rfl⟩ | rfl | rfl <;>
        · simp only at hso
          split at hso
          · cases hso
          · cases hso
          · rename_i ha hb
            simp only [Out.ok.injEq] at hso
            exact ⟨⟨ha, hb⟩, hso.symm⟩
      obtain ⟨hnest, hstore⟩ := hcore
      rw [hstore, h3]
      refine .named his ?_ rfl
      cases k with
      | zero => simp [typedValue] at h2
      | succ k =>
        unfold typedValue at h2
        simp only [resolve2_def] at h2
        by_cases hp : ∃ p, resolve2 Γ x = .prim p
        · obtain ⟨p, hp⟩ := hp
          rw [hp] at h2
          obtain ⟨y, hy, hr⟩ := Out.bind_eq_ok.1 h2
          simp only [Out.pure_eq, Out.ok.injEq] at hr
          subst hr
          exact Or.inl ⟨p, resolve2_prim hp, hy⟩
        · have hp' : ∀ p, resolve2 Γ x ≠ .prim p := fun p h => hp ⟨p, h⟩
          rw [(resolve2_other hp').1] at h2
          rcases hcase with ⟨p, rfl⟩ | ⟨n, rfl⟩ | rfl | rfl
          · exact absurd rfl (hp' p)
          · simp only [Out.ok.injEq] at h2
            subst h2
            unfold nestedExtraction at hnest
            split at hnest
            · exact absurd rfl (hnest.1 _)
            · exact absurd rfl (hnest.2 _)
          · obtain ⟨lo, hl, hr⟩ := Out.bind_eq_ok.1 h2
            simp only [Out.pure_eq, Out.ok.injEq] at hr
            subst hr
            exact Or.inr (Or.inl ⟨rfl, lo, hl, rfl⟩)
          · simp only [Out.ok.injEq] at h2
            subst h2
            exact Or.inr (Or.inr ⟨rfl, rfl⟩)
  | false =>
    have hp := typedValue_plan htv (prepare_resolve Γ true fd.typ fd.tags false false) hst'
    simp only [storeOf, hst', Bool.false_eq_true, if_false] at hso
    rw [prepare_expr, prepare_isStar_eq] at hso
    by_cases hs : ∃ t, fd.typ = .star t
    · obtain ⟨t, ht⟩ := hs
      rw [if_pos (star_ne_pointee.2 ⟨t, ht⟩)] at hso
      have hnf : r.filled = false := by
        cases hfl : r.filled with
        | false => rfl
        | true => have := (filled_spec htv hfl).2; rw [prepare_isStar_eq, star_ne_pointee.2 ⟨t, ht⟩] at this; cases this
      rw [hnf] at hp
      simp only [Out.ok.injEq] at hso
      rw [← hso, ht]
      exact .ptr ht hp
    · have hs' : ∀ t, fd.typ ≠ .star t := fun t h => hs ⟨t, h⟩
      rw [if_neg (fun h => hs (star_ne_pointee.1 h))] at hso
      have hpt : pointee fd.typ = fd.typ := by
        cases h : fd.typ <;> first | rfl | exact absurd h (hs' _)
      cases hfl : r.filled with
      | true =>
        rw [hfl] at hso hp
        simp only [if_true, Out.ok.injEq] at hso
        rw [← hso]
        exact .filled hs' hp
      | false =>
        rw [hfl] at hso hp
        simp only [Bool.false_eq_true, if_false, Out.ok.injEq] at hso
        rw [← hso, hpt]
        exact .val hs' hp

end VJ
