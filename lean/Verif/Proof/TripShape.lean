import Verif.Proof.TripBase

/-!
# Types for which decoders are generated

What the generator refuses, as conditions on type expressions.
-/

namespace VJ
set_option linter.unusedSectionVars false
set_option linter.unusedSimpArgs false

/-- the shapes of type the generator takes -/
def Shape (Γ : Env) : TExpr → Prop
  | .prim p => p ≠ .byte ∧ p ≠ .rune
  | .star y => ¬ Stored Γ y ∧ Shape Γ y
  | .slice e => e = .prim .byte ∨ Shape Γ e
  | .array _ e => e = .prim .byte ∨ ((∀ y, e ≠ .star y) ∧ Shape Γ e)
  | .map e => Shape Γ e ∧ ¬ Stored Γ e
  | _ => True

structure Shapes (Γ : Env) (S : Nat → Prop) : Prop where
  field : ∀ n strict fields fd, S n → Γ.decl n = some (.struct strict fields) → fd ∈ fields →
    Shape Γ fd.typ ∧ ∀ e, Is Γ fd.typ (.map e) → ¬ Is Γ (pointee e) .time
  alias : ∀ n t, S n → Γ.decl n = some (.alias t) → Shape Γ t ∧ (∀ y, t ≠ .star y) ∧
    ∀ e, (t = .slice e ∨ ∃ len, t = .array len e) → e ≠ .prim .byte → ¬ Stored Γ e ∧ ∀ y, e ≠ .star y

variable {Γ : Env} {X : Nat → GoVal → Prop} {S : Nat → Prop}

theorem Shapes.isPrim (hS : Shapes Γ S) {t : TExpr} {p : Prim} (hg : Good S t) (hs : Shape Γ t) (h : IsPrim Γ t p) : p ≠ .byte ∧ p ≠ .rune := by
  cases h with
  | self => exact hs
  | named hd => exact (hS.alias _ _ (hg.name (.named _)) hd).1
  | sel hd => exact (hS.alias _ _ (hg.name (.sel _)) hd).1

theorem Shapes.is (hS : Shapes Γ S) {t u : TExpr} (hg : Good S t) (hs : Shape Γ t) (h : Is Γ t u) : Shape Γ u := by
  cases h with
  | self => exact hs
  | named hd => exact (hS.alias _ _ (hg.name (.named _)) hd).1

variable [Ext]

theorem plan_prim {dc : Bool} {path : PathE} {p : Prim} {x : Extr} (h : primExtraction dc path p = .ok x) : p ≠ .byte ∧ p ≠ .rune := by
  cases p <;> simp_all [primExtraction]

theorem primName_not_stored {t : TExpr} {p : Prim} (h : PrimName Γ t p) : ¬ Stored Γ t := by
  have hk := primName_final h
  rintro (⟨elt, _, hi⟩ | ⟨val, hi⟩) <;> rw [is_resolve hi (by simp) (by simp) (by simp)] at hk <;> cases hk

theorem is_not_stored {t u : TExpr} (h : Is Γ t u) (h1 : ∀ p, u ≠ .prim p) (h2 : ∀ p, u ≠ .named p) (h3 : ∀ p, u ≠ .sel p)
    (h4 : ∀ e, e ≠ .prim .byte → u ≠ .slice e) (h5 : ∀ e, u ≠ .map e) : ¬ Stored Γ t := by
  rintro (⟨elt, hb, hi⟩ | ⟨val, hi⟩)
  · exact h4 elt hb (is_unique h hi h1 h2 h3 (by simp) (by simp) (by simp))
  · exact h5 val (is_unique h hi h1 h2 h3 (by simp) (by simp) (by simp))

/-- a plan for a slice or map works on a field, or is not simple -/
theorem plan_not_stored {f : Fld} {path : PathE} {x : Extr} {b : Bool} (h : Plan Γ f path x b) (hn : f.expr.anon = false)
    (hf : ¬ (f.hasField = true ∧ f.isStar = false)) (hx : f.hasField = true ∨ f.isStar = false ∨ ∀ a b c d e g, x ≠ .slice a b c d e g) :
    ¬ Stored Γ f.expr := by
  cases h with
  | prim h => exact primName_not_stored h
  | fresh h => exact calls_not_stored h
  | inPlace h => exact calls_not_stored h
  | anon h => rw [h] at hn; cases hn
  | time h => exact is_not_stored h (by simp) (by simp) (by simp) (by simp) (by simp)
  | uuid h => exact is_not_stored h (by simp) (by simp) (by simp) (by simp) (by simp)
  | bytes h => exact is_not_stored h (by simp) (by simp) (by simp) (by intro e he h; cases h; exact he rfl) (by simp)
  | fixedBytes h => exact is_not_stored h (by simp) (by simp) (by simp) (by simp) (by simp)
  | array h => exact is_not_stored h (by simp) (by simp) (by simp) (by simp) (by simp)
  | map _ hf' => exact absurd hf' hf
  | slice _ _ _ hf' =>
    rcases hf' with hf' | ⟨h1, h2⟩
    · exact absurd hf' hf
    · rcases hx with hx | hx | hx
      · rw [h1] at hx; cases hx
      · rw [h2] at hx; cases hx
      · exact absurd rfl (hx _ _ _ _ _ _)

theorem simple_not_slice {x : Extr} (h : x.simple = true) : ∀ a b c d e g, x ≠ .slice a b c d e g := by
  rintro a b c d e g rfl
  cases h

theorem shape_of_pointee {t : TExpr} (h : Shape Γ (pointee t)) (hs : ∀ y, t = .star y → ¬ Stored Γ y) : Shape Γ t := by
  cases t with
  | star y => exact ⟨hs y rfl, h⟩
  | _ => exact h

theorem prepare_hasField (b : Bool) (t : TExpr) (tags : Tags) (s d : Bool) : (Fld.prepare Γ b t tags s d).hasField = b := rfl

theorem anon_pointee {t : TExpr} (h : t.anon = false) : (pointee t).anon = false := by
  cases t <;> first | exact h | rfl

theorem plan_shape {f : Fld} {path : PathE} {x : Extr} {b : Bool} (h : Plan Γ f path x b) : f.expr.anon = false → Shape Γ f.expr := by
  have hleaf : ∀ {t u : TExpr}, Is Γ t u → (u = .time ∨ u = .uuid) → Shape Γ t := by
    intro t u h hu
    cases h with
    | self => rcases hu with rfl | rfl <;> trivial
    | named => trivial
  have hcalls : ∀ {t : TExpr} {n : Nat}, Calls Γ t n → Shape Γ t := by
    intro t n h
    cases h <;> trivial
  induction h with
  | @prim f path p x h hx =>
    intro _
    generalize f.expr = t at h
    cases h with
    | base h =>
      cases h with
      | self => exact plan_prim hx
      | named => trivial
      | sel => trivial
    | chain => trivial
  | fresh h => exact fun _ => hcalls h
  | inPlace h => exact fun _ => hcalls h
  | anon h => intro hn; rw [h] at hn; cases hn
  | time h => exact fun _ => hleaf h (.inl rfl)
  | uuid h => exact fun _ => hleaf h (.inr rfl)
  | @bytes f path h =>
    intro _
    generalize f.expr = t at h
    cases h with
    | self => exact Or.inl rfl
    | named => trivial
  | @fixedBytes f path n h =>
    intro _
    generalize f.expr = t at h
    cases h with
    | self => exact Or.inl rfl
    | named => trivial
  | @slice f path elt x b h hb ha hf hx ih =>
    intro hn
    rw [prepare_expr] at ih
    generalize f.expr = t at h hn
    cases h with
    | named => trivial
    | self =>
      have hn' : elt.anon = false := hn
      refine Or.inr (shape_of_pointee (ih (anon_pointee hn')) ?_)
      rintro y rfl
      have := plan_not_stored hx (by rw [prepare_expr]; exact hn') (by rw [prepare_isStar_eq]; simp [star_ne_pointee.2 ⟨y, rfl⟩]) (Or.inl rfl)
      rwa [prepare_expr] at this
  | @array f path elt n x h hb hnl hx ih =>
    intro hn
    rw [prepare_expr] at ih
    generalize f.expr = t at h hn
    cases h with
    | named => trivial
    | self =>
      have hn' : elt.anon = false := hn
      refine Or.inr ⟨(by rintro y rfl; simp [TExpr.nullLike] at hnl), ?_⟩
      have := ih (anon_pointee hn')
      rwa [nullLike_pointee hnl] at this
  | @map f path val x b h hf hs hx ih =>
    intro hn
    rw [prepare_expr] at ih
    generalize f.expr = t at h hn
    cases h with
    | named => trivial
    | self =>
      have hn' : val.anon = false := hn
      have hns := plan_not_stored hx (by rw [prepare_expr]; exact anon_pointee hn') (by simp [prepare_hasField]) (Or.inr (Or.inr (simple_not_slice hs)))
      rw [prepare_expr] at hns
      refine ⟨shape_of_pointee (ih (anon_pointee hn')) (by rintro y rfl; exact hns), ?_⟩
      by_cases hst : ∃ y, val = .star y
      · obtain ⟨y, rfl⟩ := hst
        exact is_not_stored (.self _) (by simp) (by simp) (by simp) (by simp) (by simp)
      · have : pointee val = val := by cases val <;> first | rfl | exact absurd ⟨_, rfl⟩ hst
        rwa [this] at hns

theorem simple_not_time {f : Fld} {path : PathE} {x : Extr} {b : Bool} (h : Plan Γ f path x b) (hn : f.expr.anon = false) (hs : x.simple = true) :
    ¬ Is Γ f.expr .time := by
  intro hi
  have key : ∀ {u : TExpr}, Is Γ f.expr u → (∀ p, u ≠ .prim p) → (∀ p, u ≠ .named p) → (∀ p, u ≠ .sel p) → u = .time :=
    fun h h1 h2 h3 => is_unique h hi h1 h2 h3 (by simp) (by simp) (by simp)
  cases h with
  | prim h => have hk := primName_final h; rw [is_resolve hi (by simp) (by simp) (by simp)] at hk; cases hk
  | fresh h => exact is_calls hi (by simp) (by simp) (by simp) (by simp) _ h
  | inPlace h => exact is_calls hi (by simp) (by simp) (by simp) (by simp) _ h
  | anon h => rw [h] at hn; cases hn
  | time => cases hs
  | uuid => cases hs
  | bytes => cases hs
  | fixedBytes => cases hs
  | slice => cases hs
  | array => cases hs
  | map => cases hs

/-- what is generated has a shape the generator takes -/
theorem shapes (hP : Package Γ X S) (hj : ∀ n strict fields fd, S n → Γ.decl n = some (.struct strict fields) → fd ∈ fields → fd.tags.jsonName ≠ str "-") :
    Shapes Γ S where
  field n strict fields fd hn hd hf := by
    have hng := (hP.field hn hd hf).noAnon
    obtain ⟨d, k, ir, hd', hg⟩ := hP.decoders n hn (by rw [hd]; simp)
    rw [hd] at hd'; cases hd'
    obtain ⟨i, hi⟩ := List.getElem?_of_mem hf
    simp only [genFill] at hg
    obtain ⟨fs, hfs, _⟩ := Out.bind_eq_ok.1 hg
    obtain ⟨f, _, hgf⟩ := genFields_get hfs hi
    cases f with
    | none => exact absurd (genFieldFill_none hgf) (hj n strict fields fd hn hd hf)
    | some f =>
      have hmain : ∀ {x b}, Plan Γ (Fld.prepare Γ true fd.typ fd.tags false false) (.const fd.tags.jsonName) x b →
          Shape Γ fd.typ ∧ ∀ e, Is Γ fd.typ (.map e) → ¬ Is Γ (pointee e) .time := by
        intro x b hx
        have h1 := plan_shape hx (by rw [prepare_expr]; exact anon_pointee hng)
        rw [prepare_expr] at h1
        refine ⟨shape_of_pointee h1 ?_, ?_⟩
        · intro y hy
          have := plan_not_stored hx (by rw [prepare_expr]; exact anon_pointee hng) (by rw [prepare_isStar_eq]; simp [star_ne_pointee.2 ⟨y, hy⟩]) (Or.inl rfl)
          rw [prepare_expr, hy] at this
          exact this
        · intro e he
          have hpt := is_pointee he (by simp)
          have he' : Is Γ (Fld.prepare Γ true fd.typ fd.tags false false).expr (.map e) := by rw [prepare_expr, hpt]; exact he
          have hng' : (Fld.prepare Γ true fd.typ fd.tags false false).expr.anon = false := by rw [prepare_expr]; exact anon_pointee hng
          have key : ∀ {u : TExpr}, Is Γ (Fld.prepare Γ true fd.typ fd.tags false false).expr u → (∀ p, u ≠ .prim p) → (∀ p, u ≠ .named p) → (∀ p, u ≠ .sel p) → u = .map e :=
            fun h h1 h2 h3 => is_unique h he' h1 h2 h3 (by simp) (by simp) (by simp)
          have heg : (pointee e).anon = false := by
            have := (Good.is hP (hP.field hn hd hf) he).noAnon
            exact anon_pointee this
          cases hx with
          | prim h => have hk := primName_final h; rw [is_resolve he' (by simp) (by simp) (by simp)] at hk; cases hk
          | fresh h => exact absurd h (is_calls he' (by simp) (by simp) (by simp) (by simp) _)
          | inPlace h => exact absurd h (is_calls he' (by simp) (by simp) (by simp) (by simp) _)
          | anon h => rw [h] at hng'; cases hng'
          | time h => cases key h (by simp) (by simp) (by simp)
          | uuid h => cases key h (by simp) (by simp) (by simp)
          | bytes h => cases key h (by simp) (by simp) (by simp)
          | fixedBytes h => cases key h (by simp) (by simp) (by simp)
          | slice h => cases key h (by simp) (by simp) (by simp)
          | array h => cases key h (by simp) (by simp) (by simp)
          | map h _ hs hx =>
            cases key h (by simp) (by simp) (by simp)
            have := simple_not_time hx (by rw [prepare_expr]; exact heg) hs
            rwa [prepare_expr] at this
      have hp := field_plan hgf
      generalize f.x = x at hp
      generalize f.store = st at hp
      cases hp with
      | ptr ht h => exact hmain h
      | filled ht h => exact hmain h
      | val ht h => exact hmain h
      | @named t _ h hx =>
        have hst : Shape Γ (.star t) := by
          refine ⟨?_, ?_⟩
          · rcases hx with ⟨p, hp, _⟩ | ⟨rfl, _⟩ | ⟨rfl, _⟩
            · exact primName_not_stored (.base hp)
            · exact is_not_stored (.self _) (by simp) (by simp) (by simp) (by simp) (by simp)
            · exact is_not_stored (.self _) (by simp) (by simp) (by simp) (by simp) (by simp)
          · rcases hx with ⟨p, hp, hx⟩ | ⟨rfl, _⟩ | ⟨rfl, _⟩
            · cases hp with
              | self => exact plan_prim hx
              | named => trivial
              | sel => trivial
            · trivial
            · trivial
        refine ⟨shape_of_pointee (t := fd.typ) ?_ ?_, ?_⟩
        · generalize pointee fd.typ = y at h
          cases h with
          | self => exact hst
          | named => trivial
        · intro y hy
          rw [hy] at h
          exact is_not_stored (t := y) h (by simp) (by simp) (by simp) (by simp) (by simp)
        · intro e he
          rw [is_pointee he (by simp)] at h
          cases is_unique h he (by simp) (by simp) (by simp) (by simp) (by simp) (by simp)
  alias n t hn hd := by
    have hng := (hP.alias hn hd).noAnon
    obtain ⟨d, k, ir, hd', hg⟩ := hP.decoders n hn (by rw [hd]; simp)
    rw [hd] at hd'; cases hd'
    have hlist : ∀ (len : Option Nat) (elt : TExpr), t = (match len with | none => .slice elt | some n => .array n elt) → elt ≠ .prim .byte →
        Shape Γ elt ∧ ¬ Stored Γ elt ∧ ∀ y, elt ≠ .star y := by
      intro len elt ht hb
      rw [ht] at hg
      obtain ⟨hst, r, hr, hns, hx, _⟩ := genFill_list hb hg
      have hng' : elt.anon = false := by cases len <;> (simp only at ht; rw [ht] at hng; exact hng)
      have hpl := typedValue_plan hr (prepare_resolve Γ false elt {} false true) hns
      have h1 := plan_shape hpl (by rw [prepare_expr]; exact anon_pointee hng')
      have h2 := plan_not_stored hpl (by rw [prepare_expr]; exact anon_pointee hng') (by simp [prepare_hasField]) (Or.inr (Or.inr hx))
      rw [prepare_expr] at h1 h2
      have : pointee elt = elt := by cases elt <;> first | rfl | exact absurd rfl (hst _)
      rw [this] at h1 h2
      exact ⟨h1, h2, hst⟩
    cases t with
    | slice e =>
      by_cases hb : e = .prim .byte
      · subst hb
        refine ⟨Or.inl rfl, by simp, ?_⟩
        rintro e' (h | ⟨_, h⟩) hb'
        · cases h; exact absurd rfl hb'
        · cases h
      · have := hlist none e rfl hb
        refine ⟨Or.inr this.1, by simp, ?_⟩
        rintro e' (h | ⟨_, h⟩) hb'
        · cases h; exact this.2
        · cases h
    | array len e =>
      by_cases hb : e = .prim .byte
      · subst hb
        refine ⟨Or.inl rfl, by simp, ?_⟩
        rintro e' (h | ⟨_, h⟩) hb'
        · cases h
        · cases h; exact absurd rfl hb'
      · have := hlist (some len) e rfl hb
        refine ⟨Or.inr ⟨this.2.2, this.1⟩, by simp, ?_⟩
        rintro e' (h | ⟨_, h⟩) hb'
        · cases h
        · cases h; exact this.2
    | map e =>
      have hng' : e.anon = false := hng
      refine ⟨?_, by simp, by rintro e' (h | ⟨_, h⟩) <;> cases h⟩
      obtain ⟨r, hr, hns, hx, _⟩ := genFill_mapT hg
      have hpl := typedValue_plan hr (prepare_resolve Γ false e {} false true) hns
      have h1 := plan_shape hpl (by rw [prepare_expr]; exact anon_pointee hng')
      have h2 := plan_not_stored hpl (by rw [prepare_expr]; exact anon_pointee hng') (by simp [prepare_hasField]) (Or.inr (Or.inr hx))
      rw [prepare_expr] at h1 h2
      refine ⟨shape_of_pointee h1 (by rintro y rfl; exact h2), ?_⟩
      by_cases hst : ∃ y, e = .star y
      · obtain ⟨y, rfl⟩ := hst
        exact is_not_stored (.self _) (by simp) (by simp) (by simp) (by simp) (by simp)
      · have : pointee e = e := by cases e <;> first | rfl | exact absurd ⟨_, rfl⟩ hst
        rwa [this] at h2
    | structT => cases hng
    | star y =>
      obtain ⟨h, _⟩ := genFill_transit (t := .star y) rfl hg
      exact absurd rfl (h y)
    | prim p =>
      refine ⟨?_, by simp, by rintro e' (h | ⟨_, h⟩) <;> cases h⟩
      obtain ⟨_, r, hr, hns, _⟩ := genFill_transit (t := .prim p) rfl hg
      have hpl := typedValue_plan hr (prepare_resolve Γ false (.prim p) {} true false) hns
      exact plan_shape hpl rfl
    | _ => exact ⟨trivial, by simp, by rintro e' (h | ⟨_, h⟩) <;> cases h⟩

end VJ
