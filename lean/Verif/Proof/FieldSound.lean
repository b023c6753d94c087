import Verif.Proof.Sound

/-!
# A struct field, when it is decoded, does what `Decodes` says
-/

set_option linter.unusedSectionVars false
set_option linter.unusedSimpArgs false

namespace VJ

variable [Ext]

/-- a template for the target of a pointer type -/
theorem star_sound {Γ : Env} {K k : Nat} {f : Fld} {path : PathE} {r : TVGen} (hg : typedValue Γ k f path = .ok r)
    {x : TExpr} (hx : f.refx = x) (hcase : (∃ p, x = .prim p) ∨ (∃ n, x = .named n) ∨ x = .time ∨ x = .uuid)
    (hnest : (∀ t, r.x ≠ .nestedFresh t) ∧ ∀ t, r.x ≠ .nestedInPlace t)
    {i : Nat} {v : JV} {fld val fld' w : GoVal} (hrun : runExtr (Γ.methods K) r.x i v fld = .ok (.done (.ok val) fld'))
    (hw : convT (Γ.methods K) x val = .ok w) : DecodesNew Γ f.tags.layout x v w := by
  cases k with
  | zero => simp [typedValue] at hg
  | succ k =>
    unfold typedValue at hg
    simp only [resolve2_def] at hg
    rw [hx] at hg
    by_cases hp : ∃ p, resolve2 Γ x = .prim p
    · obtain ⟨p, hp⟩ := hp
      rw [hp] at hg
      obtain ⟨y, hy, hr⟩ := Out.bind_eq_ok.1 hg
      simp only [Out.pure_eq, Out.ok.injEq] at hr
      subst hr
      have hip := resolve2_prim hp
      have hres : resolve Γ x = .prim p := by
        simp [resolve, denoted_prim.2 hip, TExpr.isOrdinal]
      have hnc := @not_calls_of_kind Γ x (.prim p) (by rw [hres]; rfl) (by simp) (by simp) (by simp)
      rw [convT_isPrim hip hw]
      exact .other hnc fun _ => .prim (.base hip) (primExtraction_sound hy hrun).1
    · have hp' : ∀ p, resolve2 Γ x ≠ .prim p := fun p h => hp ⟨p, h⟩
      rw [(resolve2_other hp').1] at hg
      rcases hcase with ⟨p, rfl⟩ | ⟨n, rfl⟩ | rfl | rfl
      · exact absurd rfl (hp' p)
      · simp only [Out.ok.injEq] at hg
        subst hg
        unfold nestedExtraction at hnest
        split at hnest
        · exact absurd rfl (hnest.1 f.expr)
        · exact absurd rfl (hnest.2 f.expr)
      · obtain ⟨lo, hl, hr⟩ := Out.bind_eq_ok.1 hg
        simp only [Out.pure_eq, Out.ok.injEq] at hr
        subst hr
        obtain ⟨s, t, rfl, rfl, ht, _⟩ := timeExtr_sound hl hrun
        rw [convT_is (.self .time) (by simp) (by simp) (by simp) hw]
        refine .other ?_ fun _ => .time (.self _) ht
        intro n hc; cases hc
      · simp only [Out.ok.injEq] at hg
        subst hg
        obtain ⟨s, b, rfl, rfl, hb, _⟩ := uuidExtr_sound hrun
        rw [convT_is (.self .uuid) (by simp) (by simp) (by simp) hw]
        refine .other ?_ fun _ => .uuid (.self _) hb
        intro n hc; cases hc

omit [Ext] in
theorem typedValue_isStarType {Γ : Env} {k : Nat} {f : Fld} {path : PathE} {r : TVGen}
    (h : typedValue Γ (k + 1) f path = .ok r) (hst : r.isStarType = true) :
    ∃ x r', resolve2 Γ f.refx = .star x ∧ typedValue Γ k { f with refx := x } path = .ok r' ∧ r.x = r'.x ∧
      r.filled = false := by
  unfold typedValue at h
  simp only [resolve2_def] at h
  generalize resolve2 Γ f.refx = T at h
  cases T with
  | prim p =>
    obtain ⟨y, hy, hr⟩ := Out.bind_eq_ok.1 h
    simp only [Out.pure_eq, Out.ok.injEq] at hr
    subst hr; simp at hst
  | named n => simp only [Out.ok.injEq] at h; subst h; simp at hst
  | sel n => simp only [Out.ok.injEq] at h; subst h; simp at hst
  | structT => simp only [Out.ok.injEq] at h; subst h; simp at hst
  | uuid => simp only [Out.ok.injEq] at h; subst h; simp at hst
  | time =>
    obtain ⟨y, hy, hr⟩ := Out.bind_eq_ok.1 h
    simp only [Out.pure_eq, Out.ok.injEq] at hr
    subst hr; simp at hst
  | star x =>
    obtain ⟨r', hr', hr⟩ := Out.bind_eq_ok.1 h
    simp only [Out.pure_eq, Out.ok.injEq] at hr
    subst hr
    exact ⟨x, r', rfl, hr', rfl, rfl⟩
  | slice elt =>
    simp only at h
    split at h
    · simp only [Out.ok.injEq] at h; subst h; simp at hst
    · split at h
      · cases h
      · split at h
        · cases h
        · obtain ⟨r', _, hr⟩ := Out.bind_eq_ok.1 h
          split at hr
          · cases hr
          · split at hr
            · cases hr
            · simp only [Out.pure_eq, Out.ok.injEq] at hr; subst hr; simp at hst
  | array n elt =>
    simp only at h
    split at h
    · simp only [Out.ok.injEq] at h; subst h; simp at hst
    · split at h
      · cases h
      · obtain ⟨r', _, hr⟩ := Out.bind_eq_ok.1 h
        split at hr
        · cases hr
        · split at hr <;> first | (simp only [Out.pure_eq, Out.ok.injEq] at hr; subst hr; simp at hst; done) | cases hr
  | map v =>
    simp only at h
    split at h
    · cases h
    · obtain ⟨r', _, hr⟩ := Out.bind_eq_ok.1 h
      split at hr
      · cases hr
      · split at hr <;> first | (simp only [Out.pure_eq, Out.ok.injEq] at hr; subst hr; simp at hst; done) | cases hr

/-- an expression that resolves to a pointer type -/
theorem decodes_star {Γ : Env} {e x : TExpr} (h : resolve Γ e = .star x) {L : Str} {v : JV} {w : GoVal}
    (hd : DecodesNew Γ L x v w) : (∀ old, Decodes Γ L e v old (.ptr w)) ∧ ∀ n, ¬ Calls Γ e n := by
  have hnc : ∀ n, ¬ Calls Γ e n := by
    refine not_calls_of_kind (T := .star x) ?_ (by simp) (by simp) (by simp)
    rw [h]; rfl
  refine ⟨fun old => ?_, hnc⟩
  rcases resolve_cases (Γ := Γ) e with ⟨q, h2, _⟩ | ⟨_, _, h2⟩
  · rw [h] at h2; cases h2
  · rcases h2 with ⟨n, rfl, h'⟩ | ⟨n, rfl, _, h'⟩ | ⟨n, _, _, rfl, _, h'⟩ | ⟨n, u, rfl, hdn, h'⟩ | ⟨_, _, h'⟩
    · rw [h] at h'; cases h'
    · rw [h] at h'; cases h'
    · rw [h] at h'; cases h'
    · rw [h] at h'; subst h'; exact .namedPtr hdn hd
    · rw [h] at h'; subst h'; exact .ptr hd

/-- The field statements, when they assign, assign what `Decodes` says. -/
theorem field_sound {Γ : Env} {K k : Nat} {fd : FieldDecl} {f : FieldFill} (hg : genFieldFill Γ k fd = .ok (some f))
    (hke : KeepsErrors Γ (pointee fd.typ)) {i : Nat} {v : JV} {fld val fld' w : GoVal}
    (hrun : runExtr (Γ.methods K) f.x i v fld = .ok (.done (.ok val) fld'))
    (hst : storeField (Γ.methods K) f.store val fld' = .ok w) : Decodes Γ fd.tags.layout fd.typ v fld w := by
  obtain ⟨_, _, r, htv, hx, hso, _⟩ := genFieldFill_some hg
  rw [hx] at hrun
  have hel := prepare_expr Γ true fd.typ fd.tags false false
  have hstar := prepare_isStar Γ true fd.typ fd.tags false
  have htags : (Fld.prepare Γ true fd.typ fd.tags false false).tags = fd.tags := rfl
  have hhf : (Fld.prepare Γ true fd.typ fd.tags false false).hasField = true := rfl
  have hrefx := prepare_resolve Γ true fd.typ fd.tags false false
  generalize Fld.prepare Γ true fd.typ fd.tags false false = el at htv hso hel hstar htags hhf hrefx
  cases hst' : r.isStarType with
  | true =>
    cases k with
    | zero => simp [typedValue] at htv
    | succ k =>
      obtain ⟨x, r', h1, h2, h3, h4⟩ := typedValue_isStarType htv hst'
      have h1' : el.refx = .star x := by
        unfold resolve2 at h1
        split at h1
        · rename_i ho
          rw [h1] at ho; cases ho
        · exact h1
      simp only [storeOf, hst', if_true, h1'] at hso
      have hcase : (∃ p, x = .prim p) ∨ (∃ n, x = .named n) ∨ x = .time ∨ x = .uuid := by
        cases x <;> simp at hso ⊢
      have hcore : ((∀ t, r'.x ≠ .nestedFresh t) ∧ ∀ t, r'.x ≠ .nestedInPlace t) ∧
          f.store = (if el.isStar then .refNamed x else .named x) := by
        rw [h3] at hso
        rcases hcase with ⟨p, rfl⟩ | ⟨n, rfl⟩ | rfl | rfl <;>
        · simp only at hso
          split at hso
          · cases hso
          · cases hso
          · rename_i ha hb
            simp only [Out.ok.injEq] at hso
            exact ⟨⟨ha, hb⟩, hso.symm⟩
      obtain ⟨hnest, hstore⟩ := hcore
      rw [h3] at hrun
      have hsnd : ∀ w', convT (Γ.methods K) x val = .ok w' → DecodesNew Γ fd.tags.layout x v w' := by
        intro w' hw'
        rw [← htags]
        exact star_sound (f := { el with refx := x }) h2 rfl hcase hnest hrun hw'
      rw [h1'] at hrefx
      rcases hstar with ⟨hs, ht⟩ | ⟨hs, ht, _⟩
      · rw [hstore, hs] at hst
        simp only [if_true, storeField] at hst
        obtain ⟨w', h5, h6⟩ := Out.bind_eq_ok.1 hst
        simp only [Out.pure_eq, Out.ok.injEq] at h6
        subst h6
        obtain ⟨h7, h8⟩ := decodes_star hrefx.symm (hsnd w' h5)
        rw [hel] at h7 h8
        rw [ht]
        exact .ptr (.other h8 h7)
      · rw [hstore, hs] at hst
        simp only [Bool.false_eq_true, if_false, storeField] at hst
        obtain ⟨w', h5, h6⟩ := Out.bind_eq_ok.1 hst
        simp only [Out.pure_eq, Out.ok.injEq] at h6
        subst h6
        have := (decodes_star hrefx.symm (hsnd w' h5)).1 fld
        rw [hel] at this
        rw [ht]
        exact this
  | false =>
    have hS : ExtrSound Γ K el r := extr_sound htv hrefx (hel ▸ hke) hst'
    have hd := hS i v fld val fld' hrun
    rw [htags, hel] at hd
    simp only [storeOf, hst', Bool.false_eq_true, if_false] at hso
    rcases hstar with ⟨hs, ht⟩ | ⟨hs, ht, _⟩
    · have hnf : r.filled = false := by
        cases hfl : r.filled with
        | false => rfl
        | true => have := (filled_spec htv hfl).2; rw [hs] at this; cases this
      rw [hs] at hso
      simp only [if_true, Out.ok.injEq] at hso
      rw [← hso] at hst
      simp only [storeField] at hst
      obtain ⟨w', h5, h6⟩ := Out.bind_eq_ok.1 hst
      simp only [Out.pure_eq, Out.ok.injEq] at h6
      subst h6
      rw [ht]
      refine .ptr ((hd.2 hnf w' (hel ▸ h5)).1 ?_)
      intro hsd
      rw [← hel] at hsd
      rcases stored_spec htv hrefx hsd with ⟨_, h⟩ | ⟨_, h⟩
      · exact h ⟨hhf, hs⟩
      · rw [hs] at h; cases h
    · rw [hs] at hso
      simp only [Bool.false_eq_true, if_false] at hso
      cases hfl : r.filled with
      | true =>
        rw [hfl] at hso
        simp only [if_true, Out.ok.injEq] at hso
        rw [← hso] at hst
        simp only [storeField, Out.ok.injEq] at hst
        subst hst
        rw [ht]; exact hd.1 hfl
      | false =>
        rw [hfl] at hso
        simp only [Bool.false_eq_true, if_false, Out.ok.injEq] at hso
        rw [← hso] at hst
        simp only [storeField] at hst
        rw [ht]
        exact (hd.2 hfl w (hel ▸ hst)).2 (Or.inl ⟨hhf, hs⟩)

end VJ
