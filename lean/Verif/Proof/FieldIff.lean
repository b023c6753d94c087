import Verif.Proof.Complete

/-!
# A struct field with a member in the document: exact characterisation
-/

set_option linter.unusedSectionVars false
set_option linter.unusedSimpArgs false

namespace VJ

variable [Ext]

/-- the value before conversion -/
theorem primExtraction_val {M : Nat → Methods} {dc : Bool} {path : PathE} {p : Prim} {x : Extr}
    (hx : primExtraction dc path p = .ok x) {i : Nat} {v : JV} {fld fld' val : GoVal}
    (h : runExtr M x i v fld = .ok (.done (.ok val) fld')) :
    (p.isInt = true → ∃ raw z, v = .num raw ∧ val = .int z ∧ IntToken raw z) ∧
    (p = .float32 → ∃ raw f, v = .num raw ∧ val = .float f ∧ Ext.parseFloat raw = some f) := by
  have hint : runExtr M .int i v fld = .ok (.done (.ok val) fld') → ∃ raw z, v = .num raw ∧ val = .int z ∧ IntToken raw z := by
    intro h
    simp only [runExtr, Out.ok.injEq, TV.done.injEq] at h
    obtain ⟨h1, rfl⟩ := h
    cases v with
    | num raw =>
      simp only [JV.getInt] at h1
      cases hz : parseInt raw with
      | none => rw [hz] at h1; simp at h1
      | some z =>
        rw [hz] at h1
        simp only at h1
        split at h1
        · rename_i z' hz'
          split at hz'
          · simp only [Except.ok.injEq] at hz' h1
            subst hz'
            exact ⟨raw, z, rfl, h1.symm, parseInt_iff.1 hz⟩
          · cases hz'
        · cases h1
    | _ => simp [JV.getInt] at h1
  have huint : runExtr M .uint i v fld = .ok (.done (.ok val) fld') → ∃ raw z, v = .num raw ∧ val = .int z ∧ IntToken raw z := by
    intro h
    simp only [runExtr, Out.ok.injEq, TV.done.injEq] at h
    obtain ⟨h1, rfl⟩ := h
    cases v with
    | num raw =>
      simp only [JV.getUint] at h1
      cases hz : parseNat raw with
      | none => rw [hz] at h1; simp at h1
      | some z =>
        rw [hz] at h1
        simp only at h1
        split at h1
        · rename_i z' hz'
          split at hz'
          · simp only [Except.ok.injEq] at hz' h1
            subst hz'
            exact ⟨raw, z, rfl, h1.symm, .nonneg (parseNat_iff.1 hz)⟩
          · cases hz'
        · cases h1
    | _ => simp [JV.getUint] at h1
  have hfloat : runExtr M .float i v fld = .ok (.done (.ok val) fld') →
      ∃ raw f, v = .num raw ∧ val = .float f ∧ Ext.parseFloat raw = some f := by
    intro h
    simp only [runExtr, Out.ok.injEq, TV.done.injEq] at h
    obtain ⟨h1, rfl⟩ := h
    cases v with
    | num raw =>
      simp only [JV.getFloat] at h1
      cases hz : Ext.parseFloat raw with
      | none => rw [hz] at h1; simp at h1
      | some z => rw [hz] at h1; simp at h1; exact ⟨raw, z, rfl, h1.symm, hz⟩
    | _ => simp [JV.getFloat] at h1
  cases p <;> simp only [primExtraction, Out.ok.injEq] at hx <;> first | cases hx | skip
  all_goals (try subst hx)
  all_goals first
    | exact ⟨fun _ => hint h, by simp⟩
    | exact ⟨fun _ => huint h, by simp⟩
    | exact ⟨by simp [Prim.isInt], fun _ => hfloat h⟩
    | exact ⟨by simp [Prim.isInt], by simp⟩

omit [Ext] in
theorem typedValue_prim {Γ : Env} {k : Nat} {f : Fld} {path : PathE} {r : TVGen} (h : typedValue Γ k f path = .ok r)
    {p : Prim} (hp : f.refx = .prim p) : primExtraction f.dontCheckErr path p = .ok r.x := by
  cases k with
  | zero => simp [typedValue] at h
  | succ k =>
    unfold typedValue at h
    simp only [resolve2_def, hp] at h
    rw [show resolve2 Γ (.prim p) = .prim p from rfl] at h
    obtain ⟨x, hx, hr⟩ := Out.bind_eq_ok.1 h
    simp only [Out.pure_eq, Out.ok.injEq] at hr
    subst hr
    exact hx

omit [Ext] in
theorem resolve_prim_iff {Γ : Env} {e : TExpr} {p : Prim} : resolve Γ e = .prim p ↔ IsPrim Γ e p := by
  constructor
  · intro h
    rcases resolve_cases (Γ := Γ) e with ⟨q, h2, h3⟩ | ⟨_, h2, _⟩
    · rw [h] at h2; cases h2; exact h3
    · exact absurd h (h2 p)
  · intro h
    simp [resolve, denoted_prim.2 h, TExpr.isOrdinal]

/-- the bound check passes exactly when the number is not too large -/
theorem max_iff {Γ : Env} {K k : Nat} {fd : FieldDecl} {f : FieldFill} (hg : genFieldFill Γ k fd = .ok (some f))
    {i : Nat} {v : JV} {fld val fld' : GoVal}
    (hrun : runExtr (Γ.methods K) f.x i v fld = .ok (.done (.ok val) fld')) :
    f.max.bind (exceeds · val) = none ↔ NotTooLarge Γ fd.typ v := by
  obtain ⟨_, _, r, htv, hx, _, _, _, _, hmx⟩ := genFieldFill_some hg
  rw [hx] at hrun
  have hel := prepare_expr Γ true fd.typ fd.tags false false
  have hrefx := prepare_resolve Γ true fd.typ fd.tags false false
  generalize Fld.prepare Γ true fd.typ fd.tags false false = el at htv hel hrefx hmx
  rw [hel] at hrefx
  by_cases hp : ∃ p, IsPrim Γ (pointee fd.typ) p
  · obtain ⟨p, hp⟩ := hp
    have hr : el.refx = .prim p := by rw [hrefx]; exact resolve_prim_iff.2 hp
    obtain ⟨hvi, hvf⟩ := primExtraction_val (typedValue_prim htv hr) hrun
    have huniq : ∀ {q}, IsPrim Γ (pointee fd.typ) q → q = p := by
      intro q hq
      have h1 := denoted_prim.2 hq
      rw [denoted_prim.2 hp] at h1
      cases h1; rfl
    have hmx' : f.max = maxByType (.prim p) := by
      rw [hmx, hr]
      split
      · rename_i h; simp at h; subst h; rfl
      · rfl
    rw [hmx']
    by_cases hi : p.isInt = true
    · obtain ⟨raw, z, rfl, rfl, htok⟩ := hvi hi
      have hspec : NotTooLarge Γ fd.typ (.num raw) ↔ z ≤ p.maxValue := by
        constructor
        · intro h; exact (h p raw hp rfl).1 hi z htok
        · intro h q raw' hq hr'
          cases hr'
          obtain rfl := huniq hq
          refine ⟨fun _ z' hz' => ?_, fun hf => ?_⟩
          · rw [IntToken.unique hz' htok]; exact h
          · subst hf; simp [Prim.isInt] at hi
      rw [hspec]
      have h64 : ∀ {x : Extr} {q : Prim}, q = p → p.isInt = true → maxByType (.prim p) = none →
          (maxByType (.prim p)).bind (exceeds · (.int z)) = none := by
        intro x q _ _ h; rw [h]; rfl
      have hpr := typedValue_prim htv hr
      have hsnd := (primExtraction_sound hpr hrun).1
      cases p <;> first | (simp [Prim.isInt] at hi; done) | skip
      case int =>
        cases hsnd with
        | signed _ h1 _ h2 => rw [IntToken.unique htok h1]; simp [maxByType, Prim.maxValue]; omega
        | unsigned h => simp [Prim.isUnsigned] at h
      case int64 =>
        cases hsnd with
        | signed _ h1 _ h2 => rw [IntToken.unique htok h1]; simp [maxByType, Prim.maxValue]; omega
        | unsigned h => simp [Prim.isUnsigned] at h
      case uint =>
        cases hsnd with
        | signed h => simp [Prim.isSigned] at h
        | unsigned _ h1 h2 => rw [IntToken.unique htok (.nonneg h1)]; simp [maxByType, Prim.maxValue]; omega
      case uint64 =>
        cases hsnd with
        | signed h => simp [Prim.isSigned] at h
        | unsigned _ h1 h2 => rw [IntToken.unique htok (.nonneg h1)]; simp [maxByType, Prim.maxValue]; omega
      all_goals simp [maxByType, exceeds, Prim.maxValue]
    · by_cases hf : p = .float32
      · subst hf
        obtain ⟨raw, x, rfl, rfl, hpf⟩ := hvf rfl
        constructor
        · intro h q raw' hq hr'
          cases hr'
          obtain rfl := huniq hq
          refine ⟨fun h => by simp [Prim.isInt] at h, fun _ g hg => ?_⟩
          rw [hpf] at hg
          cases hg
          simpa [maxByType, exceeds] using h
        · intro h
          have := (h .float32 raw hp rfl).2 rfl x hpf
          simp [maxByType, exceeds, this]
      · constructor
        · intro _ q raw' hq hr'
          obtain rfl := huniq hq
          exact ⟨fun h => absurd h hi, fun h => absurd h hf⟩
        · intro _
          cases p <;> first | rfl | (simp [Prim.isInt] at hi; done) | exact absurd rfl hf
  · have hn : ∀ p, el.refx ≠ .prim p := by
      intro p h
      rw [hrefx] at h
      exact hp ⟨p, resolve_prim_iff.1 h⟩
    have hmx' : f.max = none := by
      rw [hmx]
      split
      · rfl
      · cases hr : el.refx with
        | prim p => exact absurd hr (hn p)
        | _ => rfl
    rw [hmx']
    simp only [Option.bind_none, true_iff]
    intro p raw hq
    exact absurd ⟨p, hq⟩ hp

/-- completeness for the target of a pointer type -/
theorem star_complete {Γ : Env} {k : Nat} {f : Fld} {path : PathE} {r : TVGen} (hg : typedValue Γ k f path = .ok r)
    {x : TExpr} (hx : f.refx = x) (hcase : (∃ p, x = .prim p) ∨ (∃ n, x = .named n) ∨ x = .time ∨ x = .uuid)
    (hnest : (∀ t, r.x ≠ .nestedFresh t) ∧ ∀ t, r.x ≠ .nestedInPlace t)
    {v : JV} {w : GoVal} (hd : DecodesNew Γ f.tags.layout x v w) (i : Nat) (fld : GoVal) :
    ∃ K val, runExtr (Γ.methods K) r.x i v fld = .ok (.done (.ok val) fld) ∧ convT (Γ.methods K) x val = .ok w := by
  cases k with
  | zero => simp [typedValue] at hg
  | succ k =>
    unfold typedValue at hg
    simp only [resolve2_def] at hg
    rw [hx] at hg
    by_cases hp : ∃ p, resolve2 Γ x = .prim p
    · obtain ⟨p, hp⟩ := hp
      rw [hp] at hg
      obtain ⟨y, hy, hr⟩ := Out.bind_eq_ok.1 hg
      simp only [Out.pure_eq, Out.ok.injEq] at hr
      subst hr
      have hip := resolve2_prim hp
      have hfin := primName_final (.base hip)
      have hpd : PrimDec p v w := by
        cases hd with
        | call hc => rcases calls_final hc with ⟨m, h⟩ | ⟨m, h⟩ | h <;> rw [hfin] at h <;> cases h
        | other _ hd =>
          rcases decodes_kind (hd .nil) hfin with ⟨p', h, h'⟩ | ⟨h, _⟩ | ⟨h, _⟩ | ⟨h, _⟩ | ⟨h, _⟩ | ⟨_, h, _⟩ | ⟨_, h, _⟩ | ⟨_, _, h, _⟩ |
            ⟨_, h, _⟩ | ⟨_, _, h, _⟩
          case inl => cases h; exact h'
          all_goals simp at h
      obtain ⟨val, h1, h2⟩ := primExtraction_complete (M := Γ.methods 2) hy hpd i fld
      exact ⟨2, val, h1, by rw [← h2]; exact convT_primName_ok (.base hip) val⟩
    · have hp' : ∀ p, resolve2 Γ x ≠ .prim p := fun p h => hp ⟨p, h⟩
      rw [(resolve2_other hp').1] at hg
      rcases hcase with ⟨p, rfl⟩ | ⟨n, rfl⟩ | rfl | rfl
      · exact absurd rfl (hp' p)
      · simp only [Out.ok.injEq] at hg
        subst hg
        unfold nestedExtraction at hnest
        split at hnest
        · exact absurd rfl (hnest.1 f.expr)
        · exact absurd rfl (hnest.2 f.expr)
      · obtain ⟨lo, hl, hr⟩ := Out.bind_eq_ok.1 hg
        simp only [Out.pure_eq, Out.ok.injEq] at hr
        subst hr
        have hfin := is_resolve (Γ := Γ) (.self .time) (by simp) (by simp) (by simp)
        cases hd with
        | call hc => cases hc
        | other _ hd =>
          rcases decodes_kind (hd .nil) hfin with ⟨p', h, h'⟩ | ⟨_, s, tm, rfl, rfl, ht⟩ | ⟨h, _⟩ | ⟨h, _⟩ | ⟨h, _⟩ | ⟨_, h, _⟩ |
            ⟨_, h, _⟩ | ⟨_, _, h, _⟩ | ⟨_, h, _⟩ | ⟨_, _, h, _⟩
          case inr.inl => exact ⟨1, _, timeExtr_complete hl ht i fld, rfl⟩
          all_goals simp at h
      · simp only [Out.ok.injEq] at hg
        subst hg
        have hfin := is_resolve (Γ := Γ) (.self .uuid) (by simp) (by simp) (by simp)
        cases hd with
        | call hc => cases hc
        | other _ hd =>
          rcases decodes_kind (hd .nil) hfin with ⟨p', h, h'⟩ | ⟨h, _⟩ | ⟨_, s, b, rfl, rfl, hb⟩ | ⟨h, _⟩ | ⟨h, _⟩ | ⟨_, h, _⟩ |
            ⟨_, h, _⟩ | ⟨_, _, h, _⟩ | ⟨_, h, _⟩ | ⟨_, _, h, _⟩
          case inr.inr.inl => exact ⟨1, _, uuidExtr_complete hb i fld, rfl⟩
          all_goals simp at h

theorem decodes_ptr_inv {Γ : Env} {L : Str} {t u : TExpr} {v : JV} {old new : GoVal} (h : Decodes Γ L t v old new)
    (ht : resolve2 Γ (resolve Γ t) = .star u) : ∃ w, new = .ptr w ∧ DecodesNew Γ L u v w := by
  rcases decodes_kind h ht with ⟨p', h, h'⟩ | ⟨h, _⟩ | ⟨h, _⟩ | ⟨h, _⟩ | ⟨h, _⟩ | ⟨_, h, _⟩ | ⟨_, h, _⟩ | ⟨_, _, h, _⟩ | ⟨_, h, _⟩ |
    ⟨u', w', h, h1, h2⟩
  case inr.inr.inr.inr.inr.inr.inr.inr.inr => cases h; exact ⟨w', h1, h2⟩
  all_goals simp at h

/-- The field statements assign whatever `Decodes` says. -/
theorem field_complete {Γ : Env} {k : Nat} {fd : FieldDecl} {f : FieldFill} (hg : genFieldFill Γ k fd = .ok (some f))
    {v : JV} {fld w : GoVal} (hd : Decodes Γ fd.tags.layout fd.typ v fld w) (i : Nat) :
    ∃ K val fld', runExtr (Γ.methods K) f.x i v fld = .ok (.done (.ok val) fld') ∧
      storeField (Γ.methods K) f.store val fld' = .ok w := by
  obtain ⟨_, _, r, htv, hx, hso, _⟩ := genFieldFill_some hg
  rw [hx]
  have hel := prepare_expr Γ true fd.typ fd.tags false false
  have hstar := prepare_isStar Γ true fd.typ fd.tags false
  have htags : (Fld.prepare Γ true fd.typ fd.tags false false).tags = fd.tags := rfl
  have hhf : (Fld.prepare Γ true fd.typ fd.tags false false).hasField = true := rfl
  have hrefx := prepare_resolve Γ true fd.typ fd.tags false false
  generalize Fld.prepare Γ true fd.typ fd.tags false false = el at htv hso hel hstar htags hhf hrefx
  cases hst' : r.isStarType with
  | true =>
    cases k with
    | zero => simp [typedValue] at htv
    | succ k =>
      obtain ⟨x, r', h1, h2, h3, h4⟩ := typedValue_isStarType htv hst'
      have h1' : el.refx = .star x := by
        unfold resolve2 at h1
        split at h1
        · rename_i ho
          rw [h1] at ho; cases ho
        · exact h1
      simp only [storeOf, hst', if_true, h1'] at hso
      have hcase : (∃ p, x = .prim p) ∨ (∃ n, x = .named n) ∨ x = .time ∨ x = .uuid := by
        cases x <;> simp at hso ⊢
      have hcore : ((∀ t, r'.x ≠ .nestedFresh t) ∧ ∀ t, r'.x ≠ .nestedInPlace t) ∧
          f.store = (if el.isStar then .refNamed x else .named x) := by
        rw [h3] at hso
        rcases hcase with ⟨p, rfl⟩ | ⟨n, rfl⟩ | rfl | rfl <;>
        · simp only at hso
          split at hso
          · cases hso
          · cases hso
          · rename_i ha hb
            simp only [Out.ok.injEq] at hso
            exact ⟨⟨ha, hb⟩, hso.symm⟩
      obtain ⟨hnest, hstore⟩ := hcore
      rw [h3]
      rw [h1'] at hrefx
      have hres : resolve2 Γ (resolve Γ (pointee fd.typ)) = .star x := by rw [← hel, ← hrefx]; rfl
      rcases hstar with ⟨hs, ht⟩ | ⟨hs, ht, _⟩
      · rw [ht] at hd
        obtain ⟨w1, rfl, hd1⟩ := decodes_ptr_inv hd (is_resolve (.self _) (by simp) (by simp) (by simp))
        cases hd1 with
        | call hc => rcases calls_final hc with ⟨m, h⟩ | ⟨m, h⟩ | h <;> rw [hres] at h <;> cases h
        | other _ hd1 =>
          obtain ⟨w2, rfl, hd2⟩ := decodes_ptr_inv (hd1 .nil) hres
          rw [← htags] at hd2
          obtain ⟨K, val, h5, h6⟩ := star_complete (f := { el with refx := x }) h2 rfl hcase hnest hd2 i fld
          exact ⟨K, val, fld, h5, by simp [hstore, hs, storeField, h6, Out.ok_bind]⟩
      · rw [ht] at hd
        obtain ⟨w2, rfl, hd2⟩ := decodes_ptr_inv hd hres
        rw [← htags] at hd2
        obtain ⟨K, val, h5, h6⟩ := star_complete (f := { el with refx := x }) h2 rfl hcase hnest hd2 i fld
        exact ⟨K, val, fld, h5, by simp [hstore, hs, storeField, h6, Out.ok_bind]⟩
  | false =>
    have hS : ExtrComplete Γ el r := extr_complete htv hrefx hst'
    simp only [storeOf, hst', Bool.false_eq_true, if_false] at hso
    rcases hstar with ⟨hs, ht⟩ | ⟨hs, ht, _⟩
    · have hnf : r.filled = false := by
        cases hfl : r.filled with
        | false => rfl
        | true => have := (filled_spec htv hfl).2; rw [hs] at this; cases this
      rw [hs] at hso
      simp only [if_true, Out.ok.injEq] at hso
      rw [ht] at hd
      obtain ⟨w1, rfl, hd1⟩ := decodes_ptr_inv hd (is_resolve (.self _) (by simp) (by simp) (by simp))
      rw [← hel, ← htags] at hd1
      obtain ⟨K, val, fld', h1, h2⟩ := hS.2 v w1 hd1 hnf i fld
      exact ⟨K, val, fld', h1, by simp [← hso, storeField, h2, Out.ok_bind]⟩
    · rw [hs] at hso
      simp only [Bool.false_eq_true, if_false] at hso
      rw [ht, ← hel, ← htags] at hd
      obtain ⟨K, val, fld', h1, h2, h3⟩ := hS.1 v fld w hd (Or.inl ⟨hhf, hs⟩) i
      refine ⟨K, val, fld', h1, ?_⟩
      cases hfl : r.filled with
      | true =>
        rw [hfl] at hso
        simp only [if_true, Out.ok.injEq] at hso
        simp [← hso, storeField, h2 hfl]
      | false =>
        rw [hfl] at hso
        simp only [Bool.false_eq_true, if_false, Out.ok.injEq] at hso
        simp [← hso, storeField, h3 hfl]

theorem looks_iff {name : Str} {doc w : JV} :
    (if name = [] then some doc else doc.get name) = some w ↔ Looks name doc w := by
  unfold Looks
  split
  · rename_i h; simp [h]; exact eq_comm
  · rename_i h; simp [h]

/-- **The statements of a field that has something to decode.** -/
theorem field_iff {Γ : Env} {k : Nat} {fd : FieldDecl} {f : FieldFill} (hg : genFieldFill Γ k fd = .ok (some f))
    {doc w : JV} (hl : Looks fd.tags.jsonName doc w) (hnn : fd.typ.nullLike = true → w ≠ .null) {g new : GoVal} :
    ((∃ K, runField (Γ.methods K) f doc g = .ok (none, new)) → KeepsErrors Γ (pointee fd.typ) →
      Decodes Γ fd.tags.layout fd.typ w g new ∧ NotTooLarge Γ fd.typ w) ∧
    (Decodes Γ fd.tags.layout fd.typ w g new → NotTooLarge Γ fd.typ w →
      ∃ K, runField (Γ.methods K) f doc g = .ok (none, new)) := by
  obtain ⟨hj, _, r, htv, hx, hso, _, hnu, _, _⟩ := genFieldFill_some hg
  have hnl : (Fld.prepare Γ true fd.typ fd.tags false false).isNullable = fd.typ.nullLike := by cases fd.typ <;> rfl
  rw [hnl] at hnu
  have hc : (f.nullable && w.isNull) = false := by
    rw [hnu]
    cases hb : fd.typ.nullLike with
    | false => rfl
    | true =>
      have := hnn hb
      cases w <;> simp_all [JV.isNull]
  have hrun : ∀ K, runField (Γ.methods K) f doc g = (do
      match ← runExtr (Γ.methods K) f.x 0 w g with
      | .ret e fld' => return (some e, fld')
      | .done (.error e) fld' =>
        if f.check then return (some (newParsingError f.json e), fld') else .unsupp
      | .done (.ok val) fld' =>
        match f.max.bind (exceeds · val) with
        | some c => return (some (newParsingError f.json (.plain c)), fld')
        | none =>
          let r ← storeField (Γ.methods K) f.store val fld'
          return (none, r)) := by
    intro K
    unfold runField
    rw [hj, looks_iff.2 hl]
    simp only [hc, Bool.false_eq_true, if_false]
    rfl
  constructor
  · rintro ⟨K, h⟩ hke
    rw [hrun] at h
    obtain ⟨tv, h1, h2⟩ := Out.bind_eq_ok.1 h
    cases tv with
    | ret e fld' => simp at h2
    | done res fld' =>
      cases res with
      | error e =>
        simp only at h2
        split at h2
        · simp at h2
        · cases h2
      | ok val =>
        simp only at h2
        split at h2
        · simp at h2
        · rename_i hm
          obtain ⟨w', h3, h4⟩ := Out.bind_eq_ok.1 h2
          simp only [Out.pure_eq, Out.ok.injEq, Prod.mk.injEq, true_and] at h4
          subst h4
          exact ⟨field_sound hg hke h1 h3, (max_iff hg h1).1 hm⟩
  · intro hd hf
    obtain ⟨K, val, fld', h1, h2⟩ := field_complete hg hd 0
    refine ⟨K, ?_⟩
    rw [hrun, h1]
    simp only [Out.ok_bind, (max_iff hg h1).2 hf, h2, Out.pure_eq]

end VJ
