import Verif.Proof.GoInt
import Verif.Proof.FieldIff
import Verif.Props.StructDecode

/-!
# What a successful struct decode does: exact characterisation
-/

set_option linter.unusedSectionVars false
set_option linter.unusedSimpArgs false

namespace VJ

variable [Ext]

omit [Ext] in
theorem isPrim_unique {Γ : Env} {t : TExpr} {p q : Prim} (h : IsPrim Γ t p) (h' : IsPrim Γ t q) : p = q := by
  have := denoted_prim.2 h
  rw [denoted_prim.2 h'] at this
  cases this; rfl

theorem primLiteral_unique {p : Prim} {text : Str} {a b : GoVal} (h : PrimLiteral p text a) (h' : PrimLiteral p text b) :
    a = b := by
  cases h with
  | int hp h hr =>
    cases h' with
    | int hp' h' hr' => rw [goInteger_unique h h']
    | _ => simp [Prim.isInt] at hp
  | string h =>
    cases h' with
    | int hp _ _ => simp [Prim.isInt] at hp
    | string h' => rw [readAsSource_unique h h']
  | _ => cases h' <;> simp_all [Prim.isInt]

theorem defaultValue_unique {Γ : Env} {t : TExpr} {text : Str} {a : GoVal} (h : DefaultValue Γ t text a) :
    ∀ {b : GoVal}, DefaultValue Γ t text b → a = b := by
  induction h with
  | prim ht hl =>
    intro b h'
    cases h' with
    | prim ht' hl' =>
      obtain rfl := isPrim_unique ht ht'
      exact primLiteral_unique hl hl'
    | ptr _ => cases ht
    | named hn h' =>
      cases ht with
      | named hn' =>
        rw [hn] at hn'; cases hn'
        cases h' with
        | prim ht' hl' => cases ht'; exact primLiteral_unique hl hl'
  | ptr _ ih =>
    intro b h'
    cases h' with
    | prim ht' _ => cases ht'
    | ptr h' => rw [ih h']
  | named hn _ ih =>
    intro b h'
    cases h' with
    | prim ht' hl' =>
      cases ht' with
      | named hn' =>
        rw [hn] at hn'; cases hn'
        exact ih (.prim (.self _) hl')
    | named hn' h' => rw [hn] at hn'; cases hn'; exact ih h'

theorem missing_run {fd : FieldDecl} {doc : JV} {M : Nat → Methods} {f : FieldFill} (hj : f.json = fd.tags.jsonName)
    (hn : f.nullable = fd.typ.nullLike) (hm : Missing fd doc) (g : GoVal) :
    ∃ b : Bool, (b = true ↔ Looks fd.tags.jsonName doc .null) ∧
    runField M f doc g = (match f.dflt with
    | .nothing => .ok (none, g)
    | .required => .ok (some (newParsingError f.json (.plain (.required f.json))), g)
    | .value d onlyAbsent => if onlyAbsent && b then .ok (none, g) else .ok (none, d)) := by
  rcases hm with ⟨hne, hg⟩ | ⟨hnl, hl⟩
  · refine ⟨false, ?_, ?_⟩
    · simp [Looks, hne, hg]
    · unfold runField
      simp only [hj, hne, if_false, hg, Option.isSome_none]
      cases f.dflt <;> rfl
  · refine ⟨true, by simp [hl], ?_⟩
    unfold runField
    rw [hj, looks_iff.2 hl]
    simp [hn, hnl, JV.isNull]
    cases f.dflt <;> rfl

/-- is the default of a field guarded against `null`? -/
theorem ifDefault_cases {Γ : Env} {k : Nat} {fd : FieldDecl} {f : FieldFill} (hg : genFieldFill Γ k fd = .ok (some f)) :
    (fd.tags.dflt = [] ∧ fd.tags.required = false ∧ f.dflt = .nothing) ∨
    (fd.tags.dflt = [] ∧ fd.tags.required = true ∧ f.dflt = .required) ∨
    (fd.tags.dflt ≠ [] ∧ ∃ d oa, f.dflt = .value d oa ∧ DefaultValue Γ fd.typ fd.tags.dflt d ∧
      (oa = true ↔ PlainPointer Γ fd.typ)) := by
  obtain ⟨hj, _, r, htv, hx, hst, hdf, _⟩ := genFieldFill_some hg
  have htag : (Fld.prepare Γ true fd.typ fd.tags false false).tags = fd.tags := rfl
  by_cases hd : fd.tags.dflt = []
  · simp only [ifDefault, htag, hd, if_true, Out.ok.injEq] at hdf
    cases hr : fd.tags.required with
    | false => rw [hr] at hdf; exact Or.inl ⟨hd, rfl, hdf.symm⟩
    | true => rw [hr] at hdf; exact Or.inr (Or.inl ⟨hd, rfl, hdf.symm⟩)
  · refine Or.inr (Or.inr ⟨hd, ?_⟩)
    have hA : r.isStarType = true → ∃ x, (Fld.prepare Γ true fd.typ fd.tags false false).refx = .star x ∧ ∀ y, x ≠ .star y := by
      intro hb
      unfold storeOf at hst
      rw [hb] at hst
      simp only [if_true] at hst
      split at hst
      · rename_i x hx
        refine ⟨x, hx, ?_⟩
        rintro y rfl
        simp at hst
      · simp at hst
    have hB := typedValue_star htv
    have hspec := fun d oa => ifDefault_spec (Γ := Γ) (fd := fd) (b := r.isStarType) (d := d) (oa := oa) hA hB
    have hdf' := hdf
    simp only [ifDefault, htag, hd, if_false] at hdf
    obtain ⟨lv, h5, h6⟩ := Out.bind_eq_ok.1 hdf
    have hval : ∀ d oa, Out.ok f.dflt = Out.ok (Dflt.value d oa) → (oa = true ↔ PlainPointer Γ fd.typ) →
        ∃ d oa, f.dflt = .value d oa ∧ DefaultValue Γ fd.typ fd.tags.dflt d ∧ (oa = true ↔ PlainPointer Γ fd.typ) := by
      intro d oa h h'
      rw [h] at hdf'
      exact ⟨d, oa, Out.ok.inj h, hspec d oa hdf', h'⟩
    have hty := prepare_typ Γ true fd.typ fd.tags
    cases hb : r.isStarType with
    | true =>
      rw [hb] at h6
      refine hval _ _ h6.symm ?_
      simp only [Bool.false_eq_true, false_iff]
      rintro ⟨u, hu, hnp⟩
      obtain ⟨x, hx, _⟩ := hA hb
      have hexpr : (Fld.prepare Γ true fd.typ fd.tags false false).expr = u := by
        rw [hu]; rfl
      rcases prepare_refx_star hx with he | ⟨m, he, hm⟩
      · rw [hexpr] at he; rw [he] at hnp; exact hnp (.star _)
      · rw [hexpr] at he; rw [he] at hnp; exact hnp (.named hm)
    | false =>
      rw [hb] at h6
      simp only [Bool.false_eq_true, if_false] at h6
      split at h6
      · rename_i hs
        refine hval _ _ h6.symm ?_
        simp only [true_iff]
        rcases hty with ⟨_, ht⟩ | ⟨hs', _⟩
        · refine ⟨_, ht, ?_⟩
          intro hp
          have hrx := prepare_resolve Γ true fd.typ fd.tags false false
          generalize (Fld.prepare Γ true fd.typ fd.tags false false).expr = e at hp hrx
          cases hp with
          | star t => exact hB hb t (by rw [hrx]; rfl)
          | named h =>
            rename_i m t
            refine hB hb t ?_
            rw [hrx]
            simp [resolve, Env.denoted, Env.denotedIdent, h, Decl.spec, TExpr.isOrdinal]
        · rw [hs'] at hs; cases hs
      · rename_i hs
        refine hval _ _ h6.symm ?_
        simp only [Bool.false_eq_true, false_iff]
        rintro ⟨u, hu, _⟩
        rw [hu] at hs
        exact hs rfl

theorem field_step_iff {Γ : Env} {k : Nat} {fd : FieldDecl} {f : Option FieldFill} (hg : genFieldFill Γ k fd = .ok f)
    {doc : JV} {g new : GoVal} :
    ((∃ K, stepField (Γ.methods K) doc f g = .ok (none, new)) → KeepsErrors Γ (pointee fd.typ) →
      FieldResult Γ fd doc g new) ∧
    (FieldResult Γ fd doc g new → ∃ K, stepField (Γ.methods K) doc f g = .ok (none, new)) := by
  cases f with
  | none =>
    have hh := genFieldFill_none hg
    simp only [stepField, Out.ok.injEq, Prod.mk.injEq, true_and]
    constructor
    · rintro ⟨_, rfl⟩ _; exact .hidden hh
    · intro h
      cases h with
      | hidden _ => exact ⟨0, rfl⟩
      | decoded h => exact absurd hh h
      | kept h => exact absurd hh h
      | default h => exact absurd hh h
      | nullKept h => exact absurd hh h
  | some f =>
    obtain ⟨hj, hne, r, _, _, _, _, hn, _⟩ := genFieldFill_some hg
    rw [prepare_nullable] at hn
    have hdc := ifDefault_cases hg
    have hMn : ∀ {w}, Looks fd.tags.jsonName doc w → (fd.typ.nullLike = true → w ≠ .null) → ¬ Missing fd doc := by
      rintro w hl hnn (⟨h1, h2⟩ | ⟨h1, h2⟩)
      · rcases hl with ⟨h3, _⟩ | ⟨_, h3⟩
        · exact h1 h3
        · rw [h2] at h3; cases h3
      · have : w = .null := by
          have a := looks_iff.2 hl; rw [looks_iff.2 h2] at a; exact (Option.some.inj a).symm
        exact hnn h1 this
    by_cases hmiss : Missing fd doc
    · have hrun := fun K => missing_run (M := Γ.methods K) hj hn hmiss g
      simp only [stepField]
      constructor
      · rintro ⟨K, h⟩ _
        obtain ⟨b, hb, hr⟩ := hrun K
        rw [hr] at h
        rcases hdc with ⟨h1, h2, h3⟩ | ⟨h1, h2, h3⟩ | ⟨h1, d, oa, h3, h4, h5⟩
        · rw [h3] at h; simp at h; subst h; exact .kept hne hmiss h1 h2
        · rw [h3] at h; simp at h
        · rw [h3] at h
          simp only at h
          split at h
          · rename_i hc
            simp at hc h; subst h
            exact .nullKept hne (hb.1 hc.2) h1 (h5.1 hc.1)
          · rename_i hc
            simp at hc h; subst h
            refine .default hne hmiss h1 ?_ h4
            intro hl hp
            have a := hc (h5.2 hp)
            rw [hb.2 hl] at a; cases a
      · intro h
        obtain ⟨b, hb, hr⟩ := hrun 0
        refine ⟨0, ?_⟩
        rw [hr]
        rcases hdc with ⟨h1, h2, h3⟩ | ⟨h1, h2, h3⟩ | ⟨h1, d, oa, h3, h4, h5⟩ <;> rw [h3]
        · cases h with
          | hidden h => exact absurd h hne
          | decoded _ hl hnn => exact absurd hmiss (hMn hl hnn)
          | kept => rfl
          | default _ _ h => exact absurd h1 h
          | nullKept _ _ h => exact absurd h1 h
        · cases h with
          | hidden h => exact absurd h hne
          | decoded _ hl hnn => exact absurd hmiss (hMn hl hnn)
          | kept _ _ _ h => rw [h2] at h; cases h
          | default _ _ h => exact absurd h1 h
          | nullKept _ _ h => exact absurd h1 h
        · cases h with
          | hidden h => exact absurd h hne
          | decoded _ hl hnn => exact absurd hmiss (hMn hl hnn)
          | kept _ _ h => exact absurd h h1
          | default _ _ _ hp hdv =>
            obtain rfl := defaultValue_unique h4 hdv
            have : (oa && b) = false := by
              cases hoa : oa with
              | false => rfl
              | true =>
                cases hbb : b with
                | false => rfl
                | true => exact absurd (h5.1 hoa) (hp (hb.1 hbb))
            simp [this]
          | nullKept _ hl _ hp => simp [h5.2 hp, hb.2 hl]
    · have hex : ∃ w, Looks fd.tags.jsonName doc w ∧ (fd.typ.nullLike = true → w ≠ .null) := by
        unfold Missing at hmiss
        rw [not_or] at hmiss
        by_cases hj0 : fd.tags.jsonName = []
        · refine ⟨doc, Or.inl ⟨hj0, rfl⟩, ?_⟩
          rintro hnl rfl
          exact hmiss.2 ⟨hnl, Or.inl ⟨hj0, rfl⟩⟩
        · cases hget : doc.get fd.tags.jsonName with
          | none => exact absurd ⟨hj0, hget⟩ hmiss.1
          | some w =>
            refine ⟨w, Or.inr ⟨hj0, hget⟩, ?_⟩
            rintro hnl rfl
            exact hmiss.2 ⟨hnl, Or.inr ⟨hj0, hget⟩⟩
      obtain ⟨w, hl, hnn⟩ := hex
      obtain ⟨ha, hb⟩ := field_iff hg hl hnn (g := g) (new := new)
      simp only [stepField]
      constructor
      · intro h hke
        obtain ⟨h1, h2⟩ := ha h hke
        exact .decoded hne hl hnn h1 h2
      · intro h
        cases h with
        | hidden h => exact absurd h hne
        | decoded _ hl' _ hd hm =>
          have a := looks_iff.2 hl
          rw [looks_iff.2 hl'] at a
          cases a
          exact hb hd hm
        | kept _ h => exact absurd h hmiss
        | default _ h => exact absurd h hmiss
        | nullKept _ hl' _ hp =>
          exfalso
          obtain ⟨u, hu, _⟩ := hp
          exact hmiss (Or.inr ⟨by rw [hu]; rfl, hl'⟩)

theorem stepField_lift {Γ : Env} {k K : Nat} (hk : k ≤ K) {v : JV} {f : Option FieldFill} {g : GoVal} {r : Option Err × GoVal}
    (h : stepField (Γ.methods k) v f g = .ok r) : stepField (Γ.methods K) v f g = .ok r := by
  cases f with
  | none => exact h
  | some f => exact (runField_mono (fun n => methods_mono Γ hk n) f v g).eq_of_ok h

theorem runFields_of {Γ : Env} {v : JV} : ∀ (fs : List (Option FieldFill)) (gs gs' : List GoVal),
    gs.length = fs.length → gs'.length = fs.length →
    (∀ (i : Nat) f g g', fs[i]? = some f → gs[i]? = some g → gs'[i]? = some g' →
      ∃ K, stepField (Γ.methods K) v f g = .ok (none, g')) → ∃ K, runFields (Γ.methods K) v fs gs = .ok (none, gs')
  | [], gs, gs', h1, h2, _ => by
    simp at h1 h2; subst h1; subst h2; exact ⟨0, rfl⟩
  | f :: fs, [], gs', h1, _, _ => by simp at h1
  | f :: fs, g :: gs, [], _, h2, _ => by simp at h2
  | f :: fs, g :: gs, g' :: gs', h1, h2, h => by
    obtain ⟨K1, a⟩ := h 0 f g g' rfl rfl rfl
    obtain ⟨K2, b⟩ := runFields_of fs gs gs' (by simpa using h1) (by simpa using h2)
      (fun i f g g' h3 h4 h5 => h (i + 1) f g g' (by simpa using h3) (by simpa using h4) (by simpa using h5))
    refine ⟨max K1 K2, ?_⟩
    have a' := stepField_lift (Nat.le_max_left K1 K2) a
    have b' := (runFields_mono (fun n => methods_mono Γ (Nat.le_max_right K1 K2) n) v fs gs).eq_of_ok b
    cases f with
    | none =>
      simp only [stepField, Out.ok.injEq, Prod.mk.injEq, true_and] at a'
      simp [runFields, b', a']
    | some f =>
      simp only [stepField] at a'
      simp [runFields, b', a']

theorem genFields_lift {Γ : Env} {k K : Nat} (hk : k ≤ K) {fds : List FieldDecl} {fs : List (Option FieldFill)}
    (h : genFields Γ k fds = .ok fs) : genFields Γ K fds = .ok fs := by
  induction hk with
  | refl => exact h
  | step _ ih => exact (genFields_mono Γ _ fds).eq_of_ok ih

/-- **What a struct decoder does**, given the declaration alone. -/
theorem struct_iff {Γ : Env} {n : Nat} {strict : Bool} {fields : List FieldDecl}
    (hd : Γ.decl n = some (.struct strict fields)) (hdec : HasDecoder Γ n)
    {v : JV} {gs gs' : List GoVal} :
    ((Fills Γ n v (.struct gs) none (.struct gs')) → (∀ fd ∈ fields, KeepsErrors Γ (pointee fd.typ)) →
      Acceptable (jsonNames fields) strict v ∧ gs.length = fields.length ∧ gs'.length = fields.length ∧
      ∀ (i : Nat) (fd : FieldDecl) (old new : GoVal), fields[i]? = some fd → gs[i]? = some old → gs'[i]? = some new →
        FieldResult Γ fd v old new) ∧
    (Acceptable (jsonNames fields) strict v → gs.length = fields.length → gs'.length = fields.length →
      (∀ (i : Nat) (fd : FieldDecl) (old new : GoVal), fields[i]? = some fd → gs[i]? = some old → gs'[i]? = some new →
        FieldResult Γ fd v old new) → Fills Γ n v (.struct gs) none (.struct gs')) := by
  constructor
  · intro h hke
    obtain ⟨gs1, gs1', k, fs, e1, e2, hg, h | h⟩ := fills_struct hd h
    · obtain ⟨h1, h2, _⟩ := h
      exact absurd ((validate_iff _ _ _).1 h2.symm) h1
    · cases e1; cases e2
      obtain ⟨l1, l2, h3⟩ := runFields_ok h.2
      have hl := genFields_length hg
      refine ⟨h.1, by omega, by omega, ?_⟩
      intro i fd old new hi ho hn
      obtain ⟨f, hf, hgen⟩ := genFields_get hg hi
      obtain ⟨g, g', h4, h5, h6⟩ := h3 i f hf
      rw [ho] at h4; cases h4
      rw [hn] at h5; cases h5
      exact (field_step_iff hgen).1 ⟨k, h6⟩ (hke fd (List.mem_of_getElem? hi))
  · intro hacc l1 l2 h
    obtain ⟨d, k, ir, hd', hir⟩ := hdec
    rw [hd] at hd'; cases hd'
    simp only [genFill] at hir
    obtain ⟨fs, hg, _⟩ := Out.bind_eq_ok.1 hir
    have hl := genFields_length hg
    obtain ⟨K, hK⟩ := runFields_of (Γ := Γ) (v := v) fs gs gs' (by omega) (by omega) (by
      intro i f g g' hf h1 h2
      have hi : i < fields.length := by
        rw [← hl]; exact (List.getElem?_eq_some_iff.1 hf).1
      obtain ⟨f', h7, h8⟩ := genFields_get hg (List.getElem?_eq_getElem hi)
      rw [hf] at h7; cases h7
      exact (field_step_iff h8).2 (h i _ g g' (List.getElem?_eq_getElem hi) h1 h2))
    refine ⟨max k K + 1, ?_⟩
    rw [methods_struct hd, genFields_lift (Nat.le_max_left k K) hg]
    have hK' := (runFields_mono (fun n => methods_mono Γ (Nat.le_max_right k K) n) v fs gs).eq_of_ok hK
    simp only [Out.ok_bind, runFill, (validate_iff _ _ _).2 hacc, hK', Out.pure_eq]

end VJ
