import Verif.Proof.Struct

/-!
# A struct decodes field by field: lemmas
-/

set_option linter.unusedSectionVars false

namespace VJ

variable [Ext]

/-- the statements emitted for one field -/
def stepField (M : Nat → Methods) (v : JV) (f : Option FieldFill) (g : GoVal) : Out (Option Err × GoVal) :=
  match f with
  | none => .ok (none, g)
  | some f => runField M f v g

theorem runFields_ok {M : Nat → Methods} {v : JV} : ∀ {fs : List (Option FieldFill)} {gs gs' : List GoVal},
    runFields M v fs gs = .ok (none, gs') →
      gs.length = fs.length ∧ gs'.length = fs.length ∧
      ∀ (i : Nat) (f : Option FieldFill), fs[i]? = some f →
        ∃ g g', gs[i]? = some g ∧ gs'[i]? = some g' ∧ stepField M v f g = .ok (none, g')
  | [], [], gs', h => by
    simp [runFields] at h; subst h; simp
  | [], _ :: _, gs', h => by simp [runFields] at h
  | none :: _, [], gs', h => by simp [runFields] at h
  | some _ :: _, [], gs', h => by simp [runFields] at h
  | none :: fs, g :: gs, gs', h => by
    simp only [runFields] at h
    obtain ⟨⟨e, gs1⟩, h1, h2⟩ := Out.bind_eq_ok.1 h
    simp only [Out.pure_eq, Out.ok.injEq, Prod.mk.injEq] at h2
    obtain ⟨rfl, rfl⟩ := h2
    obtain ⟨l1, l2, ih⟩ := runFields_ok h1
    refine ⟨by simp [l1], by simp [l2], fun i f hf => ?_⟩
    cases i with
    | zero =>
      simp only [List.getElem?_cons_zero, Option.some.injEq] at hf; subst hf
      exact ⟨g, g, by simp, by simp, rfl⟩
    | succ i =>
      simp only [List.getElem?_cons_succ] at hf
      obtain ⟨g1, g1', h3, h4, h5⟩ := ih i f hf
      exact ⟨g1, g1', by simpa using h3, by simpa using h4, h5⟩
  | some f :: fs, g :: gs, gs', h => by
    simp only [runFields] at h
    obtain ⟨⟨e, g1⟩, h1, h2⟩ := Out.bind_eq_ok.1 h
    cases e with
    | some e => simp at h2
    | none =>
      obtain ⟨⟨e, gs1⟩, h3, h4⟩ := Out.bind_eq_ok.1 h2
      simp only [Out.pure_eq, Out.ok.injEq, Prod.mk.injEq] at h4
      obtain ⟨rfl, rfl⟩ := h4
      obtain ⟨l1, l2, ih⟩ := runFields_ok h3
      refine ⟨by simp [l1], by simp [l2], fun i f' hf => ?_⟩
      cases i with
      | zero =>
        simp only [List.getElem?_cons_zero, Option.some.injEq] at hf; subst hf
        exact ⟨g, g1, by simp, by simp, h1⟩
      | succ i =>
        simp only [List.getElem?_cons_succ] at hf
        obtain ⟨g2, g2', h5, h6, h7⟩ := ih i f' hf
        exact ⟨g2, g2', by simpa using h5, by simpa using h6, h7⟩

theorem runFields_err {M : Nat → Methods} {v : JV} {err : Err} : ∀ {fs : List (Option FieldFill)} {gs gs' : List GoVal},
    runFields M v fs gs = .ok (some err, gs') →
      gs'.length = gs.length ∧
      ∃ (i : Nat) (f : FieldFill) (g g' : GoVal), fs[i]? = some (some f) ∧ gs[i]? = some g ∧ gs'[i]? = some g' ∧
        runField M f v g = .ok (some err, g') ∧
        (∀ j, i < j → gs'[j]? = gs[j]?) ∧
        ∀ (j : Nat) (fj : Option FieldFill), j < i → fs[j]? = some fj →
          ∃ g g', gs[j]? = some g ∧ gs'[j]? = some g' ∧ stepField M v fj g = .ok (none, g')
  | [], [], gs', h => by simp [runFields] at h
  | [], _ :: _, gs', h => by simp [runFields] at h
  | none :: _, [], gs', h => by simp [runFields] at h
  | some _ :: _, [], gs', h => by simp [runFields] at h
  | none :: fs, g :: gs, gs', h => by
    simp only [runFields] at h
    obtain ⟨⟨e, gs1⟩, h1, h2⟩ := Out.bind_eq_ok.1 h
    simp only [Out.pure_eq, Out.ok.injEq, Prod.mk.injEq] at h2
    obtain ⟨rfl, rfl⟩ := h2
    obtain ⟨l1, i, f, g1, g1', h3, h4, h5, h6, h7, h8⟩ := runFields_err h1
    refine ⟨by simp [l1], i + 1, f, g1, g1', by simpa using h3, by simpa using h4, by simpa using h5, h6, ?_, ?_⟩
    · intro j hj
      cases j with
      | zero => omega
      | succ j => simpa using h7 j (by omega)
    · intro j fj hj hf
      cases j with
      | zero =>
        simp only [List.getElem?_cons_zero, Option.some.injEq] at hf; subst hf
        exact ⟨g, g, by simp, by simp, rfl⟩
      | succ j =>
        simp only [List.getElem?_cons_succ] at hf
        obtain ⟨a, b, ha, hb, hc⟩ := h8 j fj (by omega) hf
        exact ⟨a, b, by simpa using ha, by simpa using hb, hc⟩
  | some f :: fs, g :: gs, gs', h => by
    simp only [runFields] at h
    obtain ⟨⟨e, g1⟩, h1, h2⟩ := Out.bind_eq_ok.1 h
    cases e with
    | some e =>
      simp only [Out.pure_eq, Out.ok.injEq, Prod.mk.injEq, Option.some.injEq] at h2
      obtain ⟨rfl, rfl⟩ := h2
      refine ⟨by simp, 0, f, g, g1, by simp, by simp, by simp, h1, ?_, ?_⟩
      · intro j hj
        cases j with
        | zero => omega
        | succ j => simp
      · intro j fj hj; omega
    | none =>
      obtain ⟨⟨e, gs1⟩, h3, h4⟩ := Out.bind_eq_ok.1 h2
      simp only [Out.pure_eq, Out.ok.injEq, Prod.mk.injEq] at h4
      obtain ⟨rfl, rfl⟩ := h4
      obtain ⟨l1, i, f', g2, g2', h5, h6, h7, h8, h9, h10⟩ := runFields_err h3
      refine ⟨by simp [l1], i + 1, f', g2, g2', by simpa using h5, by simpa using h6, by simpa using h7, h8, ?_, ?_⟩
      · intro j hj
        cases j with
        | zero => omega
        | succ j => simpa using h9 j (by omega)
      · intro j fj hj hf
        cases j with
        | zero =>
          simp only [List.getElem?_cons_zero, Option.some.injEq] at hf; subst hf
          exact ⟨g, g1, by simp, by simp, h1⟩
        | succ j =>
          simp only [List.getElem?_cons_succ] at hf
          obtain ⟨a, b, ha, hb, hc⟩ := h10 j fj (by omega) hf
          exact ⟨a, b, by simpa using ha, by simpa using hb, hc⟩

/-- Inversion of a struct decode. -/
theorem fills_struct {Γ : Env} {n : Nat} {strict : Bool} {fields : List FieldDecl}
    (hd : Γ.decl n = some (.struct strict fields)) {v : JV} {s s' : GoVal} {e : Option Err}
    (h : Fills Γ n v s e s') :
    ∃ gs gs' k fs, s = .struct gs ∧ s' = .struct gs' ∧ genFields Γ k fields = .ok fs ∧
      ((¬ Acceptable (jsonNames fields) strict v ∧ e = validate (jsonNames fields) strict v ∧ gs' = gs) ∨
       (Acceptable (jsonNames fields) strict v ∧ runFields (Γ.methods k) v fs gs = .ok (e, gs'))) := by
  obtain ⟨k, h⟩ := h
  cases k with
  | zero => simp [Env.methods, Methods.loop] at h
  | succ k =>
    rw [methods_struct hd] at h
    obtain ⟨fs, h1, h2⟩ := Out.bind_eq_ok.1 h
    cases s with
    | struct gs =>
      simp only [runFill] at h2
      cases hv : validate (jsonNames fields) strict v with
      | some e' =>
        rw [hv] at h2
        simp only [Out.ok.injEq, Prod.mk.injEq] at h2
        refine ⟨gs, gs, k, fs, rfl, h2.2.symm, h1, Or.inl ⟨?_, ?_, rfl⟩⟩
        · rw [← validate_iff, hv]; simp
        · exact h2.1.symm
      | none =>
        rw [hv] at h2
        obtain ⟨⟨e', gs'⟩, h3, h4⟩ := Out.bind_eq_ok.1 h2
        simp only [Out.pure_eq, Out.ok.injEq, Prod.mk.injEq] at h4
        obtain ⟨rfl, rfl⟩ := h4
        exact ⟨gs, gs', k, fs, rfl, rfl, h1, Or.inr ⟨(validate_iff _ _ _).1 hv, h3⟩⟩
    | _ => simp [runFill] at h2

theorem acceptable_single {fields : List FieldDecl} {strict : Bool} {v : JV} {fd : FieldDecl}
    (h : Acceptable (jsonNames fields) strict v) (hf : fd ∈ fields) : Acceptable (jsonNames [fd]) false v := by
  obtain ⟨kvs, rfl, h1, h2⟩ := h
  refine ⟨kvs, rfl, ?_, by simp⟩
  intro key hk
  apply h1
  simp [jsonNames] at hk
  subst hk
  exact List.mem_map_of_mem hf

/-- A type with a single field runs exactly the statements of that field. -/
theorem fills_single {Γ : Env} {m : Nat} {fd : FieldDecl} (hm : Γ.decl m = some (.struct false [fd]))
    {v : JV} (hacc : Acceptable (jsonNames [fd]) false v) {k : Nat} {f : Option FieldFill}
    (hf : genFieldFill Γ k fd = .ok f) {g g' : GoVal} {e : Option Err}
    (h : stepField (Γ.methods k) v f g = .ok (e, g')) : Fills Γ m v (.struct [g]) e (.struct [g']) := by
  refine ⟨k + 1, ?_⟩
  rw [methods_struct hm]
  simp only [genFields, hf, Out.ok_bind, Out.pure_eq, runFill]
  rw [(validate_iff _ _ _).2 hacc]
  cases f with
  | none =>
    simp only [stepField, Out.ok.injEq, Prod.mk.injEq] at h
    obtain ⟨rfl, rfl⟩ := h
    rfl
  | some f =>
    simp only [stepField] at h
    simp only [runFields, h, Out.ok_bind]
    cases e <;> rfl

/-- the statements of one field, in a successful decode -/
theorem fills_field {Γ : Env} {n : Nat} {strict : Bool} {fields : List FieldDecl}
    (hd : Γ.decl n = some (.struct strict fields)) {v : JV} {s s' : GoVal}
    (h : Fills Γ n v s none s') {i : Nat} {fd : FieldDecl} (hi : fields[i]? = some fd) :
    ∃ gs gs' k f g g', s = .struct gs ∧ s' = .struct gs' ∧ gs[i]? = some g ∧ gs'[i]? = some g' ∧
      genFieldFill Γ k fd = .ok f ∧ stepField (Γ.methods k) v f g = .ok (none, g') ∧
      Acceptable (jsonNames fields) strict v := by
  obtain ⟨gs, gs', k, fs, rfl, rfl, hg, h | h⟩ := fills_struct hd h
  · obtain ⟨h1, h2, _⟩ := h
    exact absurd ((validate_iff _ _ _).1 h2.symm) h1
  · obtain ⟨f, hf, hgen⟩ := genFields_get hg hi
    obtain ⟨_, _, h3⟩ := runFields_ok h.2
    obtain ⟨g, g', h4, h5, h6⟩ := h3 i f hf
    exact ⟨gs, gs', k, f, g, g', rfl, rfl, h4, h5, hgen, h6, h.1⟩

end VJ
