import Verif.Proof.StructIff
import Verif.Spec.Evolve

/-!
# Two versions of a struct type: proofs
-/

namespace VJ
set_option linter.unusedSectionVars false

section
variable [Ext]

theorem genFieldFill_lift {Γ : Env} {k K : Nat} (hk : k ≤ K) {fd : FieldDecl} {f : Option FieldFill}
    (h : genFieldFill Γ k fd = .ok f) : genFieldFill Γ K fd = .ok f := by
  induction hk with
  | refl => exact h
  | step _ ih => exact (genFieldFill_mono Γ _ fd).eq_of_ok ih

theorem genFieldFill_unique {Γ : Env} {k K : Nat} {fd : FieldDecl} {f f' : Option FieldFill}
    (h : genFieldFill Γ k fd = .ok f) (h' : genFieldFill Γ K fd = .ok f') : f = f' := by
  have a := genFieldFill_lift (Nat.le_max_left k K) h
  have b := genFieldFill_lift (Nat.le_max_right k K) h'
  rw [a] at b
  exact Out.ok.inj b

theorem genFields_of {Γ : Env} : ∀ {fds : List FieldDecl}, (∀ fd ∈ fds, ∃ K f, genFieldFill Γ K fd = .ok f) →
    ∃ K fs, genFields Γ K fds = .ok fs
  | [], _ => ⟨0, [], rfl⟩
  | fd :: fds, h => by
    obtain ⟨K1, f, h1⟩ := h fd (by simp)
    obtain ⟨K2, fs, h2⟩ := genFields_of (fds := fds) fun x hx => h x (by simp [hx])
    refine ⟨max K1 K2, f :: fs, ?_⟩
    simp only [genFields, genFieldFill_lift (Nat.le_max_left K1 K2) h1, genFields_lift (Nat.le_max_right K1 K2) h2,
      Out.ok_bind, Out.pure_eq]

/-- A struct is decoded when the document is acceptable and each of its fields is. -/
theorem fills_of_steps {Γ : Env} {n : Nat} {strict : Bool} {fields : List FieldDecl}
    (hd : Γ.decl n = some (.struct strict fields)) {v : JV} (hacc : Acceptable (jsonNames fields) strict v)
    {gs gs' : List GoVal} (hl : gs.length = fields.length) (hl' : gs'.length = fields.length)
    (h : ∀ (i : Nat) fd g g', fields[i]? = some fd → gs[i]? = some g → gs'[i]? = some g' →
      ∃ K f, genFieldFill Γ K fd = .ok f ∧ stepField (Γ.methods K) v f g = .ok (none, g')) :
    Fills Γ n v (.struct gs) none (.struct gs') := by
  obtain ⟨k, fs, hg⟩ := genFields_of (Γ := Γ) (fds := fields) fun fd hfd => by
    obtain ⟨i, hi, rfl⟩ := List.mem_iff_getElem.1 hfd
    obtain ⟨K, f, h1, _⟩ := h i _ (gs[i]'(by omega)) (gs'[i]'(by omega)) (List.getElem?_eq_getElem hi)
      (List.getElem?_eq_getElem _) (List.getElem?_eq_getElem _)
    exact ⟨K, f, h1⟩
  have hlf := genFields_length hg
  obtain ⟨K, hK⟩ := runFields_of (Γ := Γ) (v := v) fs gs gs' (by omega) (by omega) (by
    intro i f g g' hf h1 h2
    have hi : i < fields.length := by
      rw [← hlf]; exact (List.getElem?_eq_some_iff.1 hf).1
    obtain ⟨f', h7, h8⟩ := genFields_get hg (List.getElem?_eq_getElem hi)
    rw [hf] at h7; cases h7
    obtain ⟨K, f', h9, h10⟩ := h i _ g g' (List.getElem?_eq_getElem hi) h1 h2
    obtain rfl := genFieldFill_unique h8 h9
    exact ⟨K, h10⟩)
  refine ⟨max k K + 1, ?_⟩
  rw [methods_struct hd, genFields_lift (Nat.le_max_left k K) hg]
  have hK' := (runFields_mono (fun n => methods_mono Γ (Nat.le_max_right k K) n) v fs gs).eq_of_ok hK
  simp only [Out.ok_bind, runFill, (validate_iff _ _ _).2 hacc, hK', Out.pure_eq]

/-- what a decode leaves in a list of fields, taken from another list -/
theorem exists_fields (len : Nat) (f : Nat → Option GoVal) (h : ∀ i, i < len → ∃ g, f i = some g) :
    ∃ gs : List GoVal, gs.length = len ∧ ∀ i, i < len → gs[i]? = f i := by
  refine ⟨(List.range len).map fun i => (f i).getD .nil, by simp, ?_⟩
  intro i hi
  obtain ⟨g, hg⟩ := h i hi
  simp [hi, hg]

/-- the lengths in a successful decode -/
theorem fills_lengths {Γ : Env} {n : Nat} {strict : Bool} {fields : List FieldDecl} (hd : Γ.decl n = some (.struct strict fields))
    {v : JV} {gs gs' : List GoVal} (h : Fills Γ n v (.struct gs) none (.struct gs')) :
    Acceptable (jsonNames fields) strict v ∧ gs.length = fields.length ∧ gs'.length = fields.length := by
  obtain ⟨gs1, gs1', k, fs, e1, e2, hg, h | h⟩ := fills_struct hd h
  · obtain ⟨h1, h2, _⟩ := h
    exact absurd ((validate_iff _ _ _).1 h2.symm) h1
  · cases e1; cases e2
    obtain ⟨l1, l2, _⟩ := runFields_ok h.2
    have hl := genFields_length hg
    exact ⟨h.1, by omega, by omega⟩

/-- the statements of a field the document has nothing for -/
theorem step_optional {Γ : Env} {k : Nat} {fd : FieldDecl} {f : Option FieldFill} (hg : genFieldFill Γ k fd = .ok f) {v : JV}
    (ho : Optional fd v) (g : GoVal) : ∃ g', stepField (Γ.methods k) v f g = .ok (none, g') := by
  obtain ⟨h1, h2, h3⟩ := ho
  cases f with
  | none => exact ⟨g, rfl⟩
  | some f =>
    obtain ⟨hj, hdash, _⟩ := genFieldFill_some hg
    have hrun : runField (Γ.methods k) f v g = (match f.dflt with
        | .nothing => .ok (none, g)
        | .required => .ok (some (newParsingError f.json (.plain (.required f.json))), g)
        | .value d _ => .ok (none, d)) := by
      unfold runField
      simp only [hj, h1, if_false, h2]
      cases f.dflt <;> simp
    simp only [stepField, hrun]
    rcases ifDefault_cases hg with ⟨_, _, h⟩ | ⟨hdf, hrq, h⟩ | ⟨_, d, oa, h, _⟩
    · exact ⟨g, by rw [h]⟩
    · rcases h3 with h3 | h3 | h3
      · exact absurd h3 hdash
      · exact absurd hdf h3
      · rw [hrq] at h3; cases h3
    · exact ⟨d, by rw [h]⟩

end

end VJ
