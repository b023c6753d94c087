import Verif.Proof.TripShape
import Verif.Proof.EncodeElem

/-!
# The members of encoded structs, and structs the document has nothing for
-/

namespace VJ
set_option linter.unusedSectionVars false
set_option linter.unusedSimpArgs false

/-- the members of that name -/
def membersAt (key : Str) (m : List (Str × JV)) : List (Str × JV) := m.filter fun kv => kv.1 = key

theorem lookup_members {key : Str} {m : List (Str × JV)} : JV.lookup key m = (membersAt key m).head?.map (·.2) := by
  induction m with
  | nil => simp [JV.lookup, membersAt]
  | cons kv m ih =>
    obtain ⟨k, v⟩ := kv
    by_cases h : k = key
    · simp [JV.lookup, membersAt, h]
    · simp [JV.lookup, membersAt, h, ih]

theorem get_some {key : Str} {m : List (Str × JV)} {v : JV} (h : membersAt key m = [(key, v)]) : (JV.obj m).get key = some v := by
  simp [JV.get, lookup_members, h]

theorem get_none {key : Str} {m : List (Str × JV)} (h : membersAt key m = []) : (JV.obj m).get key = none := by
  simp [JV.get, lookup_members, h]

theorem membersAt_nil {key : Str} {m : List (Str × JV)} : membersAt key m = [] ↔ ∀ kv ∈ m, kv.1 ≠ key := by
  simp [membersAt, List.filter_eq_nil_iff]

theorem membersAt_flatten {key : Str} : ∀ {ms : List (List (Str × JV))} {i : Nat} {m : List (Str × JV)}, ms[i]? = some m →
    (∀ (j : Nat) (mj : List (Str × JV)), j ≠ i → ms[j]? = some mj → ∀ kv ∈ mj, kv.1 ≠ key) → membersAt key ms.flatten = membersAt key m
  | [], _, _, h, _ => by simp at h
  | m0 :: ms, 0, m, h, ho => by
    simp only [List.getElem?_cons_zero, Option.some.injEq] at h
    subst h
    have : membersAt key ms.flatten = [] := by
      rw [membersAt_nil]
      intro kv hkv
      obtain ⟨mj, hmj, hk⟩ := List.mem_flatten.1 hkv
      obtain ⟨j, hj⟩ := List.getElem?_of_mem hmj
      exact ho (j + 1) mj (by omega) (by simpa using hj) kv hk
    simp only [membersAt, List.flatten_cons, List.filter_append] at *
    rw [this, List.append_nil]
  | m0 :: ms, i + 1, m, h, ho => by
    have h0 : membersAt key m0 = [] := membersAt_nil.2 fun kv hkv => ho 0 m0 (by omega) rfl kv hkv
    have ih := membersAt_flatten (key := key) (ms := ms) (i := i) (m := m) (by simpa using h)
      (fun j mj hj h => ho (j + 1) mj (by omega) (by simpa using h))
    simp only [membersAt, List.flatten_cons, List.filter_append] at *
    rw [h0, ih, List.nil_append]

variable {Γ : Env} {X : Nat → GoVal → Prop} {S : Nat → Prop} {F : Nat → Option GoVal → JV → Prop}

theorem HasName.ne_nil {n : Nat} {key : Str} (h : HasName Γ n key) : key ≠ [] := by
  induction h with
  | own _ _ hn => exact hn
  | embedded _ _ _ _ _ ih => exact ih

theorem FieldName.ne_nil {fd : FieldDecl} {key : Str} (h : FieldName Γ fd key) : key ≠ [] := by
  rcases h with ⟨h, rfl⟩ | ⟨_, m, _, h⟩
  · exact h
  · exact h.ne_nil

theorem FieldName.has {n : Nat} {strict : Bool} {fields : List FieldDecl} {fd : FieldDecl} {key : Str}
    (hd : Γ.decl n = some (.struct strict fields)) (hf : fd ∈ fields) (h : FieldName Γ fd key) : HasName Γ n key := by
  rcases h with ⟨h, rfl⟩ | ⟨hn, m, ht, h⟩
  · exact .own hd hf h
  · exact .embedded hd hf hn ht h

variable [Ext]

/-- the field is one of a struct of the package -/
def FieldOf (Γ : Env) (S : Nat → Prop) (fd : FieldDecl) : Prop :=
  ∃ n strict fields, S n ∧ Γ.decl n = some (.struct strict fields) ∧ fd ∈ fields

theorem FieldIn.of {T : TExpr} {V g : GoVal} {fd : FieldDecl} (h : ∃ e n strict fields gs, ∃ i : Nat, S n ∧ Part Γ T V e (.struct gs) ∧ NameOf e n ∧
    Γ.decl n = some (.struct strict fields) ∧ fields[i]? = some fd ∧ gs[i]? = some g) : FieldOf Γ S fd := by
  obtain ⟨e, n, strict, fields, gs, i, hn, _, _, hd, hf, _⟩ := h
  exact ⟨n, strict, fields, hn, hd, List.mem_of_getElem? hf⟩

/-- only embedded structs have no name -/
theorem fieldKind_named (hR : TripPackage Γ X F S) {fd : FieldDecl} (hf : FieldOf Γ S fd) {k : EKind} (hk : FieldKind Γ fd.typ k)
    (hn : ∀ n, k ≠ .method n) : fd.tags.jsonName ≠ [] := by
  intro he
  obtain ⟨n, strict, fields, hs, hd, hm⟩ := hf
  obtain ⟨m, fields', ht, hd'⟩ := (hR.named n strict fields fd hs hd hm).2 he
  rw [ht] at hk
  have his : ∀ {u : TExpr}, Is Γ (.named m) u → u = .named m := by
    intro u h
    cases h with
    | self => rfl
    | named h => rw [hd'] at h; cases h
  cases hk with
  | scalar h =>
    cases h with
    | named h => rw [hd'] at h; cases h
  | namedPtr h => rw [hd'] at h; cases h
  | timePtr h => cases his h
  | method h => exact hn _ rfl
  | map h => cases his h
  | slice h => cases his h
  | array h => cases his h
  | bytes h => cases his h
  | fixedBytes h => cases his h

/-- the members are named after the fields -/
def Keys (Γ : Env) (S : Nat → Prop) : Place → JV → Prop
  | .decl n, jv => ∀ strict fields m, S n → Γ.decl n = some (.struct strict fields) → jv = .obj m → ∀ kv ∈ m, HasName Γ n kv.1
  | .field fd, jv => FieldOf Γ S fd → ∀ m, jv = .obj m → (∀ kv ∈ m, FieldName Γ fd kv.1) ∧ (fd.tags.jsonName ≠ [] → m.length ≤ 1)
  | _, _ => True

theorem keys_single (hR : TripPackage Γ X F S) {fd : FieldDecl} {k : EKind} {jv : JV} (hk : FieldKind Γ fd.typ k)
    (hn : (∀ n, k ≠ .method n) ∨ fd.tags.jsonName ≠ []) : Keys Γ S (.field fd) (.obj [(fd.tags.jsonName, jv)]) := by
  intro hf m hm
  cases hm
  have : fd.tags.jsonName ≠ [] := by
    rcases hn with hn | hn
    · exact fieldKind_named hR hf hk hn
    · exact hn
  exact ⟨fun kv hkv => by simp only [List.mem_singleton] at hkv; subst hkv; exact .inl ⟨this, rfl⟩, fun _ => by simp⟩

theorem enc_keys (hP : Package Γ X S) (hR : TripPackage Γ X F S) {pl : Place} {v : GoVal} {jv : JV} (h : Enc Γ F pl v jv) : Keys Γ S pl jv := by
  have hfal : ∀ {n : Nat} {d : Decl} {jv : JV}, Γ.decl n = some d → (∀ strict fields, d ≠ .struct strict fields) → Keys Γ S (.decl n) jv :=
    fun hd h strict fields m _ hd' _ => by rw [hd] at hd'; cases hd'; exact absurd rfl (h _ _)
  induction h with
  | foreign hd => intro strict fields m _ hd'; rw [hd] at hd'; cases hd'
  | @struct n strict fields gs ms hd hl hm h ih =>
    intro strict' fields' m hn hd' hj kv hkv
    rw [hd] at hd'; cases hd'
    cases hj
    obtain ⟨mj, hmj, hk⟩ := List.mem_flatten.1 hkv
    obtain ⟨j, hj⟩ := List.getElem?_of_mem hmj
    have hjl : j < fields.length := by rw [← hm]; exact (List.getElem?_eq_some_iff.1 hj).1
    have hf : fields[j]? = some fields[j] := List.getElem?_eq_getElem hjl
    have hg : gs[j]? = some (gs[j]'(by omega)) := List.getElem?_eq_getElem (by omega)
    have := ((ih j _ _ mj hf hg hj ⟨n, strict, fields, hn, hd, List.mem_of_getElem? hf⟩ mj rfl).1 kv hk)
    exact this.has hd (List.mem_of_getElem? hf)
  | namedScalar hd => exact hfal hd (by simp)
  | namedTime hd => exact hfal hd (by simp)
  | namedUUID _ hd => exact hfal hd (by simp)
  | namedNil hd => exact hfal hd (by simp)
  | namedBytes _ hd => exact hfal hd (by simp)
  | namedFixed _ hd => exact hfal hd (by simp)
  | namedList hd => exact hfal hd (by simp)
  | namedMap hd => exact hfal hd (by simp)
  | namedName hd => exact hfal hd (by simp)
  | omitted => intro _ m hm; cases hm; simp
  | empty hk hv ho h =>
    refine keys_single hR hk (.inl ?_)
    intro n hn
    subst hn
    cases h with
    | null _ h => exact h.2.2.2 n rfl
  | scalarField hk => exact keys_single hR hk (.inl (by simp))
  | ptrField hk => exact keys_single hR hk (.inl (by simp))
  | ptr2Field hk => exact keys_single hR hk (.inl (by simp))
  | timeField hk => exact keys_single hR hk (.inl (by simp))
  | timePtrField hk => exact keys_single hR hk (.inl (by simp))
  | uuidField hk => exact keys_single hR hk (.inl (by simp))
  | uuidPtrField hk => exact keys_single hR hk (.inl (by simp))
  | methodField hk hn => exact keys_single hR hk (.inr hn)
  | methodPtrField hk => exact keys_single hR hk (.inl (by simp))
  | @spliced fd n v kvs hk hn hz h ih =>
    intro hf m hm
    cases hm
    obtain ⟨n', strict, fields, hs, hd, hmem⟩ := hf
    obtain ⟨m, fields', ht, hd'⟩ := (hR.named n' strict fields fd hs hd hmem).2 hn
    have hnm : n = m := by
      rw [ht] at hk
      cases hk with
      | method h =>
        cases h with
        | struct => rfl
        | named h => rw [hd'] at h; cases h
    subst hnm
    have hS : S n := (hP.field hs hd hmem).names n (by rw [ht]; simp [TExpr.names])
    exact ⟨fun kv hkv => .inr ⟨hn, n, ht, ih _ _ _ hS hd' rfl kv hkv⟩, fun h => absurd hn h⟩
  | mapField hk => exact keys_single hR hk (.inl (by simp))
  | listField hk => exact keys_single hR hk (.inl (by simp))
  | bytesField hk => exact keys_single hR hk (.inl (by simp))
  | fixedField hk => exact keys_single hR hk (.inl (by simp))
  | _ => trivial

/-! ### structs the document has nothing for -/

theorem struct_noPrim {m : Nat} {strict : Bool} {fields : List FieldDecl} (hd : Γ.decl m = some (.struct strict fields)) (p : Prim) :
    ¬ IsPrim Γ (.named m) p := by
  intro h
  cases h with
  | named h => rw [hd] at h; cases h

/-- An embedded struct keeps its zero value if the document has none of its members. -/
theorem zero_skips (hP : Package Γ X S) (hR : TripPackage Γ X F S) {m : Nat} {fields : List FieldDecl} (hm : S m)
    (hd : Γ.decl m = some (.struct false fields)) (hemb : Embedded Γ S m) {doc : List (Str × JV)} (hne : ∀ kv ∈ doc, kv.1 ≠ [])
    (hno : ∀ key, HasName Γ m key → membersAt key doc = []) {z : GoVal} (hz : ZeroIs Γ m z) : Fills Γ m (.obj doc) z none z := by
  obtain ⟨rank, hr⟩ := hP.acyclic
  induction hk : rank m using Nat.strongRecOn generalizing m fields z with
  | _ r ih =>
    obtain ⟨zs, rfl, hl, hzs⟩ := (zeroIs_struct hd).1 hz
    refine (struct_iff hd (hP.decoders m hm (by rw [hd]; simp))).2 ⟨doc, rfl, ?_, by simp⟩ hl hl ?_
    · intro key hkey
      obtain ⟨fd, hf, rfl⟩ := List.mem_map.1 hkey
      have : membersAt fd.tags.jsonName doc = [] := by
        by_cases hj : fd.tags.jsonName = []
        · rw [hj, membersAt_nil]; exact hne
        · exact hno _ (.own hd hf hj)
      have h0 : occurrences fd.tags.jsonName doc = (membersAt fd.tags.jsonName doc).length := rfl
      show occurrences fd.tags.jsonName doc ≤ 1
      rw [h0, this]; simp
    · intro i fd old new hi ho hn
      rw [ho] at hn; cases hn
      have hf := List.mem_of_getElem? hi
      have hzo := hzs i fd old hi ho
      have hnm := hR.named m false fields fd hm hd hf
      by_cases hj : fd.tags.jsonName = []
      · obtain ⟨m', fields', ht, hd'⟩ := hnm.2 hj
        have hS : S m' := (hP.field hm hd hf).names m' (by rw [ht]; simp [TExpr.names])
        have hlt : rank m' < rank m := by
          refine hr m _ m' hm hd ?_
          simp only [Decl.inner, List.mem_flatMap]
          exact ⟨fd, hf, by rw [ht]; simp [TExpr.inline]⟩
        rw [ht] at hzo
        have := ih (rank m') (by omega) hS hd' ⟨m, false, fields, fd, hm, hd, hf, hj, ht⟩
          (fun key hkey => hno key (.embedded hd hf hj ht hkey)) ((zeroOf_name (.named _)).1 hzo) rfl
        refine .decoded hnm.1 (.inl ⟨hj, rfl⟩) (by simp) ?_ (notTooLarge_other ?_)
        · rw [ht]; exact .call (.struct hd') this
        · rw [ht]; exact struct_noPrim hd'
      · have hal := hR.always m false fields fd hm hd hf
        refine .kept hnm.1 (.inl ⟨hj, get_none (hno _ (.own hd hf hj))⟩) ?_ ?_
        · by_cases h : fd.tags.dflt = []
          · exact h
          · exact absurd hemb (hal (.inl h)).2.2
        · cases h : fd.tags.required
          · rfl
          · exact absurd hemb (hal (.inr h)).2.2

end VJ
