import Verif.Spec.Updates
import Verif.Proof.StructIff

/-!
# Documents that are applied one after the other: lemmas
-/

set_option linter.unusedSectionVars false

namespace VJ

theorem NoCommonKey.symm {a b : List (Str × JV)} (h : NoCommonKey a b) : NoCommonKey b a :=
  fun kv h1 kv' h2 he => h kv' h2 kv h1 he.symm

theorem lookup_mem : ∀ {l : List (Str × JV)} {key : Str} {v : JV}, JV.lookup key l = some v → (key, v) ∈ l
  | (k, w) :: l, key, v, h => by
    simp only [JV.lookup] at h
    split at h
    · rename_i hk; cases h; subst hk; exact List.mem_cons_self
    · exact List.mem_cons_of_mem _ (lookup_mem h)

theorem lookup_append (a b : List (Str × JV)) (key : Str) : JV.lookup key (a ++ b) = (JV.lookup key a).or (JV.lookup key b) := by
  induction a with
  | nil => simp [JV.lookup]
  | cons x a ih =>
    obtain ⟨k, v⟩ := x
    simp only [List.cons_append, JV.lookup]
    split <;> simp [ih]

theorem occurrences_append (a b : List (Str × JV)) (key : Str) : occurrences key (a ++ b) = occurrences key a + occurrences key b := by
  simp [occurrences]

theorem occurrences_pos {l : List (Str × JV)} {key : Str} (h : 0 < occurrences key l) : ∃ kv ∈ l, kv.1 = key := by
  obtain ⟨kv, hm⟩ := List.exists_mem_of_length_pos h
  rw [List.mem_filter] at hm
  exact ⟨kv, hm.1, by simpa using hm.2⟩

theorem acceptable_append {names : List Str} {strict : Bool} {a b : List (Str × JV)} (h : NoCommonKey a b) :
    Acceptable names strict (.obj (a ++ b)) ↔ Acceptable names strict (.obj a) ∧ Acceptable names strict (.obj b) := by
  constructor
  · rintro ⟨kvs, h0, h1, h2⟩
    cases h0
    refine ⟨⟨a, rfl, fun key hk => ?_, fun hs kv hm => h2 hs kv (List.mem_append_left _ hm)⟩,
      ⟨b, rfl, fun key hk => ?_, fun hs kv hm => h2 hs kv (List.mem_append_right _ hm)⟩⟩ <;>
    · have := h1 key hk
      rw [occurrences_append] at this
      omega
  · rintro ⟨⟨_, ha, h1, h2⟩, ⟨_, hb, h3, h4⟩⟩
    cases ha; cases hb
    refine ⟨_, rfl, fun key hk => ?_, fun hs kv hm => ?_⟩
    · rw [occurrences_append]
      have h5 := h1 key hk
      have h6 := h3 key hk
      by_cases hz : occurrences key a = 0
      · omega
      · by_cases hz' : occurrences key b = 0
        · omega
        · obtain ⟨x, hx, hxk⟩ := occurrences_pos (Nat.pos_of_ne_zero hz)
          obtain ⟨y, hy, hyk⟩ := occurrences_pos (Nat.pos_of_ne_zero hz')
          exact absurd (hxk.trans hyk.symm) (h x hx y hy)
    · rcases List.mem_append.1 hm with hm | hm
      · exact h2 hs kv hm
      · exact h4 hs kv hm

variable [Ext]

/-- a run of the fields on `c` is a run on `a` followed by a run on `b`, if it is so for each field -/
theorem runFields_two {M : Nat → Methods} {a b c : JV} : ∀ {fs : List (Option FieldFill)},
    (∀ f, some f ∈ fs → ∀ g g2, runField M f c g = .ok (none, g2) ↔
      ∃ g1, runField M f a g = .ok (none, g1) ∧ runField M f b g1 = .ok (none, g2)) →
    ∀ {gs gs2 : List GoVal}, runFields M c fs gs = .ok (none, gs2) ↔
      ∃ gs1, runFields M a fs gs = .ok (none, gs1) ∧ runFields M b fs gs1 = .ok (none, gs2)
  | [], _, [], gs2 => by
    simp only [runFields, Out.ok.injEq, Prod.mk.injEq, true_and]
    constructor
    · rintro rfl; exact ⟨[], rfl, by simp [runFields]⟩
    · rintro ⟨_, rfl, h⟩; simpa [runFields] using h
  | [], _, _ :: _, gs2 => by simp [runFields]
  | none :: _, _, [], gs2 => by simp [runFields]
  | some _ :: _, _, [], gs2 => by simp [runFields]
  | none :: fs, h, g :: gs, gs2 => by
    have ih := fun gs gs2 => runFields_two (fs := fs) (fun f hf => h f (by simp [hf])) (gs := gs) (gs2 := gs2)
    simp only [runFields, Out.bind_eq_ok, Out.pure_eq, Out.ok.injEq, Prod.mk.injEq]
    constructor
    · rintro ⟨⟨e, r⟩, h1, rfl, rfl⟩
      obtain ⟨gs1, h2, h3⟩ := (ih _ _).1 h1
      refine ⟨g :: gs1, ⟨_, h2, rfl, rfl⟩, ?_⟩
      simp [runFields, h3]
    · rintro ⟨gs1, ⟨⟨e, r⟩, h1, rfl, rfl⟩, h2⟩
      simp only [runFields] at h2
      obtain ⟨⟨e, r'⟩, h3, h4⟩ := Out.bind_eq_ok.1 h2
      simp only [Out.pure_eq, Out.ok.injEq, Prod.mk.injEq] at h4
      obtain ⟨rfl, rfl⟩ := h4
      exact ⟨_, (ih _ _).2 ⟨_, h1, h3⟩, rfl, rfl⟩
  | some f :: fs, h, g :: gs, gs2 => by
    have ih := fun gs gs2 => runFields_two (fs := fs) (fun f hf => h f (by simp [hf])) (gs := gs) (gs2 := gs2)
    have hf := h f (by simp)
    constructor
    · intro hr
      simp only [runFields] at hr
      obtain ⟨⟨e, g2⟩, h1, h2⟩ := Out.bind_eq_ok.1 hr
      cases e with
      | some e => simp at h2
      | none =>
        obtain ⟨⟨e, r⟩, h3, h4⟩ := Out.bind_eq_ok.1 h2
        simp only [Out.pure_eq, Out.ok.injEq, Prod.mk.injEq] at h4
        obtain ⟨rfl, rfl⟩ := h4
        obtain ⟨g1, h5, h6⟩ := (hf _ _).1 h1
        obtain ⟨gs1, h7, h8⟩ := (ih _ _).1 h3
        exact ⟨g1 :: gs1, by simp [runFields, h5, h7], by simp [runFields, h6, h8]⟩
    · rintro ⟨gs1, h1, h2⟩
      simp only [runFields] at h1
      obtain ⟨⟨e, g1⟩, h3, h1⟩ := Out.bind_eq_ok.1 h1
      cases e with
      | some e => simp at h1
      | none =>
        obtain ⟨⟨e, r⟩, h4, h1⟩ := Out.bind_eq_ok.1 h1
        simp only [Out.pure_eq, Out.ok.injEq, Prod.mk.injEq] at h1
        obtain ⟨rfl, rfl⟩ := h1
        simp only [runFields] at h2
        obtain ⟨⟨e, g2⟩, h5, h2⟩ := Out.bind_eq_ok.1 h2
        cases e with
        | some e => simp at h2
        | none =>
          obtain ⟨⟨e, r'⟩, h6, h2⟩ := Out.bind_eq_ok.1 h2
          simp only [Out.pure_eq, Out.ok.injEq, Prod.mk.injEq] at h2
          obtain ⟨rfl, rfl⟩ := h2
          simp [runFields, (hf _ _).2 ⟨_, h3, h5⟩, (ih _ _).2 ⟨_, h4, h6⟩]

/-- a field whose member is not in the document keeps its value -/
theorem runField_absent {M : Nat → Methods} {f : FieldFill} (hd : f.dflt = .nothing) (hj : f.json ≠ []) {v : JV}
    (h : v.get f.json = none) (g : GoVal) : runField M f v g = .ok (none, g) := by
  simp [runField, hj, h, hd]

/-- an embedded struct is decoded by its own method -/
theorem runField_embedded {Γ : Env} {M : Nat → Methods} {k : Nat} {fd : FieldDecl} {f : FieldFill} {m : Nat}
    {st : Bool} {fs : List FieldDecl} (hd : Γ.decl m = some (.struct st fs)) (ht : fd.typ = .named m)
    (h : genFieldFill Γ k fd = .ok (some f)) (hne : fd.tags.jsonName = []) {v : JV} {g g' : GoVal} :
    runField M f v g = .ok (none, g') ↔ (M m).fill v g = .ok (none, g') := by
  have hj := (genFieldFill_some h).1
  obtain ⟨hx, hst, hnl, hck, hmx⟩ := genFieldFill_embedded hd ht h
  unfold runField
  rw [hj, hne, hx, hst, hnl, hck, hmx]
  simp only [if_true, Bool.false_and, Bool.false_eq_true, if_false, runExtr, fillT]
  cases h3 : (M m).fill v g with
  | ok p =>
    obtain ⟨e, w⟩ := p
    cases e <;> simp [storeField]
  | _ => simp

theorem fill_two {Γ : Env} {S : Nat → Prop} (hS : UpdateSet Γ S) {a b : List (Str × JV)} (hab : NoCommonKey a b) :
    ∀ (k n : Nat) (s s2 : GoVal), S n → ((Γ.methods k n).fill (.obj (a ++ b)) s = .ok (none, s2) ↔
      ∃ s1, (Γ.methods k n).fill (.obj a) s = .ok (none, s1) ∧ (Γ.methods k n).fill (.obj b) s1 = .ok (none, s2)) := by
  intro k
  induction k with
  | zero => intro n s s2 _; simp [Env.methods, Methods.loop]
  | succ k ih =>
    intro n s s2 hn
    obtain ⟨strict, fields, hd, hemb⟩ := hS.embedding n hn
    simp only [methods_struct hd]
    cases hg : genFields Γ k fields with
    | ok fs =>
      simp only [Out.ok_bind]
      have hrun : ∀ (v : JV) (s s' : GoVal), runFill (Γ.methods k) (.struct (jsonNames fields) strict fs) v s = .ok (none, s') ↔
          Acceptable (jsonNames fields) strict v ∧ ∃ gs gs', s = .struct gs ∧ s' = .struct gs' ∧ runFields (Γ.methods k) v fs gs = .ok (none, gs') := by
        intro v s s'
        cases s with
        | struct gs =>
          simp only [runFill]
          rw [← validate_iff]
          cases validate (jsonNames fields) strict v with
          | some e => simp
          | none =>
            simp only [true_and, Out.bind_eq_ok, Out.pure_eq, Out.ok.injEq, Prod.mk.injEq]
            constructor
            · rintro ⟨⟨e, r⟩, h1, rfl, rfl⟩; exact ⟨gs, r, rfl, rfl, h1⟩
            · rintro ⟨gs', r, h1, rfl, h2⟩; cases h1; exact ⟨_, h2, rfl, rfl⟩
        | _ => simp [runFill]
      have hfields : ∀ f, some f ∈ fs → ∀ g g2, runField (Γ.methods k) f (.obj (a ++ b)) g = .ok (none, g2) ↔
          ∃ g1, runField (Γ.methods k) f (.obj a) g = .ok (none, g1) ∧ runField (Γ.methods k) f (.obj b) g1 = .ok (none, g2) := by
        intro f hf g g2
        obtain ⟨fd, hfd, hgen⟩ := genFields_mem hg hf
        have hj := (genFieldFill_some hgen).1
        by_cases hne : fd.tags.jsonName = []
        · obtain ⟨m, ht, hSm⟩ := hemb fd hfd hne
          obtain ⟨st, fs', hdm, _⟩ := hS.embedding m hSm
          simp only [runField_embedded hdm ht hgen hne]
          exact ih m g g2 hSm
        · have hopt := hS.optional n strict fields fd hn hd hfd
          have hdf : f.dflt = .nothing := by
            rcases ifDefault_cases hgen with ⟨_, _, h⟩ | ⟨_, h, _⟩ | ⟨h, _⟩
            · exact h
            · rw [hopt.1] at h; cases h
            · exact absurd hopt.2 h
          have hne' : f.json ≠ [] := by rw [hj]; exact hne
          have hap := lookup_append a b f.json
          cases hla : JV.lookup f.json a with
          | none =>
            rw [hla, Option.none_or] at hap
            rw [runField_absent hdf hne' (v := .obj a) hla, runField_congr (v := .obj (a ++ b)) (v' := .obj b) hne' hap]
            simp
          | some w =>
            have hlb : JV.lookup f.json b = none := by
              cases hlb : JV.lookup f.json b with
              | none => rfl
              | some w' => exact absurd rfl (hab (f.json, w) (lookup_mem hla) (f.json, w') (lookup_mem hlb))
            rw [hla, Option.some_or] at hap
            rw [runField_congr (v := .obj (a ++ b)) (v' := .obj a) hne' (hap.trans hla.symm)]
            simp only [runField_absent hdf hne' (v := .obj b) hlb]
            simp
      simp only [hrun, acceptable_append hab]
      constructor
      · rintro ⟨⟨h1, h2⟩, gs, gs2, rfl, rfl, h3⟩
        obtain ⟨gs1, h4, h5⟩ := (runFields_two hfields).1 h3
        exact ⟨.struct gs1, ⟨h1, gs, gs1, rfl, rfl, h4⟩, h2, gs1, gs2, rfl, rfl, h5⟩
      · rintro ⟨s1, ⟨h1, gs, gs1, rfl, rfl, h4⟩, h2, gs1', gs2, h, rfl, h5⟩
        cases h
        exact ⟨⟨h1, h2⟩, gs, gs2, rfl, rfl, (runFields_two hfields).2 ⟨_, h4, h5⟩⟩
    | _ => simp

end VJ
