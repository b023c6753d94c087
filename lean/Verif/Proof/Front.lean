import Verif.Spec.Front
import Verif.Props.Tags

/-!
# Facts about the front end
-/

namespace VJ

/-! ## Looking up declarations -/

theorem getDecl_spec {v : Visitor} {n d} (h : v.getDecl n = some d) :
    d ∈ v.decls ∧ d.spec.name = n := by
  refine ⟨List.mem_of_find?_eq_some h, ?_⟩
  have := List.find?_some h
  simpa using this

theorem mem_visit {file d} : d ∈ visit file ↔ ∃ t ∈ file, d.spec ∈ t.specs ∧
    (d.tags = extractTags t.doc ∨ d.tags = extractTags d.spec.doc) := by
  simp only [visit, List.mem_flatMap, List.mem_append, List.mem_map]
  constructor
  · rintro ⟨t, ht, ⟨s, hs, rfl⟩ | ⟨s, hs, rfl⟩⟩
    · exact ⟨t, ht, hs, .inl rfl⟩
    · exact ⟨t, ht, hs, .inr rfl⟩
  · rintro ⟨t, ht, hs, h | h⟩
    · exact ⟨t, ht, .inl ⟨d.spec, hs, by cases d; simp_all⟩⟩
    · exact ⟨t, ht, .inr ⟨d.spec, hs, by cases d; simp_all⟩⟩

theorem find_map_specs {specs : List TypeSpec} {tags : List Str} {s : TypeSpec}
    (hn : (specs.map TypeSpec.name).Nodup) (hs : s ∈ specs) (rest : List TaggedDecl) :
    (specs.map (fun s => (⟨s, tags⟩ : TaggedDecl)) ++ rest).find?
      (fun d => decide (d.spec.name = s.name)) = some ⟨s, tags⟩ := by
  induction specs with
  | nil => cases hs
  | cons t ts ih =>
    simp only [List.map_cons, List.nodup_cons, List.mem_map, not_exists, not_and] at hn
    rcases List.mem_cons.1 hs with rfl | hs
    · simp
    · have : t.name ≠ s.name := fun h => hn.1 s hs h.symm
      simp only [List.map_cons, List.cons_append, List.find?_cons, this, decide_false]
      exact ih hn.2 hs

theorem find_none_specs {specs : List TypeSpec} {f : TypeSpec → List Str} {n : Str}
    (hs : n ∉ specs.map TypeSpec.name) (rest : List TaggedDecl) :
    (specs.map (fun s => (⟨s, f s⟩ : TaggedDecl)) ++ rest).find?
      (fun d => decide (d.spec.name = n)) = rest.find? (fun d => decide (d.spec.name = n)) := by
  induction specs with
  | nil => rfl
  | cons t ts ih =>
    simp only [List.map_cons, List.mem_cons, not_or] at hs
    simp only [List.map_cons, List.cons_append, List.find?_cons, Ne.symm hs.1, decide_false]
    exact ih hs.2

/-- With distinct names, a declared type is found, with the tags of its declaration. -/
theorem getDecl_declared {file : List TypeDecl} {over doc s} (hd : DistinctTypes file)
    (hs : Declares file doc s) :
    (⟨over, visit file⟩ : Visitor).getDecl s.name = some ⟨s, extractTags doc⟩ := by
  obtain ⟨d, hd', rfl, hs⟩ := hs
  simp only [Visitor.getDecl]
  induction file with
  | nil => cases hd'
  | cons t ts ih =>
    simp only [DistinctTypes, List.flatMap_cons, List.nodup_append] at hd
    simp only [visit, List.flatMap_cons, List.append_assoc]
    rcases List.mem_cons.1 hd' with rfl | hd'
    · exact find_map_specs hd.1 hs _
    · have hne : s.name ∉ t.specs.map TypeSpec.name := by
        intro h
        exact hd.2.2 _ h s.name (List.mem_flatMap.2 ⟨d, hd', List.mem_map.2 ⟨s, hs, rfl⟩⟩) rfl
      rw [find_none_specs hne, find_none_specs hne]
      exact ih hd.2.1 hd'

theorem declared_unique {file : List TypeDecl} {doc s doc' s'} (hd : DistinctTypes file)
    (h : Declares file doc s) (h' : Declares file doc' s') (hn : s.name = s'.name) :
    s = s' ∧ extractTags doc = extractTags doc' := by
  have h1 := getDecl_declared (over := none) hd h
  rw [hn, getDecl_declared hd h'] at h1
  simp only [Option.some.injEq, TaggedDecl.mk.injEq] at h1
  exact ⟨h1.1.symm, h1.2.symm⟩

theorem getDecl_inv {file : List TypeDecl} {over n d} (hd : DistinctTypes file)
    (h : (⟨over, visit file⟩ : Visitor).getDecl n = some d) :
    ∃ doc, Declares file doc d.spec ∧ d.spec.name = n ∧ d.tags = extractTags doc := by
  obtain ⟨hm, hn⟩ := getDecl_spec h
  obtain ⟨t, ht, hs, _⟩ := mem_visit.1 hm
  have hdec : Declares file t.doc d.spec := ⟨t, ht, rfl, hs⟩
  have := getDecl_declared (over := over) hd hdec
  rw [hn, h] at this
  refine ⟨t.doc, hdec, hn, ?_⟩
  exact congrArg TaggedDecl.tags (Option.some.inj this)

/-! ## Inlining -/

theorem seenFrom_iff {over f f'} : SeenFrom over f f' ↔ f' = qualify over f := by
  constructor
  · intro h
    cases h with
    | inside => simp [qualify]
    | qualified h1 h2 => simp [qualify, h1, h2]
    | same h =>
      simp only [qualify]
      split
      · rename_i p c n hp ht
        rw [if_neg]
        rw [h c n ht]
        simp
      · rfl
  · rintro rfl
    cases over with
    | none => simp only [qualify]; exact .inside
    | some p =>
      simp only [qualify]
      split
      · rename_i q c n hp ht
        cases hp
        split
        · rename_i hu; exact .qualified ht hu
        · rename_i hu
          refine .same fun c' n' h' => ?_
          rw [ht] at h'
          cases h'
          simpa using hu
      · rename_i hno
        exact .same fun c n h' => absurd h' (hno p c n rfl)

theorem qualify_tag {over f} : (qualify over f).tag = f.tag := by
  simp only [qualify]; split
  · split <;> rfl
  · rfl

theorem qualify_names {over f} : (qualify over f).names = f.names := by
  simp only [qualify]; split
  · split <;> rfl
  · rfl

theorem hasFieldNamed_iff {fields n} : hasFieldNamed fields n = true ↔ ∃ g ∈ fields, n ∈ g.names := by
  simp [hasFieldNamed]

/-- Everything that is asked of the declarations: names are distinct in the file and in
every package. -/
def DistinctAll (pkgs : GetPackage) : Prop := ∀ p n file, pkgs p n = some file → DistinctTypes file

theorem collectEach_mono {one one' : SrcField → Out (List SrcField)}
    (h : ∀ f out, one f = .ok out → one' f = .ok out) {src out}
    (hc : collectEach one src = .ok out) : collectEach one' src = .ok out := by
  induction src generalizing out with
  | nil => exact hc
  | cons f fs ih =>
    rw [collectEach] at hc ⊢
    obtain ⟨a, ha, hc⟩ := Out.bind_eq_ok.1 hc
    obtain ⟨b, hb, hc⟩ := Out.bind_eq_ok.1 hc
    rw [h f a ha, Out.ok_bind, ih hb, Out.ok_bind]
    exact hc

theorem inlineDecl_mono {c c' : Visitor → List SrcField → Out (List SrcField)}
    (h : ∀ v s out, c v s = .ok out → c' v s = .ok out) {v n r}
    (hi : inlineDecl c v n = .ok r) : inlineDecl c' v n = .ok r := by
  unfold inlineDecl at hi ⊢
  split at hi
  · cases hi
  · split at hi
    · obtain ⟨a, ha, hi⟩ := Out.bind_eq_ok.1 hi
      simp only [h _ _ _ ha, Out.ok_bind]
      exact hi
    · cases hi

theorem collectField_mono {pkgs} {c c' : Visitor → List SrcField → Out (List SrcField)}
    (h : ∀ v s out, c v s = .ok out → c' v s = .ok out) {v f out}
    (hi : collectField pkgs c v f = .ok out) : collectField pkgs c' v f = .ok out := by
  unfold collectField at hi ⊢
  split
  · rename_i h1; rw [if_pos h1] at hi; cases hi
  · rename_i h1
    rw [if_neg h1] at hi
    simp only at hi ⊢
    split
    · rename_i h2
      rw [if_pos h2] at hi
      obtain ⟨r, hr, hi⟩ := Out.bind_eq_ok.1 hi
      have : exploreInlined pkgs c' v (qualify v.over f) = .ok r := by
        unfold exploreInlined at hr ⊢
        split at hr
        · exact inlineDecl_mono h hr
        · split at hr
          · split at hr
            · cases hr
            · exact inlineDecl_mono h hr
          · exact hr
          · cases hr
        · cases hr
      rw [this, Out.ok_bind]
      exact hi
    · rename_i h2
      rw [if_neg h2] at hi
      exact hi

theorem collectFields_mono {pkgs k k'} (hk : k ≤ k') {v src out}
    (h : collectFields pkgs k v src = .ok out) : collectFields pkgs k' v src = .ok out := by
  induction k generalizing k' v src out with
  | zero => cases h
  | succ k ih =>
    obtain ⟨k', rfl⟩ : ∃ j, k' = j + 1 := ⟨k' - 1, by omega⟩
    rw [collectFields] at h ⊢
    exact collectEach_mono
      (fun f out => collectField_mono (fun v s out h => ih (by omega) h)) h

/-- What the inlined field is replaced by, in terms of the declaration it names. -/
theorem inlineDecl_iff {c : Visitor → List SrcField → Out (List SrcField)} {over file n r}
    (hd : DistinctTypes file) :
    inlineDecl c ⟨over, visit file⟩ n = .ok r ↔
      ∃ doc s inner fields, Declares file doc s ∧ s.name = n ∧ s.typ = .struct inner ∧
        c ⟨over, visit file⟩ inner = .ok fields ∧ r = (fields, !hasFieldNamed fields n) := by
  unfold inlineDecl
  constructor
  · intro h
    split at h
    · cases h
    · rename_i d hg
      obtain ⟨doc, h1, h2, _⟩ := getDecl_inv hd hg
      split at h
      · rename_i fs ht
        obtain ⟨a, ha, h⟩ := Out.bind_eq_ok.1 h
        cases h
        exact ⟨doc, d.spec, fs, a, h1, h2, ht, ha, rfl⟩
      · cases h
  · rintro ⟨doc, s, inner, fields, h1, rfl, h3, h4, rfl⟩
    simp only [getDecl_declared hd h1, h3, h4, Out.ok_bind, Out.pure_eq]

theorem collect_sound {pkgs} (hp : DistinctAll pkgs) {k over file src out}
    (hd : DistinctTypes file) (h : collectFields pkgs k ⟨over, visit file⟩ src = .ok out) :
    Flat pkgs over file src out := by
  induction k generalizing over file src out with
  | zero => cases h
  | succ k ih =>
    rw [collectFields] at h
    induction src generalizing out with
    | nil => cases h; exact .nil
    | cons f fs ihs =>
      rw [collectEach] at h
      obtain ⟨a, ha, h⟩ := Out.bind_eq_ok.1 h
      obtain ⟨b, hb, h⟩ := Out.bind_eq_ok.1 h
      cases h
      have hb := ihs hb
      unfold collectField at ha
      split at ha
      · cases ha
      · rename_i hallow
        have hallow : f.tag = none → f.names = [] := by
          intro ht
          exact Classical.byContradiction fun hn => hallow ⟨ht, hn⟩
        simp only at ha
        have hseen : SeenFrom over f (qualify over f) := seenFrom_iff.2 rfl
        have hInl : (fieldTags (qualify over f).tag).appendix = str "inline" ↔ Inlined f := by
          rw [qualify_tag]; rfl
        split at ha
        · rename_i hin
          have hin := hInl.1 hin
          obtain ⟨r, hr, ha⟩ := Out.bind_eq_ok.1 ha
          have finish : ∀ {over' file' n}, Target pkgs over file (qualify over f) over' file' n →
              DistinctTypes file' →
              inlineDecl (collectFields pkgs k) ⟨over', visit file'⟩ n = .ok r →
              Flat pkgs over file (f :: fs) (a ++ b) := by
            intro over' file' n ht hd' hr
            obtain ⟨doc, s, inner, fields, h1, h2, h3, h4, rfl⟩ := (inlineDecl_iff hd').1 hr
            have hflat := ih hd' h4
            simp only at ha
            split at ha
            · rename_i hno
              cases ha
              refine .inline hallow hseen hin ht h1 h2 h3 hflat ?_ hb
              intro g hg hn
              have := hasFieldNamed_iff.2 ⟨g, hg, hn⟩
              simp [this] at hno
            · rename_i hno
              cases ha
              refine .sameName hallow hseen hin ht h1 h2 h3 hflat ?_ hb
              exact hasFieldNamed_iff.1 (by simpa using hno)
          unfold exploreInlined at hr
          split at hr
          · rename_i n ht
            exact finish (.here ht) hd hr
          · rename_i p n ht
            split at hr
            · rename_i hn
              split at hr
              · cases hr
              · rename_i file' hf
                exact finish (.there ht hn hf) (hp _ _ _ hf) hr
            · rename_i x hn
              cases hr
              cases ha
              exact .namedForeign hallow hseen hin ht hn hb
            · cases hr
          · cases hr
        · rename_i hin
          cases ha
          exact .keep hallow hseen (fun h => hin (hInl.2 h)) hb

theorem collect_complete {pkgs} (hp : DistinctAll pkgs) {over file src out}
    (h : Flat pkgs over file src out) :
    DistinctTypes file → ∃ k, collectFields pkgs k ⟨over, visit file⟩ src = .ok out := by
  have cons : ∀ {over file f fs a b k1 k2},
      (f.tag = none → f.names = []) →
      collectFields pkgs k2 ⟨over, visit file⟩ fs = .ok b →
      collectField pkgs (collectFields pkgs k1) ⟨over, visit file⟩ f = .ok a →
      ∃ k, collectFields pkgs k ⟨over, visit file⟩ (f :: fs) = .ok (a ++ b) := by
    intro over file f fs a b k1 k2 _ h2 h1
    refine ⟨max k1 k2 + 1, ?_⟩
    have h2' := collectFields_mono (k' := max k1 k2 + 1) (by omega) h2
    rw [collectFields] at h2'
    rw [collectFields, collectEach]
    have h1' := collectField_mono
      (c' := collectFields pkgs (max k1 k2)) (fun v s out h => collectFields_mono (by omega) h) h1
    rw [h1', Out.ok_bind, h2', Out.ok_bind]
    rfl
  have notBad : ∀ {f : SrcField}, (f.tag = none → f.names = []) → ¬ (f.tag = none ∧ f.names ≠ []) :=
    fun ha hb => hb.2 (ha hb.1)
  have explore : ∀ {over file} {f f' : SrcField} {over' file' n c r}, Target pkgs over file f' over' file' n →
      f' = qualify over f →
      inlineDecl c ⟨over', visit file'⟩ n = .ok r →
      exploreInlined pkgs c ⟨over, visit file⟩ f' = .ok r := by
    intro over file f f' over' file' n c r ht hf hi
    cases ht with
    | here ht => simp only [exploreInlined, ht]; exact hi
    | there ht hn hpk => simp only [exploreInlined, ht, hn, hpk]; exact hi
  have targetOk : ∀ {over file f over' file' n}, DistinctTypes file →
      Target pkgs over file f over' file' n → DistinctTypes file' := by
    intro over file f over' file' n hd ht
    cases ht with
    | here => exact hd
    | there _ _ hpk => exact hp _ _ _ hpk
  induction h with
  | nil => intro _; exact ⟨1, rfl⟩
  | keep ha hs hni _ ih =>
    intro hd
    obtain ⟨k, hk⟩ := ih hd
    refine cons (a := [_]) (k1 := 0) ha hk ?_
    rw [seenFrom_iff] at hs
    subst hs
    simp only [collectField, if_neg (notBad ha)]
    rw [if_neg (by rw [qualify_tag]; exact hni)]
    rfl
  | inline ha hs hin ht h1 h2 h3 _ hno _ ih1 ih2 =>
    intro hd
    obtain ⟨k, hk⟩ := ih2 hd
    have hd' := targetOk hd ht
    obtain ⟨k1, hk1⟩ := ih1 hd'
    refine cons (k1 := k1) ha hk ?_
    have hi := (inlineDecl_iff (c := collectFields pkgs k1) hd').2 ⟨_, _, _, _, h1, h2, h3, hk1, rfl⟩
    rw [seenFrom_iff] at hs
    have hx := explore ht hs hi
    subst hs
    simp only [collectField, if_neg (notBad ha)]
    rw [if_pos (by rw [qualify_tag]; exact hin), hx, Out.ok_bind]
    simp only
    rw [if_pos]
    · rfl
    · simp only [Bool.not_eq_true', Bool.eq_false_iff, ne_eq, hasFieldNamed_iff]
      rintro ⟨g, hg, hn⟩
      exact hno g hg hn
  | sameName ha hs hin ht h1 h2 h3 _ hyes _ ih1 ih2 =>
    intro hd
    obtain ⟨k, hk⟩ := ih2 hd
    have hd' := targetOk hd ht
    obtain ⟨k1, hk1⟩ := ih1 hd'
    refine cons (a := [_]) (k1 := k1) ha hk ?_
    have hi := (inlineDecl_iff (c := collectFields pkgs k1) hd').2 ⟨_, _, _, _, h1, h2, h3, hk1, rfl⟩
    rw [seenFrom_iff] at hs
    have hx := explore ht hs hi
    subst hs
    simp only [collectField, if_neg (notBad ha)]
    rw [if_pos (by rw [qualify_tag]; exact hin), hx, Out.ok_bind]
    simp only
    rw [if_neg]
    · rfl
    · simp [hasFieldNamed_iff.2 hyes]
  | namedForeign ha hs hin ht hn _ ih =>
    intro hd
    obtain ⟨k, hk⟩ := ih hd
    refine cons (a := [_]) (k1 := 0) ha hk ?_
    rw [seenFrom_iff] at hs
    subst hs
    simp only [collectField, if_neg (notBad ha)]
    rw [if_pos (by rw [qualify_tag]; exact hin)]
    simp only [exploreInlined, ht, hn, Out.ok_bind]
    rfl

/-! ## Selection -/

/-- The chain from a type to the untagged element types processed with it. -/
inductive Reaches (v : Visitor) : TypeSpec → TypeSpec → Prop where
  | refl {s} : Reaches v s s
  | step {s len n e t} : s.typ = .array len (.ident n) → denotesByte v (.ident n) = false →
      v.getDecl n = some ⟨e, []⟩ → Reaches v e t → Reaches v s t

/-- The renderer made for a type. -/
def Fits (pkgs : GetPackage) (v : Visitor) (s : TypeSpec) (tags : List Str) (kind : RenderKind) : Prop :=
  match s.typ with
  | .struct fs =>
    (str "transit" ∈ tags ∧ kind = .transit) ∨
    (str "transit" ∉ tags ∧ ∃ k fields, collectFields pkgs k v fs = .ok fields ∧ kind = .struct fields)
  | .map _ => kind = .map
  | .array _ elt => kind = if denotesByte v elt then .bytes else .array
  | .ident _ | .sel _ _ => kind = .transit
  | .other => False

theorem Fits.struct_iff {pkgs v s tags kind} (h : Fits pkgs v s tags kind) :
    (∃ fields, kind = .struct fields) ↔ (∃ fields, s.typ = .struct fields) ∧ str "transit" ∉ tags := by
  unfold Fits at h
  split at h
  · rename_i fs hs
    rcases h with ⟨h1, rfl⟩ | ⟨h1, k, fields, _, rfl⟩
    · simp [h1]
    · simp [h1, hs]
  · rename_i hs; subst h; simp [hs]
  · rename_i hs; subst h; simp only [hs]; split <;> simp
  · rename_i hs; subst h; simp [hs]
  · rename_i hs; subst h; simp [hs]
  · exact h.elim

/-- What is added to the renderers when a type is processed. -/
structure Adds2 (pkgs : GetPackage) (v : Visitor) (from' : List (TypeSpec × List Str)) (res res' : List Renderer) :
    Prop where
  grows : ∃ new, res' = res ++ new ∧ ∀ r ∈ new, ∃ p ∈ from', ∃ t, Reaches v p.1 t ∧
    r.name = t.name ∧ r.tags = p.2 ∧ Fits pkgs v t p.2 r.kind
  covers : ∀ p ∈ from', ∀ t, Reaches v p.1 t → ∃ r ∈ res', r.name = t.name
  nodup : (res.map Renderer.name).Nodup → (res'.map Renderer.name).Nodup

theorem put_cases (res : List Renderer) (r : Renderer) :
    (putRenderer res r = res ∧ ∃ ex ∈ res, ex.name = r.name) ∨
    (putRenderer res r = res ++ [r] ∧ ∀ ex ∈ res, ex.name ≠ r.name) := by
  rw [putRenderer]
  split
  · rename_i h
    left
    simpa using h
  · rename_i h
    right
    simp at h
    exact ⟨rfl, h⟩

theorem put_adds {pkgs} {v : Visitor} {s tags kind res} (hf : Fits pkgs v s tags kind)
    (hr : ∀ t, Reaches v s t → t.name = s.name ∨ ∃ r ∈ res, r.name = t.name) :
    Adds2 pkgs v [(s, tags)] res (putRenderer res ⟨s.name, tags, kind⟩) := by
  rcases put_cases res ⟨s.name, tags, kind⟩ with ⟨h, ex, hex, hn⟩ | ⟨h, hn⟩
  · rw [h]
    refine ⟨⟨[], by simp, by simp⟩, ?_, id⟩
    intro p hp t ht
    obtain rfl := List.mem_singleton.1 hp
    rcases hr t ht with h' | h'
    · exact ⟨ex, hex, hn.trans h'.symm⟩
    · exact h'
  · rw [h]
    refine ⟨⟨_, rfl, ?_⟩, ?_, ?_⟩
    · intro r hr
      obtain rfl := List.mem_singleton.1 hr
      exact ⟨_, List.mem_singleton.2 rfl, s, .refl, rfl, rfl, hf⟩
    · intro p hp t ht
      obtain rfl := List.mem_singleton.1 hp
      rcases hr t ht with h' | ⟨r, h', h''⟩
      · exact ⟨⟨s.name, tags, kind⟩, by simp, h'.symm⟩
      · exact ⟨r, by simp [h'], h''⟩
    · intro hd
      rw [List.map_append, List.nodup_append]
      refine ⟨hd, by simp, ?_⟩
      intro a ha b hb
      simp at hb
      subst hb
      obtain ⟨ex, hex, rfl⟩ := List.mem_map.1 ha
      exact hn ex hex

theorem reaches_end {v : Visitor} {s : TypeSpec} (h : ∀ len n, s.typ ≠ .array len (.ident n)) {t}
    (ht : Reaches v s t) : t = s := by
  cases ht with
  | refl => rfl
  | step h1 => exact absurd h1 (h _ _)

theorem processDecl_adds {pkgs k} {v : Visitor} {s tags res res'}
    (h : processDecl pkgs k v ⟨s, tags⟩ res = .ok res') : Adds2 pkgs v [(s, tags)] res res' := by
  induction k generalizing s res res' with
  | zero => cases h
  | succ k ih =>
    rw [processDecl] at h
    have single : ∀ (_ : ∀ len n, s.typ ≠ .array len (.ident n)) {kind : RenderKind} (_ : Fits pkgs v s tags kind),
        Adds2 pkgs v [(s, tags)] res (putRenderer res ⟨s.name, tags, kind⟩) := by
      intro hne kind hf
      exact put_adds hf fun t ht => .inl (by rw [reaches_end hne ht])
    split at h
    · rename_i fs ht
      split at h
      · rename_i htr
        cases h
        exact single (by simp [ht]) (by rw [Fits, ht]; exact .inl ⟨htr, rfl⟩)
      · rename_i htr
        obtain ⟨fields, hc, h⟩ := Out.bind_eq_ok.1 h
        cases h
        exact single (by simp [ht]) (by rw [Fits, ht]; exact .inr ⟨htr, k, fields, hc, rfl⟩)
    · rename_i ht
      cases h
      exact single (by simp [ht]) (by rw [Fits, ht])
    · rename_i elt ht
      have hfit : ∀ {kind : RenderKind} (_ : kind = if denotesByte v elt then .bytes else .array),
          Fits pkgs v s tags kind := by
        intro kind hk
        rw [Fits, ht]
        exact hk
      split at h
      · rename_i hb
        cases h
        refine put_adds (hfit (by rw [hb]; rfl)) fun t hr => .inl ?_
        cases hr with
        | refl => rfl
        | step h1 h2 =>
          rw [ht] at h1
          cases h1
          rw [hb] at h2
          cases h2
      · rename_i hb
        have hb : denotesByte v elt = false := by simpa using hb
        obtain ⟨mid, hmid, h⟩ := Out.bind_eq_ok.1 h
        cases h
        have noStep : (∀ n e, elt = .ident n → v.getDecl n = some ⟨e, []⟩ → False) → mid = res →
            Adds2 pkgs v [(s, tags)] res (putRenderer mid ⟨s.name, tags, .array⟩) := by
          rintro hno rfl
          refine put_adds (hfit (by rw [hb]; rfl)) fun t hr => .inl ?_
          cases hr with
          | refl => rfl
          | step h1 h2 h3 =>
            rw [ht] at h1
            cases h1
            exact (hno _ _ rfl h3).elim
        unfold processElem at hmid
        split at hmid
        · rename_i n
          split at hmid
          · rename_i e hg
            have hA := ih hmid
            obtain ⟨new, rfl, hnew⟩ := hA.grows
            have hB : Adds2 pkgs v [(s, tags)] (res ++ new) (putRenderer (res ++ new) ⟨s.name, tags, .array⟩) := by
              refine put_adds (hfit (by rw [hb]; rfl)) fun t hr => ?_
              cases hr with
              | refl => exact .inl rfl
              | step h1 h2 h3 h4 =>
                rw [ht] at h1
                cases h1
                rw [hg] at h3
                cases h3
                exact .inr (hA.covers _ (List.mem_singleton.2 rfl) t h4)
            obtain ⟨new', hnew'1, hnew'2⟩ := hB.grows
            refine ⟨⟨new ++ new', by rw [hnew'1, List.append_assoc], ?_⟩, hB.covers,
              fun hd => hB.nodup (hA.nodup hd)⟩
            intro r hr
            rcases List.mem_append.1 hr with hr | hr
            · obtain ⟨p, hp, t, h1, h2, h3, h4⟩ := hnew r hr
              obtain rfl := List.mem_singleton.1 hp
              exact ⟨(s, tags), List.mem_singleton.2 rfl, t, .step ht hb hg h1, h2, h3, h4⟩
            · exact hnew'2 r hr
          · rename_i hno
            cases hmid
            refine noStep (fun n' e he hg => ?_) rfl
            cases he
            exact hno _ hg
        · rename_i hno
          cases hmid
          exact noStep (fun n e he _ => hno n he) rfl
    · rename_i ht
      cases h
      exact single (by simp [ht]) (by rw [Fits, ht])
    · rename_i ht
      cases h
      exact single (by simp [ht]) (by rw [Fits, ht])
    · cases h

theorem normalize_adds {pkgs k} {v : Visitor} {ds res res'}
    (h : normalize pkgs k v ds res = .ok res') :
    Adds2 pkgs v ((ds.filter fun d => d.tags ≠ []).map fun d => (d.spec, d.tags)) res res' := by
  induction ds generalizing res with
  | nil =>
    cases h
    exact ⟨⟨[], by simp, by simp⟩, by simp, id⟩
  | cons d ds ih =>
    rw [normalize] at h
    split at h
    · rename_i hd
      rw [List.filter_cons_of_neg (by simp [hd])]
      exact ih h
    · rename_i hd
      obtain ⟨mid, hmid, h⟩ := Out.bind_eq_ok.1 h
      rw [List.filter_cons_of_pos (by simp [hd]), List.map_cons]
      have hA := processDecl_adds hmid
      have hB := ih h
      obtain ⟨new, rfl, hnew⟩ := hA.grows
      obtain ⟨new', rfl, hnew'⟩ := hB.grows
      refine ⟨⟨new ++ new', by rw [List.append_assoc], ?_⟩, ?_, fun hd => hB.nodup (hA.nodup hd)⟩
      · intro r hr
        rcases List.mem_append.1 hr with hr | hr
        · obtain ⟨p, hp, hrest⟩ := hnew r hr
          exact ⟨p, List.mem_cons.2 (.inl (List.mem_singleton.1 hp)), hrest⟩
        · obtain ⟨p, hp, hrest⟩ := hnew' r hr
          exact ⟨p, List.mem_cons_of_mem _ hp, hrest⟩
      · intro p hp t ht
        rcases List.mem_cons.1 hp with rfl | hp
        · obtain ⟨r, hr, hn⟩ := hA.covers _ (List.mem_singleton.2 rfl) t ht
          exact ⟨r, List.mem_append_left _ hr, hn⟩
        · exact hB.covers p hp t ht

end VJ
