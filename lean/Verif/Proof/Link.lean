import Verif.Spec.Link
import Verif.Props.Front
import Verif.Props.Tags

/-!
# From source files to declarations: lemmas
-/

namespace VJ

/-! ## Names -/

theorem nameCode_inj {a b : Str} (h : nameCode a = nameCode b) : a = b := by
  induction a generalizing b with
  | nil =>
    cases b with
    | nil => rfl
    | cons c b => simp only [nameCode] at h; omega
  | cons c a ih =>
    cases b with
    | nil => simp only [nameCode] at h; omega
    | cons d b =>
      simp only [nameCode] at h
      have hc : c.toNat < 1114112 := by
        have := c.valid
        simp only [UInt32.isValidChar, Nat.isValidChar] at this
        simp only [Char.toNat]
        omega
      have hd : d.toNat < 1114112 := by
        have := d.valid
        simp only [UInt32.isValidChar, Nat.isValidChar] at this
        simp only [Char.toNat]
        omega
      have h1 : c.toNat = d.toNat := by omega
      have h2 : nameCode a = nameCode b := by omega
      rw [Char.toNat_inj.1 h1, ih h2]

theorem identId_inj {a b : Str} (h : identId a = identId b) : a = b :=
  nameCode_inj (by simp only [identId] at h; omega)

theorem ite_some {c : Prop} [Decidable c] {a p : Prim} {x : Option Prim}
    (h : (if c then some a else x) = some p) : (c ∧ a = p) ∨ x = some p := by
  by_cases hc : c
  · rw [if_pos hc] at h; exact .inl ⟨hc, by cases h; rfl⟩
  · rw [if_neg hc] at h; exact .inr h

theorem primNamed_iff {n : Str} {p : Prim} : primNamed n = some p ↔ Predeclared n p := by
  constructor
  · intro h
    unfold primNamed at h
    rcases ite_some h with ⟨hn, hp⟩ | h
    · rw [hn, ← hp]; exact .int
    rcases ite_some h with ⟨hn, hp⟩ | h
    · rw [hn, ← hp]; exact .int8
    rcases ite_some h with ⟨hn, hp⟩ | h
    · rw [hn, ← hp]; exact .int16
    rcases ite_some h with ⟨hn, hp⟩ | h
    · rw [hn, ← hp]; exact .int32
    rcases ite_some h with ⟨hn, hp⟩ | h
    · rw [hn, ← hp]; exact .int64
    rcases ite_some h with ⟨hn, hp⟩ | h
    · rw [hn, ← hp]; exact .uint
    rcases ite_some h with ⟨hn, hp⟩ | h
    · rw [hn, ← hp]; exact .uint8
    rcases ite_some h with ⟨hn, hp⟩ | h
    · rw [hn, ← hp]; exact .uint16
    rcases ite_some h with ⟨hn, hp⟩ | h
    · rw [hn, ← hp]; exact .uint32
    rcases ite_some h with ⟨hn, hp⟩ | h
    · rw [hn, ← hp]; exact .uint64
    rcases ite_some h with ⟨hn, hp⟩ | h
    · rw [hn, ← hp]; exact .float32
    rcases ite_some h with ⟨hn, hp⟩ | h
    · rw [hn, ← hp]; exact .float64
    rcases ite_some h with ⟨hn, hp⟩ | h
    · rw [hn, ← hp]; exact .bool
    rcases ite_some h with ⟨hn, hp⟩ | h
    · rw [hn, ← hp]; exact .string
    rcases ite_some h with ⟨hn, hp⟩ | h
    · rw [hn, ← hp]; exact .byte
    rcases ite_some h with ⟨hn, hp⟩ | h
    · rw [hn, ← hp]; exact .rune
    cases h
  · intro h
    cases h <;> decide +kernel

theorem primNamed_none {n : Str} : primNamed n = none ↔ ∀ p, ¬ Predeclared n p := by
  rw [Option.eq_none_iff_forall_ne_some]
  exact forall_congr' fun p => not_congr primNamed_iff

/-! ## Types, tags and fields -/

theorem exprOf_sound {hidden file} (hh : ∀ n p, Predeclared n p → DeclaresName file n → hidden n = true) {e : SrcExpr} {t : TExpr}
    (h : exprOf hidden e = .ok t) :
    TypeMeans file e t := by
  induction e generalizing t with
  | ident n =>
    rw [exprOf] at h
    split at h
    · cases h
    · rename_i hnh
      split at h
      · rename_i p hp
        cases h
        exact .prim (primNamed_iff.1 hp) fun hdn => hnh (hh n p (primNamed_iff.1 hp) hdn)
      · rename_i hp
        cases h
        exact .named (primNamed_none.1 hp)
  | sel p n =>
    rw [exprOf] at h
    split at h
    · rename_i hn
      split at h
      · rename_i hp
        subst hn
        subst hp
        cases h
        exact .time
      · cases h
    · rename_i hnt
      split at h
      · rename_i hn
        split at h
        · rename_i hp
          subst hn
          subst hp
          cases h
          exact .uuid
        · cases h
      · rename_i hnu
        cases h
        exact .foreign hnt hnu
  | array len e ih =>
    cases len with
    | none =>
      rw [exprOf] at h
      obtain ⟨t', h1, h⟩ := Out.bind_eq_ok.1 h
      cases h
      exact .slice (ih h1)
    | some len =>
      rw [exprOf] at h
      obtain ⟨t', h1, h⟩ := Out.bind_eq_ok.1 h
      cases h
      exact .array (ih h1)
  | map e ih =>
    rw [exprOf] at h
    obtain ⟨t', h1, h⟩ := Out.bind_eq_ok.1 h
    cases h
    exact .map (ih h1)
  | star e ih =>
    rw [exprOf] at h
    obtain ⟨t', h1, h⟩ := Out.bind_eq_ok.1 h
    cases h
    exact .star (ih h1)
  | other => cases h

theorem fieldExpr_sound {seen hidden file} (hh : ∀ n p, Predeclared n p → DeclaresName file n → hidden n = true) {e : SrcExpr} {t : TExpr} (h : fieldExpr seen hidden e = .ok t) :
    TypeMeans file e t := by
  unfold fieldExpr at h
  split at h
  · split at h
    · exact exprOf_sound hh h
    · split at h
      · cases h
      · exact exprOf_sound hh h
    · cases h
  · exact exprOf_sound hh h

theorem arrayExpr_sound {seen hidden len file} (hh : ∀ n p, Predeclared n p → DeclaresName file n → hidden n = true) {e : SrcExpr} {t : TExpr}
    (h : arrayExpr seen hidden len e = .ok t) : TypeMeans file (.array len e) t := by
  unfold arrayExpr at h
  split at h
  · split at h
    · exact exprOf_sound hh h
    · cases h
  · exact exprOf_sound hh h

theorem typeMeans_unique {file : List TypeDecl} {e : SrcExpr} {t t' : TExpr} (h : TypeMeans file e t) (h' : TypeMeans file e t') :
    t = t' := by
  induction h generalizing t' with
  | prim hp _ =>
    cases h' with
    | prim hp' _ =>
      rw [← primNamed_iff] at hp hp'
      rw [hp] at hp'
      cases hp'
      rfl
    | named hn => exact absurd hp (hn _)
  | named hn =>
    cases h' with
    | prim hp _ => exact absurd hp (hn _)
    | named _ => rfl
  | time =>
    cases h' with
    | time => rfl
    | foreign h => exact absurd rfl h
  | uuid =>
    cases h' with
    | uuid => rfl
    | foreign _ h => exact absurd rfl h
  | foreign h1 h2 =>
    cases h' with
    | time => exact absurd rfl h1
    | uuid => exact absurd rfl h2
    | foreign _ _ => rfl
  | slice _ ih => cases h' with | slice h => rw [ih h]
  | array _ ih => cases h' with | array h => rw [ih h]
  | map _ ih => cases h' with | map h => rw [ih h]
  | star _ ih => cases h' with | star h => rw [ih h]

theorem fieldTags_means (tag : Option Str) : TagMeans tag (fieldTags tag) := by
  constructor
  · rintro rfl
    exact ⟨rfl, rfl, rfl, rfl⟩
  · rintro text pairs json layout dflt rfl h1 h2 h3 h4
    exact C38_field_tags_partial h1 h2 h3 h4

theorem called_iff {f : SrcField} {ns : List Str} : Called f ns ↔ goNames f = ns ∧ ns ≠ [] := by
  obtain ⟨names, typ, tag⟩ := f
  constructor
  · intro h
    cases h <;> simp [goNames]
  · rintro ⟨rfl, hne⟩
    cases names with
    | cons n ns => exact .written
    | nil =>
      cases typ with
      | ident n => exact .embedded
      | sel p n => exact .embeddedForeign
      | _ => exact absurd rfl hne

theorem fieldDecls_sound {seen hidden file} (hh : ∀ n p, Predeclared n p → DeclaresName file n → hidden n = true) {fs : List SrcField} {fds : List FieldDecl}
    (h : fieldDecls seen hidden fs = .ok fds)   : FieldsMean file fs (fs.flatMap goNames) fds := by
  induction fs generalizing fds with
  | nil => cases h; exact .nil
  | cons f fs ih =>
    rw [fieldDecls] at h
    split at h
    · cases h
    · rename_i hne
      obtain ⟨t, h1, h⟩ := Out.bind_eq_ok.1 h
      obtain ⟨rest, h2, h⟩ := Out.bind_eq_ok.1 h
      cases h
      rw [List.flatMap_cons]
      refine .cons (called_iff.2 ⟨rfl, hne⟩) (by simp) ?_ (ih h2)
      intro fd hfd
      obtain ⟨_, _, rfl⟩ := List.mem_map.1 hfd
      exact ⟨fieldExpr_sound hh h1, fieldTags_means _⟩

/-! ## The table -/

theorem declTable_keys {pr rs file ss table} (h : declTable pr rs file ss = .ok table) {n d}
    (hn : (n, d) ∈ table) : ∃ s ∈ ss, n = identId s.name := by
  induction ss generalizing table with
  | nil => cases h; cases hn
  | cons s ss ih =>
    rw [declTable] at h
    obtain ⟨rest, h1, h⟩ := Out.bind_eq_ok.1 h
    have hrest : (n, d) ∈ rest → ∃ s' ∈ s :: ss, n = identId s'.name := fun hr =>
      let ⟨s', hs', he⟩ := ih h1 hr
      ⟨s', List.mem_cons_of_mem _ hs', he⟩
    split at h
    · obtain ⟨d', _, h⟩ := Out.bind_eq_ok.1 h
      cases h
      rcases List.mem_cons.1 hn with hn | hn
      · cases hn; exact ⟨s, by simp, rfl⟩
      · exact hrest hn
    · split at h
      · cases h
        rcases List.mem_cons.1 hn with hn | hn
        · cases hn; exact ⟨s, by simp, rfl⟩
        · exact hrest hn
      · cases h
        exact hrest hn

/-- What the table says about one type. -/
def Entry (pr : Project) (rs : List Renderer) (file : List TypeDecl) (s : TypeSpec) (e : Option Decl) : Prop :=
  match fullRenderer rs s.name with
  | some r => ∃ d, declOf pr.seen (hiddenName rs file) r s.typ = .ok d ∧ e = some d
  | none => e = (plainName s).map fun p => .alias (.prim p)

theorem lookup_none_of {α : Type} {l : List (Nat × α)} {n : Nat} (h : ∀ d, (n, d) ∉ l) :
    l.lookup n = none := by
  induction l with
  | nil => rfl
  | cons p l ih =>
    obtain ⟨m, d⟩ := p
    rw [List.lookup_cons]
    have hne : (n == m) = false := by
      simp only [beq_eq_false_iff_ne, ne_eq]
      rintro rfl
      exact h d (by simp)
    rw [hne]
    exact ih fun d hd => h d (List.mem_cons_of_mem _ hd)

theorem declTable_entry {pr rs file ss table} (h : declTable pr rs file ss = .ok table)
    (hd : (ss.map TypeSpec.name).Nodup) {s} (hs : s ∈ ss) :
    Entry pr rs file s (table.lookup (identId s.name)) := by
  induction ss generalizing table with
  | nil => cases hs
  | cons s' ss ih =>
    rw [declTable] at h
    obtain ⟨rest, h1, h⟩ := Out.bind_eq_ok.1 h
    simp only [List.map_cons, List.nodup_cons, List.mem_map, not_exists, not_and] at hd
    have hnone : s = s' → rest.lookup (identId s.name) = none := by
      rintro rfl
      refine lookup_none_of fun d hmem => ?_
      obtain ⟨s2, hs2, he⟩ := declTable_keys h1 hmem
      exact hd.1 s2 hs2 (identId_inj he).symm
    have hother : s ∈ ss → (identId s.name == identId s'.name) = false := by
      intro hm
      simp only [beq_eq_false_iff_ne, ne_eq]
      intro he
      exact hd.1 s hm (identId_inj he)
    rcases List.mem_cons.1 hs with rfl | hs
    · rw [Entry]
      split at h
      · rename_i r hr
        obtain ⟨d, h2, h⟩ := Out.bind_eq_ok.1 h
        cases h
        rw [hr]
        exact ⟨d, h2, by simp⟩
      · rename_i hr
        rw [hr]
        split at h
        · rename_i p hp
          cases h
          simp [hp]
        · rename_i hp
          cases h
          simp [hnone rfl, hp]
    · have := ih h1 hd.2 hs
      have ho := hother hs
      split at h
      · obtain ⟨d, h2, h⟩ := Out.bind_eq_ok.1 h
        cases h
        rwa [List.lookup_cons, ho]
      · split at h
        · cases h
          rwa [List.lookup_cons, ho]
        · cases h
          exact this

theorem link_inv {pr k file ext Γ} (h : link pr k file ext = .ok Γ) :
    ∃ rs table, getNormalized pr.pkgs k file = .ok rs ∧
      declTable pr rs file (fileSpecs file) = .ok table ∧ Γ = ⟨fun n => table.lookup n, ext⟩ := by
  obtain ⟨rs, h1, h⟩ := Out.bind_eq_ok.1 h
  obtain ⟨table, h2, h⟩ := Out.bind_eq_ok.1 h
  cases h
  exact ⟨rs, table, h1, h2, rfl⟩

theorem distinct_specs {file : List TypeDecl} (hd : DistinctTypes file) :
    ((fileSpecs file).map TypeSpec.name).Nodup := by
  rw [fileSpecs, List.map_flatMap]
  exact hd

theorem declares_mem {file doc s} : Declares file doc s → s ∈ fileSpecs file := by
  rintro ⟨d, hd, _, hs⟩
  exact List.mem_flatMap.2 ⟨d, hd, hs⟩

/-- The tags that count for a type: its own, or those it inherits. -/
def Effective (file : List TypeDecl) (doc : Option (List Str)) (s : TypeSpec) (tags : List Str) : Prop :=
  (docTags doc ≠ [] ∧ tags = docTags doc) ∨ Inherits file s tags

theorem fullRenderer_some {rs n r} (h : fullRenderer rs n = some r) :
    r ∈ rs ∧ r.name = n ∧ str "custom" ∉ r.tags ∧ str "encode" ∉ r.tags ∧ str "decode" ∉ r.tags := by
  have h1 := List.mem_of_find?_eq_some h
  have h2 := List.find?_some h
  simp only [Bool.and_eq_true, decide_eq_true_eq, Bool.not_eq_true', decide_eq_false_iff_not] at h2
  exact ⟨h1, h2.1.1.1, h2.1.1.2, h2.1.2, h2.2⟩

theorem fullRenderer_none {rs n} (h : fullRenderer rs n = none) {r} (hr : r ∈ rs) (hn : r.name = n) :
    str "custom" ∈ r.tags ∨ str "encode" ∈ r.tags ∨ str "decode" ∈ r.tags := by
  have := List.find?_eq_none.1 h r hr
  simp only [hn, Bool.and_eq_true, decide_eq_true_eq, Bool.not_eq_true', decide_eq_false_iff_not] at this
  by_cases h1 : str "custom" ∈ r.tags
  · exact .inl h1
  · by_cases h2 : str "encode" ∈ r.tags
    · exact .inr (.inl h2)
    · by_cases h3 : str "decode" ∈ r.tags
      · exact .inr (.inr h3)
      · exact absurd ⟨⟨⟨trivial, h1⟩, h2⟩, h3⟩ this

/-- The renderer of a tagged type. -/
theorem tagged_renderer {pkgs k file rs doc s} (hd : DistinctTypes file) (hin : NoInnerTags file)
    (h : getNormalized pkgs k file = .ok rs) (hs : Declares file doc s) (ht : docTags doc ≠ []) :
    ∃ r ∈ rs, r.name = s.name ∧ r.tags = docTags doc ∧ Fits pkgs ⟨none, visit file⟩ s r.tags r.kind := by
  have hA := normalize_adds h
  obtain ⟨d, hdf, rfl, hsm⟩ := hs
  have hvis : (⟨s, extractTags d.doc⟩ : TaggedDecl) ∈ visit file :=
    mem_visit.2 ⟨d, hdf, hsm, .inl rfl⟩
  obtain ⟨r, hr, hname⟩ := hA.covers (s, extractTags d.doc)
    (List.mem_map.2 ⟨_, List.mem_filter.2 ⟨hvis, by simpa [docTags] using ht⟩, rfl⟩) s .refl
  obtain ⟨doc', t, h1, h2, h3, h4⟩ := renderer_origin hd hin h hr
  obtain ⟨rfl, hdoc⟩ := declared_unique hd h1 ⟨d, hdf, rfl, hsm⟩ (h2.symm.trans hname)
  refine ⟨r, hr, hname, ?_, h3⟩
  rcases h4 with ⟨_, h4⟩ | h4
  · exact h4.trans hdoc
  · obtain ⟨doc'', h5, h6⟩ := inherits_declared h4
    have := (declared_unique hd h5 ⟨d, hdf, rfl, hsm⟩ rfl).2
    exact absurd (this.symm.trans h6) ht

theorem renderer_unique {rs : List Renderer} (hn : (rs.map Renderer.name).Nodup) {r r' : Renderer}
    (hr : r ∈ rs) (hr' : r' ∈ rs) (h : r.name = r'.name) : r = r' := by
  induction rs with
  | nil => cases hr
  | cons x xs ih =>
    simp only [List.map_cons, List.nodup_cons, List.mem_map, not_exists, not_and] at hn
    rcases List.mem_cons.1 hr with hr | hr <;> rcases List.mem_cons.1 hr' with hr' | hr'
    · rw [hr, hr']
    · exact absurd (h.symm.trans (by rw [hr])) (hn.1 r' hr')
    · exact absurd (h.trans (by rw [hr'])) (hn.1 r hr)
    · exact ih hn.2 hr hr'

end VJ
