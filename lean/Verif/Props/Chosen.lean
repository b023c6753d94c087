import Verif.Props.Link

/-!
# C39, C53: which comment decides, for every file

With comments inside groups of types, and with several slices of the same element type.
-/

namespace VJ

theorem commentOrder_visit (file : List TypeDecl) :
    commentOrder file = (visit file).map fun d => (d.spec, d.tags) := by
  simp [commentOrder, visit, docTags, List.map_flatMap, Function.comp_def]

theorem reaches_handsOn {file : List TypeDecl} (hd : DistinctTypes file) {over o s t}
    (h : Reaches ⟨over, visit file⟩ s t) (hs : HandsOn file o s) : HandsOn file o t := by
  induction h with
  | refl => exact hs
  | step h1 h2 h3 _ ih =>
    rename_i s n e t _
    obtain ⟨doc, hdec, hn, ht⟩ := getDecl_inv hd h3
    simp only at hdec hn ht
    subst hn
    refine ih (.element hs h1 hdec ht.symm ?_)
    intro hb
    simp [denotesByte, h3, hb] at h2

theorem handsOn_reaches {file : List TypeDecl} (hd : DistinctTypes file) {over s t}
    (h : HandsOn file s t) : Reaches ⟨over, visit file⟩ s t := by
  induction h with
  | self => exact .refl
  | element _ h1 h2 h3 h4 ih =>
    have hg := getDecl_declared (over := over) hd h2
    rw [show extractTags _ = [] from h3] at hg
    refine reaches_snoc ih h1 ?_ hg
    simp [denotesByte, hg, h4]

/-- Every renderer comes from the first entry of the list that reaches its type. -/
theorem normalize_first {pkgs k} {v : Visitor} {ds res res'} (h : normalize pkgs k v ds res = .ok res')
    (hn : (res.map Renderer.name).Nodup) {r : Renderer} (hr : r ∈ res') (hnew : r ∉ res) :
    ∃ (i : Nat) (d : TaggedDecl) (t : TypeSpec), ds[i]? = some d ∧ d.tags ≠ [] ∧ Reaches v d.spec t ∧
      r.name = t.name ∧ r.tags = d.tags ∧ Fits pkgs v t d.tags r.kind ∧
      ∀ (j : Nat) (d' : TaggedDecl) (t' : TypeSpec), j < i → ds[j]? = some d' → d'.tags ≠ [] →
        Reaches v d'.spec t' → t'.name ≠ r.name := by
  induction ds generalizing res with
  | nil => cases h; exact absurd hr hnew
  | cons d ds ih =>
    have hA := normalize_adds h
    rw [normalize] at h
    split at h
    · rename_i hd
      obtain ⟨i, d1, t, h1, h2, h3, h4, h5, h6, h7⟩ := ih h hn hnew
      refine ⟨i + 1, d1, t, h1, h2, h3, h4, h5, h6, ?_⟩
      intro j d' t' hj hd' ht' hre
      cases j with
      | zero => cases hd'; exact absurd hd ht'
      | succ j => exact h7 j d' t' (by omega) hd' ht' hre
    · rename_i hd
      obtain ⟨mid, hmid, h⟩ := Out.bind_eq_ok.1 h
      have hB := processDecl_adds hmid
      by_cases hm : r ∈ mid
      · obtain ⟨new, rfl, hg⟩ := hB.grows
        rcases List.mem_append.1 hm with hm | hm
        · exact absurd hm hnew
        · obtain ⟨p, hp, t, h1, h2, h3, h4⟩ := hg r hm
          obtain rfl := List.mem_singleton.1 hp
          exact ⟨0, d, t, rfl, hd, h1, h2, h3, h4, fun j _ _ hj => absurd hj (by omega)⟩
      · obtain ⟨i, d1, t, h1, h2, h3, h4, h5, h6, h7⟩ := ih h (hB.nodup hn) hm
        refine ⟨i + 1, d1, t, h1, h2, h3, h4, h5, h6, ?_⟩
        intro j d' t' hj hd' ht' hre
        cases j with
        | zero =>
          cases hd'
          intro he
          obtain ⟨r', hr', hn'⟩ := hB.covers _ (List.mem_singleton.2 rfl) t' hre
          obtain ⟨new, rfl, _⟩ := (normalize_adds h).grows
          have := renderer_unique (hA.nodup hn) hr (List.mem_append_left _ hr') (by rw [hn', he])
          exact hm (this ▸ hr')
        | succ j => exact h7 j d' t' (by omega) hd' ht' hre

/-- The comment that decides is determined. -/
theorem chosen_unique {file s tags tags'} (h : Chosen file s tags) (h' : Chosen file s tags') : tags = tags' := by
  obtain ⟨i, o, h1, h2, h3, h4⟩ := h
  obtain ⟨i', o', h1', h2', h3', h4'⟩ := h'
  rcases Nat.lt_trichotomy i i' with hi | rfl | hi
  · exact absurd h3 (h4' i _ hi h1 h2)
  · rw [h1] at h1'; cases h1'; rfl
  · exact absurd h3' (h4 i' _ hi h1' h2')

theorem declares_of_visit {file : List TypeDecl} {d : TaggedDecl} (h : d ∈ visit file) :
    ∃ doc, Declares file doc d.spec :=
  let ⟨td, htd, hs, _⟩ := mem_visit.1 h
  ⟨td.doc, td, htd, rfl, hs⟩

/-- The renderer of a declared type, and the comment it comes from. -/
theorem chosen_renderer {pkgs k file rs doc s} (hd : DistinctTypes file)
    (h : getNormalized pkgs k file = .ok rs) (hs : Declares file doc s) {r} (hr : r ∈ rs) (hname : r.name = s.name) :
    Chosen file s r.tags ∧ Fits pkgs ⟨none, visit file⟩ s r.tags r.kind := by
  obtain ⟨i, d, t, h1, h2, h3, h4, h5, h6, h7⟩ := normalize_first h (by simp) hr (by simp)
  have hvis : d ∈ visit file := List.mem_of_getElem? h1
  obtain ⟨td, htd, hts⟩ := reaches_declared h3
    (let ⟨td, htd, hs, _⟩ := mem_visit.1 hvis; ⟨td, htd, hs⟩)
  obtain ⟨rfl, _⟩ := declared_unique hd ⟨td, htd, rfl, hts⟩ hs (h4.symm.trans hname)
  refine ⟨⟨i, d.spec, ?_, h5 ▸ h2, reaches_handsOn hd h3 .self, ?_⟩, h5 ▸ h6⟩
  · rw [commentOrder_visit, List.getElem?_map, h1, h5]
    rfl
  · intro j p hj hp hpt hh
    rw [commentOrder_visit, List.getElem?_map] at hp
    cases hv : (visit file)[j]? with
    | none => rw [hv] at hp; cases hp
    | some d' =>
      rw [hv] at hp
      cases hp
      exact h7 j d' t hj hv hpt (handsOn_reaches hd hh) h4.symm

/-- A type that a comment with tags speaks about has a renderer. -/
theorem chosen_rendered {pkgs k file rs s tags} (hd : DistinctTypes file)
    (h : getNormalized pkgs k file = .ok rs) (hc : Chosen file s tags) : ∃ r ∈ rs, r.name = s.name := by
  obtain ⟨i, o, h1, h2, h3, _⟩ := hc
  rw [commentOrder_visit, List.getElem?_map] at h1
  cases hv : (visit file)[i]? with
  | none => rw [hv] at h1; cases h1
  | some d =>
    rw [hv] at h1
    cases h1
    exact (normalize_adds h).covers (d.spec, d.tags)
      (List.mem_map.2 ⟨d, List.mem_filter.2 ⟨List.mem_of_getElem? hv, by simpa using h2⟩, rfl⟩) s (handsOn_reaches hd h3)

/-- **C39, for every file.** What is generated for a type is what the tags chosen for it ask
for: those of the first comment with tags that stands at the type itself or hands its tags on
to it; without such a comment, nothing. -/
theorem C39_exact {pkgs k file out doc s} (hd : DistinctTypes file) (h : generate pkgs k file = .ok out)
    (hs : Declares file doc s) (m : Member) :
    (s.name, m) ∈ out ↔ ∃ tags, Chosen file s tags ∧ Wanted s tags m := by
  obtain ⟨rs, hrs, rfl⟩ := generate_inv h
  have hnd := (normalize_adds hrs).nodup (by simp)
  constructor
  · intro hm
    have hex : ∃ r ∈ rs, r.name = s.name := by
      rcases List.mem_append.1 hm with hm | hm
      · obtain ⟨r, hr, hn, _⟩ := mem_decoderDecls.1 hm; exact ⟨r, hr, hn⟩
      · obtain ⟨r, hr, hn, _⟩ := mem_encoderDecls.1 hm; exact ⟨r, hr, hn⟩
    obtain ⟨r, hr, hname⟩ := hex
    obtain ⟨hc, hf⟩ := chosen_renderer hd hrs hs hr hname
    exact ⟨r.tags, hc, (renderer_wanted hnd hr hname hf m).1 hm⟩
  · rintro ⟨tags, hc, hw⟩
    obtain ⟨r, hr, hname⟩ := chosen_rendered hd hrs hc
    obtain ⟨hc', hf⟩ := chosen_renderer hd hrs hs hr hname
    exact (renderer_wanted hnd hr hname hf m).2 (chosen_unique hc hc' ▸ hw)

/-- **C39.** Tags in the comment of a declaration that is no group are chosen for its type when
no other comment with tags comes first that hands them on; a slice does not hand its tags on to
a type whose declaration has a comment with tags. -/
theorem C39_own_tags {file doc s} (hd : DistinctTypes file) (hs : Declares file doc s) (ht : docTags doc ≠ [])
    {t} (h : HandsOn file t s) : t = s := by
  cases h with
  | self => rfl
  | element _ _ h2 h3 =>
    exact absurd ((declared_unique hd h2 hs rfl).2.symm.trans h3) ht

/-! ## C53 with the chosen tags -/

/-- **C53, for every file.** A type whose chosen tags ask for all methods gets those of what is
written in the source; its tags may come from a comment inside a group, or from a slice. -/
theorem C53_chosen {pr k file ext Γ doc s tags} (hp : DistinctAll pr.pkgs)
    (hd : DistinctTypes file) (h : link pr k file ext = .ok Γ)
    (hs : Declares file doc s) (hc : Chosen file s tags) (ht : AsksForAll tags) :
    ∃ d, Γ.decl (identId s.name) = some d ∧ DeclMeans pr.pkgs file s.typ tags d := by
  obtain ⟨rs, table, hrs, htab, rfl⟩ := link_inv h
  have he := declTable_entry htab (distinct_specs hd) (declares_mem hs)
  obtain ⟨r, hr, hname⟩ := chosen_rendered hd hrs hc
  obtain ⟨hc', hfit⟩ := chosen_renderer hd hrs hs hr hname
  have htags := chosen_unique hc' hc
  rw [Entry] at he
  split at he
  · rename_i r' hr'
    obtain ⟨h1, h2, _⟩ := fullRenderer_some hr'
    have hn : (rs.map Renderer.name).Nodup := (normalize_adds hrs).nodup (by simp)
    obtain rfl := renderer_unique hn h1 hr (h2.trans hname.symm)
    obtain ⟨d, hdecl, he⟩ := he
    exact ⟨d, he, htags ▸ declOf_means hiddenName_predeclared hp hd hfit hdecl⟩
  · rename_i hnone
    have := fullRenderer_none hnone hr hname
    rw [htags] at this
    rcases this with h | h | h
    · exact absurd h ht.2.1
    · exact absurd h ht.2.2.1
    · exact absurd h ht.2.2.2

/-- **C53, for every file.** Every other type is known to the generated code only when it is a
name for a predeclared type. -/
theorem C53_not_chosen {pr k file ext Γ doc s} (hd : DistinctTypes file) (h : link pr k file ext = .ok Γ)
    (hs : Declares file doc s) (hc : ∀ tags, Chosen file s tags → ¬ AsksForAll tags) :
    (∃ n p, s.typ = .ident n ∧ Predeclared n p ∧ Γ.decl (identId s.name) = some (.alias (.prim p))) ∨
    Γ.decl (identId s.name) = none := by
  obtain ⟨rs, table, hrs, htab, rfl⟩ := link_inv h
  have he := declTable_entry htab (distinct_specs hd) (declares_mem hs)
  rw [Entry] at he
  split at he
  · rename_i r hr
    obtain ⟨h1, h2, h3, h4, h5⟩ := fullRenderer_some hr
    obtain ⟨hch, _⟩ := chosen_renderer hd hrs hs h1 h2
    have hne : r.tags ≠ [] := by
      obtain ⟨_, _, _, hne, _⟩ := hch
      exact hne
    exact absurd ⟨hne, h3, h4, h5⟩ (hc _ hch)
  · cases hpn : plainName s with
    | none => exact .inr (he.trans (by rw [hpn]; rfl))
    | some p =>
      left
      unfold plainName at hpn
      split at hpn
      · rename_i n hn
        refine ⟨n, p, hn, primNamed_iff.1 hpn, ?_⟩
        simp only [he, plainName, hn, hpn, Option.map_some]
      · cases hpn

section
variable [Ext]

/-- **C53, for every file.** From the source text to the values, as in `C53_reads_partial`. -/
theorem C53_chosen_reads {pr k file ext Γ doc s tags fields} (hp : DistinctAll pr.pkgs)
    (hd : DistinctTypes file) (h : link pr k file ext = .ok Γ)
    (hs : Declares file doc s) (hc : Chosen file s tags) (ht : AsksForAll tags) (hst : s.typ = .struct fields) :
    ∃ flat names fds strict, Flat pr.pkgs none file fields flat ∧ FieldsMean file flat names fds ∧
      (strict = true ↔ str "strict" ∈ tags) ∧
      (HasDecoder Γ (identId s.name) → ∀ v gs gs',
        (∀ fd ∈ fds, KeepsErrors Γ (pointee fd.typ)) → gs.length = fds.length →
        (Fills Γ (identId s.name) v (.struct gs) none (.struct gs') ↔
          Acceptable (jsonNames fds) strict v ∧ gs'.length = fds.length ∧
          ∀ (i : Nat) (fd : FieldDecl) (old new : GoVal), fds[i]? = some fd → gs[i]? = some old →
            gs'[i]? = some new → FieldResult Γ fd v old new)) := by
  obtain ⟨d, hdecl, hm⟩ := C53_chosen hp hd h hs hc ht
  rw [hst] at hm
  cases hm with
  | @struct _ flat names fds _ strict hflat hfields hnames hstrict =>
    refine ⟨flat, names, fds, strict, hflat, hfields, hstrict, ?_⟩
    intro hdec v gs gs' hke hl
    constructor
    · intro hf
      obtain ⟨h1, _, h3, h4⟩ := (struct_iff hdecl hdec).1 hf hke
      exact ⟨h1, h3, h4⟩
    · rintro ⟨h1, h3, h4⟩
      exact (struct_iff hdecl hdec).2 h1 hl h3 h4
  | «alias» ha => cases ha

/-- **C53, for every file.** And back, as in `C53_writes_partial`. -/
theorem C53_chosen_writes {pr k file ext Γ doc s tags fields} (hp : DistinctAll pr.pkgs)
    (hd : DistinctTypes file) (h : link pr k file ext = .ok Γ)
    (hs : Declares file doc s) (hc : Chosen file s tags) (ht : AsksForAll tags) (hst : s.typ = .struct fields)
    {F S X} (hP : EncPackage Γ F S) (hn : S (identId s.name)) :
    ∃ flat names fds, Flat pr.pkgs none file fields flat ∧ FieldsMean file flat names fds ∧
      ∀ gs text, HasType Γ X (.named (identId s.name)) (.struct gs) →
        Fine Γ F (.named (identId s.name)) (.struct gs) →
        Marshals Γ (identId s.name) (some (.struct gs)) (.ok text) →
        ∃ ms : List (List (Str × JV)), Json (.obj ms.flatten) text ∧ ms.length = fds.length ∧
          ∀ (i : Nat) (fd : FieldDecl) (g : GoVal) (m : List (Str × JV)), fds[i]? = some fd →
            gs[i]? = some g → ms[i]? = some m → Enc Γ F (.field fd) g (.obj m) ∧
            ((Omitted Γ fd g ∧ m = []) ∨
             (¬ Omitted Γ fd g ∧ ((∃ d, m = [(fd.tags.jsonName, d)]) ∨
               ∃ k, FieldKind Γ fd.typ (.method k) ∧ fd.tags.jsonName = [] ∧ Enc Γ F (.decl k) g (.obj m)))) := by
  obtain ⟨d, hdecl, hm⟩ := C53_chosen hp hd h hs hc ht
  rw [hst] at hm
  cases hm with
  | @struct _ flat names fds _ strict hflat hfields hnames hstrict =>
    exact ⟨flat, names, fds, hflat, hfields, fun gs text h1 h2 h3 => C22_members_partial hP hn hdecl h1 h2 h3⟩
  | «alias» ha => cases ha

end

/-! ## The cases treated before -/

/-- Without comments inside groups, the tags before the declaration of a type are the chosen
ones. -/
theorem C39_chosen_own {pkgs k file rs doc s} (hd : DistinctTypes file) (hin : NoInnerTags file)
    (h : getNormalized pkgs k file = .ok rs) (hs : Declares file doc s) (ht : docTags doc ≠ []) :
    Chosen file s (docTags doc) := by
  obtain ⟨r, hr, hname, htags, _⟩ := tagged_renderer hd hin h hs ht
  exact htags ▸ (chosen_renderer hd h hs hr hname).1

namespace Examples

/-- A group with comments inside: `Items` comes first, so that its tags count for `Item`, which
has tags of its own; the tags of `Other` count for `Other`. -/
def groupFile : List TypeDecl :=
  [⟨none, [⟨str "Items", .array none (.ident (str "Item")), some [str "// json:strict"]⟩,
     ⟨str "Item", .struct [fieldA], some [str "// json:encode"]⟩,
     ⟨str "Other", .struct [fieldA], some [str "// json:decode"]⟩]⟩]

theorem groupFile_distinct : DistinctTypes groupFile := by
  rw [DistinctTypes]; decide +kernel

theorem groupFile_item : Declares groupFile none ⟨str "Item", .struct [fieldA], some [str "// json:encode"]⟩ :=
  ⟨_, List.mem_cons_self, rfl, by simp⟩

theorem groupFile_chosen :
    Chosen groupFile ⟨str "Item", .struct [fieldA], some [str "// json:encode"]⟩ [str "strict"] := by
  refine ⟨3, ⟨str "Items", .array none (.ident (str "Item")), some [str "// json:strict"]⟩,
    by decide +kernel, by decide +kernel,
    .element (doc := none) .self rfl groupFile_item (by decide +kernel) (by decide +kernel), ?_⟩
  intro j p hj hp hne
  have : (commentOrder groupFile).take 3 = [
      (⟨str "Items", .array none (.ident (str "Item")), some [str "// json:strict"]⟩, []),
      (⟨str "Item", .struct [fieldA], some [str "// json:encode"]⟩, []),
      (⟨str "Other", .struct [fieldA], some [str "// json:decode"]⟩, [])] := by decide +kernel
  have hp' : ((commentOrder groupFile).take 3)[j]? = some p := by
    rw [List.getElem?_take, if_pos hj, hp]
  rw [this] at hp'
  have hm := List.mem_of_getElem? hp'
  simp only [List.mem_cons, List.not_mem_nil, or_false] at hm
  rcases hm with rfl | rfl | rfl <;> exact absurd rfl hne

/-- The generator runs on the file. -/
theorem groupFile_generated : ∃ out, generate noPkgs 5 groupFile = .ok out := ⟨
    [(str "Item", .pool), (str "Item", .unmarshalJSON), (str "Item", .fillFromJSON),
     (str "Item", .validate), (str "Items", .pool), (str "Items", .unmarshalJSON),
     (str "Items", .fillFromJSON), (str "Other", .pool), (str "Other", .unmarshalJSON),
     (str "Other", .fillFromJSON), (str "Other", .validate),
     (str "Item", .marshalJSON), (str "Item", .marshalTo), (str "Item", .isZero), (str "Item", .reset),
     (str "Items", .marshalJSON), (str "Items", .marshalTo), (str "Items", .isZero), (str "Items", .reset)],
    by decide +kernel⟩

/-- So `Item` gets a decoder, although the comment at it asks for the encoder alone. -/
theorem C39_item_decodes : ∀ out, generate noPkgs 5 groupFile = .ok out →
    (str "Item", Member.unmarshalJSON) ∈ out := by
  intro out h
  refine (C39_exact groupFile_distinct h groupFile_item _).2 ⟨_, groupFile_chosen, ?_⟩
  refine ⟨?_, ?_, ?_, ?_⟩ <;> simp [Member.decoding] <;> decide +kernel

example : AsksForAll [str "strict"] := by
  refine ⟨?_, ?_, ?_, ?_⟩ <;> decide +kernel

/-- The types can be linked, and so `C53_chosen` and its companions speak about the file. -/
theorem groupFile_linked : ∃ Γ, link alone 5 groupFile (fun _ => .loop) = .ok Γ := by
  have h : (match getNormalized alone.pkgs 5 groupFile with
      | .ok rs => (match declTable alone rs groupFile (fileSpecs groupFile) with | .ok _ => true | _ => false)
      | _ => false) = true := by decide +kernel
  rw [link]
  split at h
  · rename_i rs hrs
    split at h
    · rename_i table ht
      rw [hrs, Out.ok_bind, ht, Out.ok_bind]
      exact ⟨_, rfl⟩
    · cases h
  · cases h

/-- `Item` is a strict struct with methods, as its chosen tags say. -/
theorem C53_item_strict {Γ} (h : link alone 5 groupFile (fun _ => .loop) = .ok Γ) :
    ∃ fds, Γ.decl (identId (str "Item")) = some (.struct true fds) := by
  obtain ⟨d, hd, hm⟩ := C53_chosen (fun p n f h => by cases h) groupFile_distinct h groupFile_item groupFile_chosen
    (by refine ⟨?_, ?_, ?_, ?_⟩ <;> decide +kernel)
  generalize hs : (⟨str "Item", .struct [fieldA], some [str "// json:encode"]⟩ : TypeSpec).typ = typ at hm
  cases hm with
  | struct _ _ _ hst =>
    rw [hst.2 (by simp)] at hd
    exact ⟨_, hd⟩
  | «alias» ha => cases ha <;> cases hs

end Examples

end VJ
