import Verif.Proof.Front

/-!
# C39, C40: what the front end selects, and the fields it hands on
-/

namespace VJ

/-! ## C39: reading comments -/

theorem dropWhile_all {p : Char → Bool} {a b : Str} (ha : ∀ c ∈ a, p c = true) :
    (a ++ b).dropWhile p = b.dropWhile p := by
  induction a with
  | nil => rfl
  | cons c a ih =>
    rw [List.cons_append, List.dropWhile_cons_of_pos (ha c (by simp))]
    exact ih fun c hc => ha c (by simp [hc])

theorem dropWhile_head {p : Char → Bool} {b : Str} (hb : ∀ c, b.head? = some c → p c = false) :
    b.dropWhile p = b := by
  cases b with
  | nil => rfl
  | cons c b => rw [List.dropWhile_cons_of_neg]; simp [hb c rfl]

theorem mem_takeWhile {p : Char → Bool} {a : Str} {c : Char} (h : c ∈ a.takeWhile p) :
    p c = true := by
  induction a with
  | nil => cases h
  | cons d a ih =>
    rw [List.takeWhile_cons] at h
    split at h
    · rename_i hd
      rcases List.mem_cons.1 h with rfl | h
      · exact hd
      · exact ih h
    · cases h

theorem trimSpace_item {i : TagItem} (h : i.Ok) : trimSpace i.text = i.word := by
  obtain ⟨h1, h2, h3, h4, _⟩ := h
  rw [trimSpace, TagItem.text, List.append_assoc, dropWhile_all h1]
  have hr : ∀ c ∈ i.after.reverse, c.isWhitespace = true := fun c hc => h2 c (by simpa using hc)
  cases hw : i.word with
  | nil =>
    have h0 : (([] : Str) ++ i.after).dropWhile Char.isWhitespace = [] := by
      have := dropWhile_all (b := []) h2
      simpa using this
    rw [h0]; rfl
  | cons c w =>
    have hne : (c :: w ++ i.after).dropWhile Char.isWhitespace = c :: w ++ i.after :=
      dropWhile_head fun c' hc' => h3 c' (by rw [hw]; simpa using hc')
    rw [hne, List.reverse_append, dropWhile_all hr, dropWhile_head, List.reverse_reverse]
    intro c' hc'
    rw [List.head?_reverse] at hc'
    exact h4 c' (by rw [hw]; exact hc')

theorem item_noComma {i : TagItem} (h : i.Ok) : ',' ∉ i.text := by
  obtain ⟨h1, h2, _, _, h5⟩ := h
  rw [TagItem.text]
  simp only [List.mem_append, not_or]
  have hc : (',').isWhitespace = false := by decide
  refine ⟨⟨fun h => ?_, h5⟩, fun h => ?_⟩
  · have := h1 _ h; rw [hc] at this; cases this
  · have := h2 _ h; rw [hc] at this; cases this

theorem splitComma_items {i : TagItem} {is : List TagItem} (h : ∀ j ∈ i :: is, j.Ok) :
    splitComma (itemsText (i :: is)) = (i :: is).map TagItem.text := by
  induction is generalizing i with
  | nil => exact splitComma_noComma (item_noComma (h i (by simp)))
  | cons j js ih =>
    rw [itemsText, splitComma_comma (item_noComma (h i (by simp))),
      ih (fun j hj => h j (List.mem_cons_of_mem _ hj))]
    · rfl
    · simp

/-- **C39.** A comment line that starts, after slashes and blanks, with `json:` gives the
tags that follow, separated by commas, in lower case; blanks around them and empty items do
not count. -/
theorem C39_comment_line {lead : Str} {i : TagItem} {is : List TagItem}
    (hl : ∀ c ∈ lead, c = '/' ∨ c = ' ' ∨ c = '\t') (h : ∀ j ∈ i :: is, j.Ok) :
    extractTags (some [lead ++ str "json:" ++ itemsText (i :: is)])
      = ((i :: is).filter fun j => j.word ≠ []).map fun j => j.word.map Char.toLower := by
  have hdrop : (lead ++ str "json:" ++ itemsText (i :: is)).dropWhile
      (fun c => decide (c = '/') || decide (c = ' ') || decide (c = '\t'))
      = str "json:" ++ itemsText (i :: is) := by
    rw [List.append_assoc, dropWhile_all (fun c hc => by simpa [or_assoc] using hl c hc)]
    exact dropWhile_head fun c hc => by
      have : c = 'j' := by
        have h0 : str "json:" = ['j', 's', 'o', 'n', ':'] := rfl
        rw [h0] at hc
        simpa using hc.symm
      subst this
      decide
  have hpre : (str "json:").isPrefixOf (str "json:" ++ itemsText (i :: is)) = true :=
    List.isPrefixOf_iff_prefix.2 (List.prefix_append _ _)
  have hd5 : (str "json:" ++ itemsText (i :: is)).drop 5 = itemsText (i :: is) := rfl
  simp only [extractTags, List.flatMap_cons, List.flatMap_nil, List.append_nil, lineTags, hdrop,
    hpre, hd5, splitComma_items h]
  generalize i :: is = l at h
  induction l with
  | nil => rfl
  | cons j js ih =>
    have hj := trimSpace_item (h j (by simp))
    have ih := ih fun j hj => h j (List.mem_cons_of_mem _ hj)
    rw [List.map_cons, List.filterMap_cons, hj, ih]
    by_cases hw : j.word = []
    · simp [hw]
    · simp [hw]

/-- **C39.** Any other line gives no tags. -/
theorem C39_other_line {line : Str}
    (h : ∀ lead rest, line = lead ++ str "json:" ++ rest →
      ∃ c ∈ lead, ¬ (c = '/' ∨ c = ' ' ∨ c = '\t')) :
    extractTags (some [line]) = [] := by
  simp only [extractTags, List.flatMap_cons, List.flatMap_nil, List.append_nil, lineTags]
  split
  · rename_i hp
    obtain ⟨rest, hr⟩ := List.isPrefixOf_iff_prefix.1 hp
    have hsplit := List.takeWhile_append_dropWhile
      (p := fun c => decide (c = '/') || decide (c = ' ') || decide (c = '\t')) (l := line)
    obtain ⟨c, hc, hn⟩ := h _ rest (by rw [List.append_assoc, hr]; exact hsplit.symm)
    have := mem_takeWhile hc
    exact absurd (by simpa [or_assoc] using this) hn
  · rfl

/-! ## C39: what is generated -/

theorem mem_decoderDecls {rs n m} : (n, m) ∈ decoderDecls rs ↔
    ∃ r ∈ rs, r.name = n ∧ str "custom" ∉ r.tags ∧ str "encode" ∉ r.tags ∧ m.decoding ∧
      (m = .validate → ∃ fields, r.kind = .struct fields) := by
  simp only [decoderDecls, List.mem_flatMap]
  refine exists_congr fun r => and_congr_right fun _ => ?_
  split
  · rename_i h; simp [h]
  · rename_i h1
    split
    · rename_i h2; simp [h2]
    · rename_i h2
      simp only [h1, h2, not_false_eq_true, true_and, Renderer.decoders, List.mem_append,
        List.mem_cons, Prod.mk.injEq, List.not_mem_nil, or_false]
      cases m <;> cases hk : r.kind <;> simp [Member.decoding, eq_comm]

theorem mem_encoderDecls {rs n m} : (n, m) ∈ encoderDecls rs ↔
    ∃ r ∈ rs, r.name = n ∧ str "custom" ∉ r.tags ∧ str "decode" ∉ r.tags ∧ ¬ m.decoding := by
  simp only [encoderDecls, List.mem_flatMap]
  refine exists_congr fun r => and_congr_right fun _ => ?_
  split
  · rename_i h; simp [h]
  · rename_i h1
    split
    · rename_i h2; simp [h2]
    · rename_i h2
      simp only [h1, h2, not_false_eq_true, true_and, Renderer.encoders,
        List.mem_cons, Prod.mk.injEq, List.not_mem_nil, or_false]
      cases m <;> simp [Member.decoding, eq_comm]

theorem nodup_byName {rs : List Renderer} {f : Renderer → List (Str × Member)}
    (hn : (rs.map Renderer.name).Nodup) (hf : ∀ r, (f r).Nodup)
    (hname : ∀ r, ∀ p ∈ f r, p.1 = r.name) : (rs.flatMap f).Nodup := by
  induction rs with
  | nil => simp
  | cons r rs ih =>
    simp only [List.map_cons, List.nodup_cons, List.mem_map, not_exists, not_and] at hn
    rw [List.flatMap_cons, List.nodup_append]
    refine ⟨hf r, ih hn.2, ?_⟩
    intro a ha b hb hab
    subst hab
    obtain ⟨r', hr', hb⟩ := List.mem_flatMap.1 hb
    exact hn.1 r' hr' ((hname r' a hb).symm.trans (hname r a ha))

theorem generate_inv {pkgs k file out} (h : generate pkgs k file = .ok out) :
    ∃ rs, getNormalized pkgs k file = .ok rs ∧ out = decoderDecls rs ++ encoderDecls rs := by
  obtain ⟨rs, h1, h⟩ := Out.bind_eq_ok.1 h
  obtain ⟨rs', h2, h⟩ := Out.bind_eq_ok.1 h
  rw [h1] at h2
  cases h2
  cases h
  exact ⟨rs, h1, rfl⟩

/-- **C39.** Whatever the file, nothing is generated twice. -/
theorem C39_once {pkgs k file out} (h : generate pkgs k file = .ok out) : out.Nodup := by
  obtain ⟨rs, hrs, rfl⟩ := generate_inv h
  have hn : (rs.map Renderer.name).Nodup := (normalize_adds hrs).nodup (by simp)
  rw [List.nodup_append]
  refine ⟨nodup_byName hn ?_ ?_, nodup_byName hn ?_ ?_, ?_⟩
  · intro r
    split
    · simp
    · split
      · simp
      · rw [Renderer.decoders]; split <;> simp
  · intro r p hp
    split at hp
    · cases hp
    · split at hp
      · cases hp
      · rw [Renderer.decoders] at hp
        split at hp <;> simp at hp <;> rcases hp with rfl | rfl | rfl | rfl <;> rfl
  · intro r
    split
    · simp
    · split
      · simp
      · simp [Renderer.encoders]
  · intro r p hp
    split at hp
    · cases hp
    · split at hp
      · cases hp
      · simp only [Renderer.encoders, List.mem_cons, List.not_mem_nil, or_false] at hp
        rcases hp with rfl | rfl | rfl | rfl <;> rfl
  · rintro ⟨n, m⟩ ha b hb rfl
    obtain ⟨_, _, _, _, _, h1, _⟩ := mem_decoderDecls.1 ha
    obtain ⟨_, _, _, _, _, h2⟩ := mem_encoderDecls.1 hb
    exact h2 h1

/-- There are no tags in comments inside a group of types. -/
def NoInnerTags (file : List TypeDecl) : Prop :=
  ∀ d ∈ file, ∀ s ∈ d.specs, extractTags s.doc = []

theorem reaches_snoc {v : Visitor} {s t len n e} (h : Reaches v s t) (h1 : t.typ = .array len (.ident n))
    (h2 : denotesByte v (.ident n) = false) (h3 : v.getDecl n = some ⟨e, []⟩) : Reaches v s e := by
  induction h with
  | refl => exact .step h1 h2 h3 .refl
  | step a b c _ ih => exact .step a b c (ih h1)

theorem reaches_inherits {file : List TypeDecl} (hd : DistinctTypes file) {over s t}
    (h : Reaches ⟨over, visit file⟩ s t) {tags : List Str}
    (hs : (∃ doc, Declares file doc s ∧ docTags doc ≠ [] ∧ tags = docTags doc) ∨
      Inherits file s tags) :
    (t = s ∧ ∃ doc, Declares file doc s ∧ docTags doc ≠ [] ∧ tags = docTags doc) ∨
      Inherits file t tags := by
  induction h with
  | refl => exact hs.imp (fun h => ⟨rfl, h⟩) id
  | step h1 h2 h3 _ ih =>
    rename_i s n e t _
    obtain ⟨doc, hdec, hn, ht⟩ := getDecl_inv hd h3
    simp only at hdec hn ht
    have hnb : e.typ ≠ .ident (str "byte") := by
      intro hb
      simp [denotesByte, h3, hb] at h2
    have he : Inherits file e tags := by
      subst hn
      rcases hs with ⟨doc', h4, h5, rfl⟩ | hs
      · exact .fromTagged hdec ht.symm hnb h4 h5 h1
      · exact .fromHeir hdec ht.symm hnb hs h1
    rcases ih (.inr he) with ⟨rfl, _⟩ | h
    · exact .inr he
    · exact .inr h

theorem inherits_reached {file : List TypeDecl} (hd : DistinctTypes file) {over t tags}
    (h : Inherits file t tags) :
    ∃ doc s, Declares file doc s ∧ docTags doc ≠ [] ∧ tags = docTags doc ∧
      Reaches ⟨over, visit file⟩ s t := by
  have step : ∀ {doc : Option (List Str)} {s : TypeSpec}, Declares file doc s → docTags doc = [] →
      s.typ ≠ .ident (str "byte") →
      (⟨over, visit file⟩ : Visitor).getDecl s.name = some ⟨s, []⟩ ∧
      denotesByte ⟨over, visit file⟩ (.ident s.name) = false := by
    intro doc s h1 h2 h3
    have hg := getDecl_declared (over := over) hd h1
    rw [show extractTags doc = [] from h2] at hg
    refine ⟨hg, ?_⟩
    simp [denotesByte, hg, h3]
  induction h with
  | fromTagged h1 h2 h3 h4 h5 h6 =>
    obtain ⟨hg, hb⟩ := step h1 h2 h3
    exact ⟨_, _, h4, h5, rfl, .step h6 hb hg .refl⟩
  | fromHeir h1 h2 h3 _ h6 ih =>
    obtain ⟨hg, hb⟩ := step h1 h2 h3
    obtain ⟨doc, s, h7, h8, h9, h10⟩ := ih
    exact ⟨doc, s, h7, h8, h9, reaches_snoc h10 h6 hb hg⟩

theorem inherits_declared {file t tags} (h : Inherits file t tags) :
    ∃ doc, Declares file doc t ∧ docTags doc = [] := by
  cases h with
  | fromTagged h1 h2 => exact ⟨_, h1, h2⟩
  | fromHeir h1 h2 => exact ⟨_, h1, h2⟩

/-- Every renderer comes from a tagged type, or from one that inherits its tags. -/
theorem renderer_origin {pkgs k file rs} (hd : DistinctTypes file) (hin : NoInnerTags file)
    (h : getNormalized pkgs k file = .ok rs) {r} (hr : r ∈ rs) :
    ∃ doc t, Declares file doc t ∧ r.name = t.name ∧ Fits pkgs ⟨none, visit file⟩ t r.tags r.kind ∧
      ((docTags doc ≠ [] ∧ r.tags = docTags doc) ∨ Inherits file t r.tags) := by
  obtain ⟨new, rfl, hnew⟩ := (normalize_adds h).grows
  obtain ⟨p, hp, t, h1, h2, h3, h4⟩ := hnew r (by simpa using hr)
  obtain ⟨d, hdm, rfl⟩ := List.mem_map.1 hp
  obtain ⟨hdm, htags⟩ := List.mem_filter.1 hdm
  obtain ⟨td, htd, hs, hcase⟩ := mem_visit.1 hdm
  have htags : d.tags ≠ [] := by simpa using htags
  have hdt : d.tags = docTags td.doc := by
    rcases hcase with h | h
    · exact h
    · rw [hin td htd _ hs] at h; exact absurd h htags
  have hdecl : Declares file td.doc d.spec := ⟨td, htd, rfl, hs⟩
  rw [← h3] at h4
  rcases reaches_inherits hd h1 (.inl ⟨td.doc, hdecl, hdt ▸ htags, hdt⟩) with ⟨rfl, _⟩ | hi
  · exact ⟨td.doc, _, hdecl, h2, h4, .inl ⟨hdt ▸ htags, h3.trans hdt⟩⟩
  · obtain ⟨doc, h5, _⟩ := inherits_declared hi
    exact ⟨doc, t, h5, h2, h4, .inr (h3 ▸ hi)⟩

theorem renderer_wanted {rs : List Renderer} (hn : (rs.map Renderer.name).Nodup)
    {r : Renderer} (hr : r ∈ rs) {s : TypeSpec} (hname : r.name = s.name)
    {pkgs v} (hf : Fits pkgs v s r.tags r.kind) (m : Member) :
    (s.name, m) ∈ decoderDecls rs ++ encoderDecls rs ↔ Wanted s r.tags m := by
  have huniq : ∀ r' ∈ rs, r'.name = s.name → r' = r := by
    intro r' hr' hn'
    clear hf
    induction rs with
    | nil => cases hr
    | cons x xs ih =>
      simp only [List.map_cons, List.nodup_cons, List.mem_map, not_exists, not_and] at hn
      rcases List.mem_cons.1 hr with hr | hr <;> rcases List.mem_cons.1 hr' with hr' | hr'
      · rw [hr, hr']
      · exact absurd (hn'.trans (hname.symm.trans (by rw [hr]))) (hn.1 r' hr')
      · exact absurd (hname.trans (hn'.symm.trans (by rw [hr']))) (hn.1 r hr)
      · exact ih hn.2 hr hr'
  rw [List.mem_append, mem_decoderDecls, mem_encoderDecls]
  constructor
  · rintro (⟨r', hr', h1, h2, h3, h4, h5⟩ | ⟨r', hr', h1, h2, h3, h4⟩)
    · obtain rfl := huniq r' hr' h1
      exact ⟨h2, fun _ => h3, fun h => absurd h4 h, fun h => hf.struct_iff.1 (h5 h)⟩
    · obtain rfl := huniq r' hr' h1
      refine ⟨h2, fun h => absurd h h4, fun _ => h3, fun h => ?_⟩
      subst h
      exact absurd trivial h4
  · rintro ⟨h1, h2, h3, h4⟩
    by_cases hm : m.decoding
    · exact .inl ⟨r, hr, hname, h1, h2 hm, hm, fun h => hf.struct_iff.2 (h4 h)⟩
    · exact .inr ⟨r, hr, hname, h1, h3 hm, hm⟩

/-- **C39.** For a type with comment tags, exactly what its tags ask for is generated.

Missing from the full property: tags in comments inside a group of types, which lose against
those of a slice type that comes first (`Examples.C39_group_tags_lost`). -/
theorem C39_tagged_partial {pkgs k file out doc s} (hd : DistinctTypes file)
    (hin : NoInnerTags file) (h : generate pkgs k file = .ok out) (hs : Declares file doc s)
    (ht : docTags doc ≠ []) (m : Member) :
    (s.name, m) ∈ out ↔ Wanted s (docTags doc) m := by
  obtain ⟨rs, hrs, rfl⟩ := generate_inv h
  have hA := normalize_adds hrs
  obtain ⟨d, hdf, rfl, hsm⟩ := hs
  have hvis : (⟨s, extractTags d.doc⟩ : TaggedDecl) ∈ visit file :=
    mem_visit.2 ⟨d, hdf, hsm, .inl rfl⟩
  obtain ⟨r, hr, hname⟩ := hA.covers (s, extractTags d.doc)
    (List.mem_map.2 ⟨_, List.mem_filter.2 ⟨hvis, by simpa [docTags] using ht⟩, rfl⟩) s .refl
  obtain ⟨doc', t, h1, h2, h3, h4⟩ := renderer_origin hd hin hrs hr
  obtain ⟨rfl, hdoc⟩ := declared_unique hd h1 ⟨d, hdf, rfl, hsm⟩ (h2.symm.trans hname)
  have htags : r.tags = docTags d.doc := by
    rcases h4 with ⟨_, h4⟩ | h4
    · exact h4.trans hdoc
    · obtain ⟨doc'', h5, h6⟩ := inherits_declared h4
      have := (declared_unique hd h5 ⟨d, hdf, rfl, hsm⟩ rfl).2
      exact absurd (this.symm.trans h6) ht
  rw [renderer_wanted (hA.nodup (by simp)) hr hname h3, htags]

/-- **C39.** For a type without comment tags, nothing is generated, unless it is the element
type of a tagged slice (or of a slice that inherits tags in turn): then what those tags ask
for is generated. -/
theorem C39_untagged_partial {pkgs k file out doc s} (hd : DistinctTypes file)
    (hin : NoInnerTags file) (h : generate pkgs k file = .ok out) (hs : Declares file doc s)
    (ht : docTags doc = []) :
    (∃ tags, Inherits file s tags ∧ ∀ m, (s.name, m) ∈ out ↔ Wanted s tags m) ∨
    ((∀ tags, ¬ Inherits file s tags) ∧ ∀ m, (s.name, m) ∉ out) := by
  obtain ⟨rs, hrs, rfl⟩ := generate_inv h
  have hA := normalize_adds hrs
  by_cases hex : ∃ r ∈ rs, r.name = s.name
  · obtain ⟨r, hr, hname⟩ := hex
    left
    obtain ⟨doc', t, h1, h2, h3, h4⟩ := renderer_origin hd hin hrs hr
    obtain ⟨rfl, hdoc⟩ := declared_unique hd h1 hs (h2.symm.trans hname)
    rcases h4 with ⟨h4, _⟩ | h4
    · exact absurd (hdoc.trans ht) h4
    · exact ⟨r.tags, h4, renderer_wanted (hA.nodup (by simp)) hr hname h3⟩
  · right
    refine ⟨fun tags hi => ?_, fun m hm => ?_⟩
    · obtain ⟨doc', o, h1, h2, h3, h4⟩ := inherits_reached (over := none) hd hi
      obtain ⟨d, hdf, rfl, hsm⟩ := h1
      have hvis : (⟨o, extractTags d.doc⟩ : TaggedDecl) ∈ visit file :=
        mem_visit.2 ⟨d, hdf, hsm, .inl rfl⟩
      obtain ⟨r, hr, hname⟩ := hA.covers (o, extractTags d.doc)
        (List.mem_map.2 ⟨_, List.mem_filter.2 ⟨hvis, by simpa [docTags] using h2⟩, rfl⟩) s h4
      exact hex ⟨r, hr, hname⟩
    · rcases List.mem_append.1 hm with hm | hm
      · obtain ⟨r, hr, hn, _⟩ := mem_decoderDecls.1 hm
        exact hex ⟨r, hr, hn⟩
      · obtain ⟨r, hr, hn, _⟩ := mem_encoderDecls.1 hm
        exact hex ⟨r, hr, hn⟩

theorem reaches_declared {file : List TypeDecl} {over s t}
    (h : Reaches ⟨over, visit file⟩ s t) (hs : ∃ td ∈ file, s ∈ td.specs) :
    ∃ td ∈ file, t ∈ td.specs := by
  induction h with
  | refl => exact hs
  | step _ _ h3 _ ih =>
    obtain ⟨td, htd, hs, _⟩ := mem_visit.1 (getDecl_spec h3).1
    exact ih ⟨td, htd, hs⟩

/-- **C39.** Nothing is generated for types that are not declared in the file. -/
theorem C39_only_declared {pkgs k file out n m} (h : generate pkgs k file = .ok out)
    (hm : (n, m) ∈ out) : ∃ doc s, Declares file doc s ∧ s.name = n := by
  obtain ⟨rs, hrs, rfl⟩ := generate_inv h
  have hr : ∃ r ∈ rs, r.name = n := by
    rcases List.mem_append.1 hm with hm | hm
    · obtain ⟨r, hr, hn, _⟩ := mem_decoderDecls.1 hm; exact ⟨r, hr, hn⟩
    · obtain ⟨r, hr, hn, _⟩ := mem_encoderDecls.1 hm; exact ⟨r, hr, hn⟩
  obtain ⟨r, hr, rfl⟩ := hr
  obtain ⟨new, rfl, hnew⟩ := (normalize_adds hrs).grows
  obtain ⟨p, hp, t, h1, h2, _⟩ := hnew r (by simpa using hr)
  obtain ⟨d, hdm, rfl⟩ := List.mem_map.1 hp
  have hdm := (List.mem_filter.1 hdm).1
  have hmem : ∃ td ∈ file, t ∈ td.specs := by
    obtain ⟨td, htd, hs, _⟩ := mem_visit.1 hdm
    exact reaches_declared h1 ⟨td, htd, hs⟩
  obtain ⟨td, htd, hs⟩ := hmem
  exact ⟨td.doc, t, ⟨td, htd, rfl, hs⟩, h2.symm⟩

/-! ## C40: inlining -/

/-- **C40.** Whatever the declarations and however deep the inlining: the fields handed to the
code generator are `out` exactly when `out` is the list of fields with every inlined struct
replaced, in place and recursively, by its own fields.

Missing from the full property: a field with a name of its own and a type of another package
is not replaced (constructor `namedForeign`, `Examples.C40_named_foreign_kept`). -/
theorem C40_flattened_partial {pkgs over file src out} (hp : DistinctAll pkgs)
    (hd : DistinctTypes file) :
    (∃ k, collectFields pkgs k ⟨over, visit file⟩ src = .ok out) ↔ Flat pkgs over file src out :=
  ⟨fun ⟨_, h⟩ => collect_sound hp hd h, fun h => collect_complete hp h hd⟩

/-- **C40.** In place: flattening a list of fields is flattening its parts. -/
theorem C40_in_place {pkgs over file a b out} :
    Flat pkgs over file (a ++ b) out ↔
      ∃ x y, out = x ++ y ∧ Flat pkgs over file a x ∧ Flat pkgs over file b y := by
  constructor
  · intro h
    induction a generalizing out with
    | nil => exact ⟨[], out, rfl, .nil, h⟩
    | cons f fs ih =>
      rw [List.cons_append] at h
      cases h with
      | keep h1 h2 h3 h4 =>
        obtain ⟨x, y, rfl, hx, hy⟩ := ih h4
        exact ⟨_ :: x, y, rfl, .keep h1 h2 h3 hx, hy⟩
      | inline h1 h2 h3 h4 h5 h6 h7 h8 h9 h10 =>
        obtain ⟨x, y, rfl, hx, hy⟩ := ih h10
        exact ⟨_ ++ x, y, (List.append_assoc ..).symm, .inline h1 h2 h3 h4 h5 h6 h7 h8 h9 hx, hy⟩
      | sameName h1 h2 h3 h4 h5 h6 h7 h8 h9 h10 =>
        obtain ⟨x, y, rfl, hx, hy⟩ := ih h10
        exact ⟨_ :: x, y, rfl, .sameName h1 h2 h3 h4 h5 h6 h7 h8 h9 hx, hy⟩
      | namedForeign h1 h2 h3 h4 h5 h6 =>
        obtain ⟨x, y, rfl, hx, hy⟩ := ih h6
        exact ⟨_ :: x, y, rfl, .namedForeign h1 h2 h3 h4 h5 hx, hy⟩
  · rintro ⟨x, y, rfl, hx, hy⟩
    induction a generalizing x with
    | nil => cases hx; exact hy
    | cons f fs ih =>
      rw [List.cons_append]
      cases hx with
      | keep h1 h2 h3 h4 => exact .keep h1 h2 h3 (ih _ h4)
      | inline h1 h2 h3 h4 h5 h6 h7 h8 h9 h10 =>
        rw [List.append_assoc]
        exact .inline h1 h2 h3 h4 h5 h6 h7 h8 h9 (ih _ h10)
      | sameName h1 h2 h3 h4 h5 h6 h7 h8 h9 h10 =>
        exact .sameName h1 h2 h3 h4 h5 h6 h7 h8 h9 (ih _ h10)
      | namedForeign h1 h2 h3 h4 h5 h6 => exact .namedForeign h1 h2 h3 h4 h5 (ih _ h6)

theorem target_file {pkgs over file f over' file' n} (h : Target pkgs over file f over' file' n) :
    file' = file ∨ ∃ p n, pkgs p n = some file' := by
  cases h with
  | here => exact .inl rfl
  | there _ _ hpk => exact .inr ⟨_, _, hpk⟩

/-- **C40.** Every field of the result is a field of the struct itself or of a struct
declared in the file or in another package, with the names and the tag it has there. -/
theorem C40_from_declarations {pkgs over file src out} (h : Flat pkgs over file src out)
    {g} (hg : g ∈ out) :
    ∃ f, f.names = g.names ∧ f.tag = g.tag ∧ (f ∈ src ∨
      ∃ file' doc s fields, (file' = file ∨ ∃ p n, pkgs p n = some file') ∧
        Declares file' doc s ∧ s.typ = .struct fields ∧ f ∈ fields) := by
  have seen : ∀ {over} {f f' : SrcField}, SeenFrom over f f' → f.names = f'.names ∧ f.tag = f'.tag := by
    intro over f f' hs
    cases hs <;> exact ⟨rfl, rfl⟩
  have lift : ∀ {file : List TypeDecl} {f : SrcField} {fs g},
      (∃ f', f'.names = g.names ∧ f'.tag = g.tag ∧ (f' ∈ fs ∨
        ∃ file' doc s fields, (file' = file ∨ ∃ p n, pkgs p n = some file') ∧
          Declares file' doc s ∧ s.typ = .struct fields ∧ f' ∈ fields)) →
      ∃ f', f'.names = SrcField.names g ∧ f'.tag = g.tag ∧ (f' ∈ f :: fs ∨
        ∃ file' doc s fields, (file' = file ∨ ∃ p n, pkgs p n = some file') ∧
          Declares file' doc s ∧ s.typ = .struct fields ∧ f' ∈ fields) := by
    rintro file f fs g ⟨f', h1, h2, h3⟩
    exact ⟨f', h1, h2, h3.imp (List.mem_cons_of_mem _) id⟩
  induction h with
  | nil => cases hg
  | keep h1 h2 h3 h4 ih =>
    rcases List.mem_cons.1 hg with rfl | hg
    · exact ⟨_, (seen h2).1, (seen h2).2, .inl (by simp)⟩
    · exact lift (ih hg)
  | inline h1 h2 h3 h4 h5 h6 h7 h8 h9 h10 ih1 ih2 =>
    rcases List.mem_append.1 hg with hg | hg
    · obtain ⟨f', ha, hb, hc⟩ := ih1 hg
      refine ⟨f', ha, hb, .inr ?_⟩
      have hfile := target_file h4
      rcases hc with hc | ⟨file', doc, s, fields, hf, hd, ht, hm⟩
      · exact ⟨_, _, _, _, hfile, h5, h7, hc⟩
      · refine ⟨file', doc, s, fields, ?_, hd, ht, hm⟩
        rcases hf with rfl | hf
        · exact hfile
        · exact .inr hf
    · exact lift (ih2 hg)
  | sameName h1 h2 h3 h4 h5 h6 h7 h8 h9 h10 ih1 ih2 =>
    rcases List.mem_cons.1 hg with rfl | hg
    · exact ⟨_, (seen h2).1, (seen h2).2, .inl (by simp)⟩
    · exact lift (ih2 hg)
  | namedForeign h1 h2 h3 h4 h5 h6 ih =>
    rcases List.mem_cons.1 hg with rfl | hg
    · exact ⟨_, (seen h2).1, (seen h2).2, .inl (by simp)⟩
    · exact lift (ih hg)

/-- **C40.** Without inlined fields nothing changes, but for the names of types of other
packages. -/
theorem C40_nothing_to_inline {pkgs file src out} (h : Flat pkgs none file src out)
    (hno : ∀ f ∈ src, ¬ Inlined f) : out = src := by
  induction src generalizing out with
  | nil => cases h; rfl
  | cons f fs ih =>
    have hf := hno f (by simp)
    have hfs := fun f hf => hno f (List.mem_cons_of_mem _ hf)
    cases h with
    | keep h1 h2 h3 h4 => cases h2; rw [ih h4 hfs]
    | inline _ _ h3 => exact absurd h3 hf
    | sameName _ _ h3 => exact absurd h3 hf
    | namedForeign _ _ h3 => exact absurd h3 hf

/-- **C40.** The result is unique. -/
theorem C40_unique {pkgs over file src out out'} (hp : DistinctAll pkgs) (hd : DistinctTypes file)
    (h : Flat pkgs over file src out) (h' : Flat pkgs over file src out') : out = out' := by
  obtain ⟨k, hk⟩ := collect_complete hp h hd
  obtain ⟨k', hk'⟩ := collect_complete hp h' hd
  have h1 := collectFields_mono (Nat.le_max_left k k') hk
  have h2 := collectFields_mono (Nat.le_max_right k k') hk'
  rw [h1] at h2
  cases h2
  rfl

namespace Examples

/-! A file with four types; `Item` gets its tags from `Items`. -/

def fieldA : SrcField := ⟨[str "A"], .ident (str "int8"), some (str "`json:\"a\"`")⟩
def fieldB : SrcField := ⟨[str "B"], .ident (str "string"), some (str "`json:\"b,omitempty\"`")⟩
def inlineBase : SrcField := ⟨[], .ident (str "Base"), some (str "`json:\",inline\"`")⟩

def srcFile : List TypeDecl :=
  [⟨some [str "// Base is shared."], [⟨str "Base", .struct [fieldA], none⟩]⟩,
   ⟨some [str "// User does things.", str "// json: strict, Decode"],
     [⟨str "User", .struct [fieldB, inlineBase], none⟩]⟩,
   ⟨some [str "//json:encode"], [⟨str "Items", .array none (.ident (str "Item")), none⟩]⟩,
   ⟨none, [⟨str "Item", .struct [fieldA], none⟩]⟩]

def noPkgs : GetPackage := fun _ _ => none

theorem srcFile_distinct : DistinctTypes srcFile := by
  rw [DistinctTypes]; decide +kernel
theorem srcFile_noInner : NoInnerTags srcFile := by
  rw [NoInnerTags]; decide +kernel

/-- The generator runs on the file, and produces the decoding half for `User` and the
encoding half for `Items` and `Item`, nothing for `Base`. -/
theorem C39_srcFile : generate noPkgs 5 srcFile = .ok
    [(str "User", .pool), (str "User", .unmarshalJSON), (str "User", .fillFromJSON),
     (str "User", .validate),
     (str "Item", .marshalJSON), (str "Item", .marshalTo), (str "Item", .isZero), (str "Item", .reset),
     (str "Items", .marshalJSON), (str "Items", .marshalTo), (str "Items", .isZero),
     (str "Items", .reset)] := by decide +kernel

example : Inherits srcFile ⟨str "Item", .struct [fieldA], none⟩ [str "encode"] :=
  Inherits.fromTagged (doc := none) (doc' := some [str "//json:encode"])
    (owner := ⟨str "Items", .array none (.ident (str "Item")), none⟩)
    ⟨⟨none, [⟨str "Item", .struct [fieldA], none⟩]⟩, by decide +kernel, rfl, by decide +kernel⟩
    rfl (by decide +kernel)
    ⟨⟨some [str "//json:encode"], [⟨str "Items", .array none (.ident (str "Item")), none⟩]⟩,
      by decide +kernel, rfl, by decide +kernel⟩
    (by decide +kernel) rfl

/-- A comment tag with blanks and an empty item. -/
example : extractTags (some [str "// json: strict , ,Decode"]) = [str "strict", str "decode"] := by
  decide +kernel

/-- The full property fails: in a group, the tags of `Item` itself (`encode`) lose against
those of the slice type `Items` before it (`decode`). -/
theorem C39_group_tags_lost :
    generate noPkgs 5 [⟨none,
      [⟨str "Items", .array none (.ident (str "Item")), some [str "// json:decode"]⟩,
       ⟨str "Item", .struct [fieldA], some [str "// json:encode"]⟩]⟩] = .ok
    [(str "Item", .pool), (str "Item", .unmarshalJSON), (str "Item", .fillFromJSON),
     (str "Item", .validate), (str "Items", .pool), (str "Items", .unmarshalJSON),
     (str "Items", .fillFromJSON)] := by decide +kernel

/-- A slice type whose elements are of the same type (`type B []B`), without tags, under a
tagged slice: the generator does not come to an end. -/
theorem C39_recursive_slice_never_ends (k : Nat) :
    getNormalized noPkgs k
      [⟨some [str "// json:strict"], [⟨str "A", .array none (.ident (str "B")), none⟩]⟩,
       ⟨none, [⟨str "B", .array none (.ident (str "B")), none⟩]⟩] = .loop := by
  generalize hf : ([⟨some [str "// json:strict"], [⟨str "A", .array none (.ident (str "B")), none⟩]⟩,
       ⟨none, [⟨str "B", .array none (.ident (str "B")), none⟩]⟩] : List TypeDecl) = file
  have hg : (⟨none, visit file⟩ : Visitor).getDecl (str "B")
      = some ⟨⟨str "B", .array none (.ident (str "B")), none⟩, []⟩ := by subst hf; decide +kernel
  have hb : denotesByte ⟨none, visit file⟩ (.ident (str "B")) = false := by subst hf; decide +kernel
  have hB : ∀ (k : Nat) (n : Str) (tags : List Str) (res : List Renderer),
      processDecl noPkgs k ⟨none, visit file⟩ ⟨⟨n, .array none (.ident (str "B")), none⟩, tags⟩ res = .loop := by
    intro k
    induction k with
    | zero => intros; rfl
    | succ k ih =>
      intro n tags res
      simp only [processDecl, hb, Bool.false_eq_true, if_false, processElem, hg, ih]
      rfl
  have hv : visit file = ⟨⟨str "A", .array none (.ident (str "B")), none⟩, [str "strict"]⟩ ::
      (visit file).drop 1 := by subst hf; decide +kernel
  have : ∀ l, normalize noPkgs k ⟨none, visit file⟩
      (⟨⟨str "A", .array none (.ident (str "B")), none⟩, [str "strict"]⟩ :: l) [] = .loop := by
    intro l
    rw [normalize, if_neg (by simp), hB]
    rfl
  have := this ((visit file).drop 1)
  rwa [← hv] at this

/-- With both `encode` and `decode`, nothing at all is generated. -/
theorem C39_both_tags : generate noPkgs 5
    [⟨some [str "// json:encode,decode"], [⟨str "Item", .struct [fieldA], none⟩]⟩] = .ok [] := by
  decide +kernel

/-- The struct `User` of the file is flattened so. -/
theorem C40_user : Flat noPkgs none srcFile [fieldB, inlineBase] [fieldB, fieldA] :=
  collect_sound (k := 3) (by intro p n f h; cases h) srcFile_distinct (by decide +kernel)

/-- A struct with a field of its own name is kept. -/
theorem C40_own_name_kept :
    collectFields noPkgs 3 ⟨none, visit [⟨none, [⟨str "Base",
      .struct [⟨[str "Base"], .ident (str "string"), some (str "`json:\"base\"`")⟩], none⟩]⟩]⟩
      [fieldB, inlineBase] = .ok [fieldB, inlineBase] := by decide +kernel

/-- The full property fails: a field with a name, of a type of another package, is not
replaced. -/
theorem C40_named_foreign_kept :
    collectFields (fun _ _ => some srcFile) 3 ⟨none, []⟩
      [⟨[str "X"], .sel (str "p") (str "Base"), some (str "`json:\",inline\"`")⟩]
      = .ok [⟨[str "X"], .sel (str "p") (str "Base"), some (str "`json:\",inline\"`")⟩] ∧
    collectFields (fun _ _ => some srcFile) 3 ⟨none, []⟩
      [⟨[], .sel (str "p") (str "Base"), some (str "`json:\",inline\"`")⟩] = .ok [fieldA] := by
  decide +kernel

/-- Structs that inline each other: the generator does not come to an end. -/
theorem C40_cycle_never_ends (k : Nat) :
    collectFields noPkgs k ⟨none, visit [⟨none, [⟨str "Base", .struct [inlineBase], none⟩]⟩]⟩
      [inlineBase] = .loop := by
  induction k with
  | zero => rfl
  | succ k ih =>
    have h1 : (fieldTags inlineBase.tag).appendix = str "inline" := by decide +kernel
    rw [collectFields, collectEach]
    have : collectField noPkgs (collectFields noPkgs k)
        ⟨none, visit [⟨none, [⟨str "Base", .struct [inlineBase], none⟩]⟩]⟩ inlineBase = .loop := by
      rw [collectField, if_neg (by decide)]
      simp only [show qualify none inlineBase = inlineBase from rfl]
      rw [if_pos h1]
      have hx : exploreInlined noPkgs (collectFields noPkgs k)
          ⟨none, visit [⟨none, [⟨str "Base", .struct [inlineBase], none⟩]⟩]⟩ inlineBase = .loop := by
        have hg : (⟨none, visit [⟨none, [⟨str "Base", .struct [inlineBase], none⟩]⟩]⟩ : Visitor).getDecl
            (str "Base") = some ⟨⟨str "Base", .struct [inlineBase], none⟩, []⟩ := by decide +kernel
        have ht : inlineBase.typ = .ident (str "Base") := rfl
        rw [exploreInlined, ht]
        simp only
        rw [inlineDecl, hg]
        simp only [ih, Out.loop_bind]
      rw [hx, Out.loop_bind]
    rw [this, Out.loop_bind]

end Examples

end VJ
