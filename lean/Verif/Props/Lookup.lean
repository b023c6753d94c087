import Verif.Spec.Lookup
import Verif.Spec.Front
import Verif.Props.Discover

/-!
# C51, C52: names of other packages are looked up in the right directory
-/

namespace VJ

theorem hasName_iff {g : GenDecl} {x : Str} : g.hasName x = true ↔ Mentions x g := by
  unfold GenDecl.hasName
  constructor
  · intro h
    split at h
    · rename_i d hd
      obtain ⟨s, hs, hn⟩ := List.any_eq_true.1 h
      exact .typ hd hs (by simpa using hn)
    · rename_i names hd
      exact .value hd (by simpa using h)
    · cases h
  · intro h
    cases h with
    | typ hd hs hn =>
      rw [hd]
      exact List.any_eq_true.2 ⟨_, hs, by simpa using hn⟩
    | value hd hn => rw [hd]; simpa using hn

theorem isTestName_iff {n : Str} : isTestName n = true ↔ str "_test" <:+ n := List.isSuffixOf_iff_suffix

theorem isTestName_false {n : Str} : isTestName n = false ↔ ¬ str "_test" <:+ n := by
  rw [← isTestName_iff, Bool.not_eq_true]

theorem lookupNames_iff {ps : ParsedDir} {x : Str} : lookupNames ps [x] = true ↔ DirMentions ps x := by
  unfold lookupNames DirMentions
  rw [List.any_eq_true]
  constructor
  · rintro ⟨⟨n, p⟩, hp, h⟩
    simp only [List.any_cons, List.any_nil, Bool.or_false, Bool.and_eq_true, Bool.not_eq_true',
      isTestName_false, List.any_eq_true, hasName_iff] at h
    exact ⟨n, p, hp, h.1, h.2⟩
  · rintro ⟨n, p, hp, hn, h⟩
    refine ⟨⟨n, p⟩, hp, ?_⟩
    simp only [List.any_cons, List.any_nil, Bool.or_false, Bool.and_eq_true, Bool.not_eq_true',
      isTestName_false, List.any_eq_true, hasName_iff]
    exact ⟨hn, h⟩

theorem searchDirs_some {parse : DirPath → Option ParsedDir} {single : Bool} {x : Str} {d : DirPath} {ps : ParsedDir} :
    ∀ {ds : List DirPath}, searchDirs parse single [x] ds = some (d, ps) →
      d ∈ ds ∧ parse d = some ps ∧ (single = true ∨ DirMentions ps x)
  | [], h => by simp [searchDirs] at h
  | e :: ds, h => by
    rw [searchDirs] at h
    split at h
    · cases h
    · rename_i qs hq
      split at h
      · rename_i hc
        cases h
        refine ⟨by simp, hq, ?_⟩
        simp only [List.isEmpty_cons, Bool.or_false, Bool.or_eq_true] at hc
        rcases hc with hc | hc
        · exact .inl hc
        · exact .inr (lookupNames_iff.1 hc)
      · obtain ⟨h1, h2⟩ := searchDirs_some h
        exact ⟨List.mem_cons_of_mem _ h1, h2⟩

theorem searchDirs_finds {parse : DirPath → Option ParsedDir} {single : Bool} {x : Str} {d : DirPath} {ps : ParsedDir}
    (hp : parse d = some ps) (hm : DirMentions ps x) :
    ∀ {ds : List DirPath}, d ∈ ds → (single = true → ds = [d]) → (∀ e ∈ ds, ∃ qs, parse e = some qs) →
      (∀ e ∈ ds, ∀ qs, parse e = some qs → DirMentions qs x → e = d) →
      searchDirs parse single [x] ds = some (d, ps)
  | [], h, _, _, _ => by cases h
  | e :: ds, h, hs, hall, hu => by
    rw [searchDirs]
    obtain ⟨qs, hq⟩ := hall e (by simp)
    rw [hq]
    simp only [List.isEmpty_cons, Bool.or_false]
    by_cases hed : e = d
    · subst hed
      rw [hp] at hq; cases hq
      rw [if_pos (by simp [lookupNames_iff.2 hm])]
    · have hsf : single = false := by
        cases hb : single with
        | false => rfl
        | true => exact absurd (List.head_eq_of_cons_eq (hs hb)) hed
      have hl : lookupNames qs [x] = false := by
        rw [Bool.eq_false_iff]
        exact fun hc => hed (hu e (by simp) qs hq (lookupNames_iff.1 hc))
      rw [if_neg (by simp [hsf, hl])]
      refine searchDirs_finds hp hm ?_ (by simp [hsf]) (fun e he => hall e (List.mem_cons_of_mem _ he))
        (fun e he => hu e (List.mem_cons_of_mem _ he))
      rcases List.mem_cons.1 h with h | h
      · exact absurd h.symm hed
      · exact h

/-- **C51.** A name used from another package of the module is looked up in the directory
that declares it: when the directories of packages called `p` can all be parsed and only the
one at `path` mentions `x`, that one is found, wherever it is in the module and whatever
other directories there are. -/
theorem C51_finds {root : DirPath} {entries : List FsEntry} {pk : PackageDirs} (h : discover root entries = some pk)
    {parse : DirPath → Option ParsedDir} {p x : Str} {path : DirPath} {ps : ParsedDir}
    (hpath : HasPackage entries path p) (hps : parse (root ++ path) = some ps) (hx : DirMentions ps x)
    (hall : ∀ path', HasPackage entries path' p → ∃ qs, parse (root ++ path') = some qs)
    (honly : ∀ path' qs, HasPackage entries path' p → parse (root ++ path') = some qs → DirMentions qs x → path' = path) :
    getPackagePath pk parse p [x] = some (root ++ path) ∧ getPackage pk parse p [x] = ps.lookup p := by
  obtain ⟨_, hmem⟩ := C45_every_directory_once h p
  have hd : root ++ path ∈ pk p := (hmem _).2 ⟨path, rfl, hpath⟩
  have hf : findPackage pk parse p [x] = some (root ++ path, ps) := by
    refine searchDirs_finds hps hx hd ?_ ?_ ?_
    · intro hs
      obtain ⟨a, ha⟩ := List.length_eq_one_iff.1 (beq_iff_eq.1 hs)
      rw [ha] at hd ⊢
      rw [List.mem_singleton.1 hd]
    · intro e he
      obtain ⟨path', rfl, hp'⟩ := (hmem e).1 he
      exact hall path' hp'
    · intro e he qs hq hm
      obtain ⟨path', rfl, hp'⟩ := (hmem e).1 he
      rw [honly path' qs hp' hq hm]
  exact ⟨by rw [getPackagePath, hf]; rfl, by rw [getPackage, hf]; rfl⟩

/-- **C51.** Whatever directory is found holds Go files of that package; unless it is the
only such directory of the module, one of its packages mentions the name. -/
theorem C51_sound {root : DirPath} {entries : List FsEntry} {pk : PackageDirs} (h : discover root entries = some pk)
    {parse : DirPath → Option ParsedDir} {p x : Str} {d : DirPath} (hg : getPackagePath pk parse p [x] = some d) :
    ∃ path, d = root ++ path ∧ HasPackage entries path p ∧ ∃ ps, parse d = some ps ∧
      ((∀ path', HasPackage entries path' p → path' = path) ∨ DirMentions ps x) := by
  obtain ⟨_, hmem⟩ := C45_every_directory_once h p
  obtain ⟨⟨d', ps⟩, hf, rfl⟩ := Option.map_eq_some_iff.1 hg
  obtain ⟨h1, h2, h3⟩ := searchDirs_some hf
  obtain ⟨path, rfl, hp⟩ := (hmem d').1 h1
  refine ⟨path, rfl, hp, ps, h2, ?_⟩
  rcases h3 with h3 | h3
  · refine .inl fun path' hp' => ?_
    obtain ⟨a, ha⟩ := List.length_eq_one_iff.1 (beq_iff_eq.1 h3)
    have m1 := (hmem _).2 ⟨path', rfl, hp'⟩
    have m2 := (hmem _).2 ⟨path, rfl, hp⟩
    rw [ha, List.mem_singleton] at m1 m2
    rw [← m2] at m1
    exact List.append_cancel_left m1
  · exact .inr h3

theorem lookupNames_any {ps : ParsedDir} {hints : List Str} :
    lookupNames ps hints = true ↔ ∃ x ∈ hints, DirMentions ps x := by
  unfold lookupNames DirMentions
  rw [List.any_eq_true]
  constructor
  · rintro ⟨⟨n, p⟩, hp, h⟩
    simp only [Bool.and_eq_true, Bool.not_eq_true', isTestName_false, List.any_eq_true, hasName_iff] at h
    obtain ⟨hn, x, hx, hg⟩ := h
    exact ⟨x, hx, n, p, hp, hn, hg⟩
  · rintro ⟨x, hx, n, p, hp, hn, h⟩
    refine ⟨⟨n, p⟩, hp, ?_⟩
    simp only [Bool.and_eq_true, Bool.not_eq_true', isTestName_false, List.any_eq_true, hasName_iff]
    exact ⟨hn, x, hx, h⟩

theorem searchDirs_iff {parse : DirPath → Option ParsedDir} {single : Bool} {hints : List Str} {d : DirPath} {ps : ParsedDir} :
    ∀ {ds : List DirPath}, searchDirs parse single hints ds = some (d, ps) ↔
      ∃ pre post, ds = pre ++ d :: post ∧ parse d = some ps ∧
        (single = true ∨ hints = [] ∨ ∃ x ∈ hints, DirMentions ps x) ∧
        ∀ e ∈ pre, ∃ qs, parse e = some qs ∧ ¬ (single = true ∨ hints = [] ∨ ∃ x ∈ hints, DirMentions qs x)
  | [] => by simp [searchDirs]
  | e :: ds => by
    rw [searchDirs]
    have hc : ∀ qs, (single || hints.isEmpty || lookupNames qs hints) = true ↔
        (single = true ∨ hints = [] ∨ ∃ x ∈ hints, DirMentions qs x) := by
      intro qs
      rw [Bool.or_eq_true, Bool.or_eq_true, lookupNames_any, List.isEmpty_iff, or_assoc]
    cases hq : parse e with
    | none =>
      refine ⟨fun h => by (cases h), ?_⟩
      rintro ⟨pre, post, hl, h1, _, h3⟩
      cases pre with
      | nil => cases hl; rw [hq] at h1; cases h1
      | cons b pre =>
        cases hl
        obtain ⟨qs, h, _⟩ := h3 e (by simp)
        rw [hq] at h; cases h
    | some qs =>
      show (if (single || hints.isEmpty || lookupNames qs hints) = true then _ else _) = _ ↔ _
      split
      · rename_i hm
        rw [hc] at hm
        constructor
        · intro h; cases h
          exact ⟨[], ds, rfl, hq, hm, by simp⟩
        · rintro ⟨pre, post, hl, h1, _, h3⟩
          cases pre with
          | nil => cases hl; rw [hq] at h1; cases h1; rfl
          | cons b pre =>
            cases hl
            obtain ⟨qs', h, hn⟩ := h3 e (by simp)
            rw [hq] at h; cases h
            exact absurd hm hn
      · rename_i hm
        rw [hc] at hm
        rw [searchDirs_iff]
        constructor
        · rintro ⟨pre, post, rfl, h1, h2, h3⟩
          refine ⟨e :: pre, post, rfl, h1, h2, ?_⟩
          intro b hb
          rcases List.mem_cons.1 hb with rfl | hb
          · exact ⟨qs, hq, hm⟩
          · exact h3 b hb
        · rintro ⟨pre, post, hl, h1, h2, h3⟩
          cases pre with
          | nil => cases hl; rw [hq] at h1; cases h1; exact absurd h2 hm
          | cons b pre =>
            cases hl
            exact ⟨pre, post, rfl, h1, h2, fun e he => h3 e (List.mem_cons_of_mem _ he)⟩

/-- **C51, any names.** With any list of names, none included: the directory found is the first of
those that hold the package, in the order of discovery, that is the only one, or that mentions
one of the names, or the very first when no name is given; all directories before it can be parsed. -/
theorem C51_first {pk : PackageDirs} {parse : DirPath → Option ParsedDir} {p : Str} {hints : List Str} {d : DirPath} :
    getPackagePath pk parse p hints = some d ↔
      ∃ pre post ps, pk p = pre ++ d :: post ∧ parse d = some ps ∧
        (pk p = [d] ∨ hints = [] ∨ ∃ x ∈ hints, DirMentions ps x) ∧
        ∀ e ∈ pre, hints ≠ [] ∧ ∃ qs, parse e = some qs ∧ ∀ x ∈ hints, ¬ DirMentions qs x := by
  rw [getPackagePath, Option.map_eq_some_iff]
  constructor
  · rintro ⟨⟨d', ps⟩, hf, rfl⟩
    obtain ⟨pre, post, hl, h1, h2, h3⟩ := searchDirs_iff.1 hf
    refine ⟨pre, post, ps, hl, h1, ?_, ?_⟩
    · refine h2.imp_left fun hs => ?_
      have : (pk p).length = 1 := by simpa using hs
      obtain ⟨a, ha⟩ := List.length_eq_one_iff.1 this
      rw [ha] at hl ⊢
      cases pre with
      | nil => cases hl; rfl
      | cons b pre => simp at hl
    · intro e he
      obtain ⟨qs, hq, hn⟩ := h3 e he
      rw [not_or, not_or] at hn
      exact ⟨hn.2.1, qs, hq, fun x hx hm => hn.2.2 ⟨x, hx, hm⟩⟩
  · rintro ⟨pre, post, ps, hl, h1, h2, h3⟩
    refine ⟨(d, ps), searchDirs_iff.2 ⟨pre, post, hl, h1, ?_, ?_⟩, rfl⟩
    · exact h2.imp_left fun hs => by simp [hs]
    · intro e he
      obtain ⟨hn, qs, hq, hx⟩ := h3 e he
      refine ⟨qs, hq, ?_⟩
      rw [not_or, not_or]
      refine ⟨?_, hn, fun ⟨x, hx', hm⟩ => hx x hx' hm⟩
      rw [hl]
      cases pre with
      | nil => cases he
      | cons b pre => simp

/-- **C51.** A package that no Go file of the module belongs to is not found. -/
theorem C51_unknown {root : DirPath} {entries : List FsEntry} {pk : PackageDirs} (h : discover root entries = some pk)
    {parse : DirPath → Option ParsedDir} {p x : Str} (hno : ∀ path, ¬ HasPackage entries path p) :
    getPackagePath pk parse p [x] = none ∧ getPackage pk parse p [x] = none := by
  obtain ⟨_, hmem⟩ := C45_every_directory_once h p
  have : pk p = [] := by
    cases hpk : pk p with
    | nil => rfl
    | cons d ds =>
      obtain ⟨path, _, hp⟩ := (hmem d).1 (by rw [hpk]; simp)
      exact absurd hp (hno path)
  have hf : findPackage pk parse p [x] = none := by rw [findPackage, this]; rfl
  exact ⟨by rw [getPackagePath, hf]; rfl, by rw [getPackage, hf]; rfl⟩

/-! ## Imports -/

theorem lastPart_slash {pre n : Str} (hn : '/' ∉ n) : lastPart (pre ++ '/' :: n) = n := by
  unfold lastPart
  rw [List.reverse_append, List.reverse_cons, List.append_assoc, List.singleton_append,
    List.takeWhile_append_of_pos (by intro c hc; simp only [ne_eq, decide_eq_true_eq]; rintro rfl; exact hn (by simpa using hc))]
  simp

theorem lastPart_whole {n : Str} (hn : '/' ∉ n) : lastPart n = n := by
  have h : (n.reverse ++ []).takeWhile (· ≠ '/') = n.reverse ++ [] := by
    rw [List.takeWhile_append_of_pos (by
      intro c hc; simp only [ne_eq, decide_eq_true_eq]; rintro rfl; exact hn (by simpa using hc))]
    rfl
  rw [List.append_nil] at h
  rw [lastPart, h, List.reverse_reverse]

theorem lastPart_cases (p : Str) : '/' ∉ lastPart p ∧ (p = lastPart p ∨ ∃ pre, p = pre ++ '/' :: lastPart p) := by
  have hno : '/' ∉ lastPart p := by
    unfold lastPart
    intro h
    rw [List.mem_reverse] at h
    have := List.all_takeWhile (p := (· ≠ '/')) (l := p.reverse)
    rw [List.all_eq_true] at this
    simpa using this _ h
  refine ⟨hno, ?_⟩
  by_cases h : '/' ∈ p
  · right
    obtain ⟨s, t, hst⟩ := List.append_of_mem (List.mem_reverse.2 h)
    obtain ⟨a, b, hab, hb⟩ : ∃ a b, p = a ++ '/' :: b ∧ '/' ∉ b := by
      clear hno hst s t
      induction p with
      | nil => cases h
      | cons c p ih =>
        by_cases hp : '/' ∈ p
        · obtain ⟨a, b, rfl, hb⟩ := ih hp
          exact ⟨c :: a, b, rfl, hb⟩
        · rcases List.mem_cons.1 h with h | h
          · subst h; exact ⟨[], p, rfl, hp⟩
          · exact absurd h hp
    refine ⟨a, ?_⟩
    rw [hab, lastPart_slash hb]
  · exact .inl (lastPart_whole h).symm

theorem label_iff {i : ImportSpec} {name : Str} (hi : i.name ≠ some []) (hn : name ≠ []) :
    i.label = name ↔ ImportedAs name i := by
  obtain ⟨n, path⟩ := i
  cases n with
  | none =>
    show lastPart path = name ↔ _
    constructor
    · rintro rfl
      obtain ⟨h1, h2⟩ := lastPart_cases path
      rcases h2 with h2 | ⟨pre, h2⟩
      · generalize hl : lastPart path = l at *
        subst h2
        exact .whole h1
      · exact .last h2 h1
    · intro h
      cases h with
      | last h hn => rw [h, lastPart_slash hn]
      | whole hn => exact lastPart_whole hn
  | some m =>
    cases m with
    | nil => exact absurd rfl hi
    | cons c m =>
      show (c :: m) = name ↔ _
      constructor
      · rintro rfl; exact .named hn
      · intro h; cases h; rfl

theorem mem_importTable {module : Str} {imports : List ImportSpec} {name path : Str} :
    path ∈ importTable module imports name ↔ ∃ i ∈ imports, module <+: i.path ∧ i.label = name ∧ i.path = path := by
  unfold importTable
  rw [List.mem_filterMap]
  constructor
  · rintro ⟨i, hi, h⟩
    split at h
    · rename_i hc
      simp only [Bool.and_eq_true, List.isPrefixOf_iff_prefix, beq_iff_eq] at hc
      exact ⟨i, hi, hc.1, hc.2, Option.some.inj h⟩
    · cases h
  · rintro ⟨i, hi, h1, h2, h3⟩
    refine ⟨i, hi, ?_⟩
    rw [if_pos (by simp [List.isPrefixOf_iff_prefix.2 h1, h2]), h3]

theorem packagePath_below {module modPath rest : Str} :
    packagePathFromPath module modPath (module ++ '/' :: rest) = modPath ++ '/' :: rest := by
  have h1 : (module ++ ['/']).isPrefixOf (module ++ '/' :: rest) = true :=
    List.isPrefixOf_iff_prefix.2 ⟨rest, by simp⟩
  have h2 : (module ++ '/' :: rest).drop (module.length + 1) = rest := by
    rw [← List.drop_drop, List.drop_left]
    rfl
  simp only [packagePathFromPath, h1, if_true, h2]

theorem findType_some {ps : ParsedDir} {name : Str} {t : TypeSpec} (h : findType ps name = some t) :
    TopLevel ps t ∧ t.name = name := by
  unfold findType at h
  obtain ⟨⟨n, p⟩, hp, h⟩ := List.exists_of_findSome?_eq_some h
  simp only at h
  split at h
  · cases h
  · rename_i hn
    obtain ⟨g, hg, h⟩ := List.exists_of_findSome?_eq_some h
    split at h
    · cases h
    · rename_i hf
      split at h
      · rename_i d hd
        have h1 := List.find?_some h
        exact ⟨⟨n, p, hp, isTestName_false.1 (by simpa using hn), g, hg, by simpa using hf, d, hd,
          List.mem_of_find?_eq_some h⟩, by simpa using h1⟩
      · cases h

theorem findType_none {ps : ParsedDir} {name : Str} (h : findType ps name = none) (t : TypeSpec) (ht : TopLevel ps t) :
    t.name ≠ name := by
  obtain ⟨n, p, hp, hn, g, hg, hf, d, hd, ht⟩ := ht
  unfold findType at h
  have h1 := List.findSome?_eq_none_iff.1 h (n, p) hp
  simp only [isTestName_false.2 hn, Bool.false_eq_true, if_false] at h1
  have h2 := List.findSome?_eq_none_iff.1 h1 g hg
  simp only [hf, Bool.false_eq_true, if_false, hd] at h2
  have h3 := List.find?_eq_none.1 h2 t ht
  simpa using h3

/-- **C52.** A type named through an import of the module resolves to a type of that name
which the directory of that import declares at top level.  (The second case: the path of the
import starts with the letters of the module's path and is looked for as a directory of the
module, `Examples.C52_neighbour`.) -/
theorem C52_sound_partial {module modPath : Str} {parse : Str → Option ParsedDir} {imports : List ImportSpec}
    (himp : ∀ i ∈ imports, i.name ≠ some []) {pkg name : Str} (hpkg : pkg ≠ []) {t : TypeSpec}
    (h : resolveExternal module modPath parse imports pkg name = some t) :
    t.name = name ∧ ∃ i ∈ imports, ImportedAs pkg i ∧ module <+: i.path ∧
      ∃ ps, TopLevel ps t ∧
        ((∃ rest, i.path = module ++ '/' :: rest ∧ parse (modPath ++ '/' :: rest) = some ps) ∨
          ((∀ rest, i.path ≠ module ++ '/' :: rest) ∧ parse (modPath ++ '/' :: i.path) = some ps)) := by
  obtain ⟨path, hp, h⟩ := List.exists_of_findSome?_eq_some h
  obtain ⟨i, hi, h1, h2, h3⟩ := mem_importTable.1 hp
  subst h3
  unfold exploreType at h
  split at h
  · cases h
  · rename_i ps hps
    obtain ⟨h4, h5⟩ := findType_some h
    refine ⟨h5, i, hi, (label_iff (himp i hi) hpkg).1 h2, h1, ps, h4, ?_⟩
    by_cases hr : (module ++ ['/']) <+: i.path
    · obtain ⟨rest, hr⟩ := hr
      have hr' : i.path = module ++ '/' :: rest := by rw [← hr]; simp
      rw [hr', packagePath_below] at hps
      exact .inl ⟨rest, hr', hps⟩
    · refine .inr ⟨fun rest hr' => hr ⟨rest, by rw [hr']; simp⟩, ?_⟩
      have : (module ++ ['/']).isPrefixOf i.path = false := by
        rw [Bool.eq_false_iff]
        exact fun hc => hr (List.isPrefixOf_iff_prefix.1 hc)
      simpa only [packagePathFromPath, this, Bool.false_eq_true, if_false] using hps

/-- **C52.** When the only import known as `pkg` is the directory `rest` of the module, and
that directory declares the type `t` at top level and no other type of that name, the name
resolves to `t`. -/
theorem C52_resolves_partial {module modPath : Str} {parse : Str → Option ParsedDir} {imports : List ImportSpec}
    (himp : ∀ i ∈ imports, i.name ≠ some []) {pkg : Str} (hpkg : pkg ≠ []) {i : ImportSpec} (hi : i ∈ imports)
    (hlabel : ImportedAs pkg i) {rest : Str} (hpath : i.path = module ++ '/' :: rest)
    (honly : ∀ j ∈ imports, ImportedAs pkg j → j.path = i.path) {ps : ParsedDir}
    (hps : parse (modPath ++ '/' :: rest) = some ps) {t : TypeSpec} (ht : TopLevel ps t)
    (hu : ∀ t', TopLevel ps t' → t'.name = t.name → t' = t) :
    resolveExternal module modPath parse imports pkg t.name = some t := by
  have hex : ∀ path ∈ importTable module imports pkg, exploreType module modPath parse path t.name = some t := by
    intro path hp
    obtain ⟨j, hj, _, h2, h3⟩ := mem_importTable.1 hp
    have := honly j hj ((label_iff (himp j hj) hpkg).1 h2)
    rw [← h3, this, hpath]
    unfold exploreType
    rw [packagePath_below, hps]
    simp only
    cases hf : findType ps t.name with
    | none => exact absurd rfl (findType_none hf t ht)
    | some t' =>
      obtain ⟨h4, h5⟩ := findType_some hf
      rw [hu t' h4 h5]
  have hmem : i.path ∈ importTable module imports pkg :=
    mem_importTable.2 ⟨i, hi, ⟨'/' :: rest, hpath.symm⟩, (label_iff (himp i hi) hpkg).2 hlabel, rfl⟩
  unfold resolveExternal
  cases hl : importTable module imports pkg with
  | nil => rw [hl] at hmem; cases hmem
  | cons a l =>
    rw [List.findSome?_cons, hex a (by rw [hl]; simp)]

/-- **C52.** Imports of other modules are not followed. -/
theorem C52_other_modules_partial {module modPath : Str} {parse : Str → Option ParsedDir} {imports : List ImportSpec}
    (himp : ∀ i ∈ imports, i.name ≠ some []) {pkg name : Str} (hpkg : pkg ≠ [])
    (hno : ∀ i ∈ imports, ImportedAs pkg i → ¬ module <+: i.path) :
    resolveExternal module modPath parse imports pkg name = none := by
  unfold resolveExternal
  rw [List.findSome?_eq_none_iff]
  intro path hp
  obtain ⟨i, hi, h1, h2, _⟩ := mem_importTable.1 hp
  exact absurd h1 (hno i hi ((label_iff (himp i hi) hpkg).1 h2))

/-! ## Non-vacuity -/

namespace Examples

/-- two packages called `data`; the second one declares `Base` -/
def shopTree : List FsEntry :=
  [.dir (str "a") [.file (str "x.go") (some (str "data"))],
   .dir (str "b") [.dir (str "c") [.file (str "z.go") (some (str "data"))],
     .file (str "main.go") (some (str "main"))]]

def baseType : TypeSpec := ⟨str "Base", .struct [⟨[str "Rev"], .ident (str "uint16"), some (str "`json:\"rev\"`")⟩], none⟩

def otherType : TypeSpec := ⟨str "Base", .struct [⟨[str "X"], .ident (str "bool"), some (str "`json:\"x\"`")⟩], none⟩

def dataA : ParsedDir := [(str "data", [⟨false, .imports⟩, ⟨false, .values [str "Limit"]⟩])]
def dataC : ParsedDir := [(str "data", [⟨false, .types ⟨none, [baseType]⟩⟩])]

def shopParse (d : DirPath) : Option ParsedDir :=
  if d = [str "m", str "a"] then some dataA
  else if d = [str "m", str "b", str "c"] then some dataC
  else none

theorem shop_paths {path : DirPath} (h : HasPackage shopTree path (str "data")) :
    path = [str "a"] ∨ path = [str "b", str "c"] := by
  obtain ⟨pk, hpk⟩ : ∃ pk, discover [] shopTree = some pk := ⟨_, rfl⟩
  have h1 := ((C45_every_directory_once hpk (str "data")).2 path).2 ⟨path, rfl, h⟩
  have h2 : pk (str "data") = [[str "a"], [str "b", str "c"]] := by cases hpk; rfl
  rw [h2] at h1
  simpa using h1

/-- the hypotheses of C51: `data.Base` is found in the second directory -/
theorem C51_shop : ∃ pk, discover [str "m"] shopTree = some pk ∧
    getPackagePath pk shopParse (str "data") [str "Base"] = some [str "m", str "b", str "c"] := by
  obtain ⟨pk, hpk⟩ : ∃ pk, discover [str "m"] shopTree = some pk := ⟨_, rfl⟩
  refine ⟨pk, hpk, (C51_finds hpk (path := [str "b", str "c"]) (ps := dataC) ?_ rfl ?_ ?_ ?_).1⟩
  · exact .deeper (name := str "b") (by simp [shopTree]; exact ⟨rfl, rfl⟩)
      (.deeper (name := str "c") (List.mem_cons_self ..) (.here (base := str "z") (List.mem_singleton.2 rfl)))
  · exact ⟨str "data", _, List.mem_singleton.2 rfl, by decide, _, List.mem_singleton.2 rfl,
      .typ rfl (List.mem_singleton.2 rfl) rfl⟩
  · intro path hp
    rcases shop_paths hp with rfl | rfl
    · exact ⟨dataA, rfl⟩
    · exact ⟨dataC, rfl⟩
  · intro path qs hp hq hm
    rcases shop_paths hp with rfl | rfl
    · exfalso
      have : qs = dataA := (Option.some.inj hq).symm
      subst this
      have := lookupNames_iff.2 hm
      exact absurd this (by decide +kernel)
    · rfl

/-- A declaration inside a function of the first package: a local type called `Base`. -/
def dataLocal : ParsedDir := [(str "data", [⟨true, .types ⟨none, [otherType]⟩⟩])]

def trapParse (d : DirPath) : Option ParsedDir :=
  if d = [str "m", str "a"] then some dataLocal
  else if d = [str "m", str "b", str "c"] then some dataC
  else none

/-- without a name: the first directory -/
theorem C51_shop_any : ∃ pk, discover [str "m"] shopTree = some pk ∧
    getPackagePath pk shopParse (str "data") [] = some [str "m", str "a"] := by
  refine ⟨_, rfl, C51_first.2 ⟨[], [[str "m", str "b", str "c"]], dataA, rfl, rfl, .inr (.inl rfl), by simp⟩⟩

/-- Names inside functions count: the struct that is inlined for `data.Base` is the local
type of a function in another directory, although only the second directory declares `Base`
at top level. -/
theorem C51_local_type_taken : ∃ pk, discover [str "m"] shopTree = some pk ∧
    getPackagePath pk trapParse (str "data") [str "Base"] = some [str "m", str "a"] ∧
    TopLevel dataC baseType ∧ (∀ t, ¬ TopLevel dataLocal t) ∧
    collectFields (packagesOf pk trapParse) 3 ⟨none, []⟩
        [⟨[], .sel (str "data") (str "Base"), some (str "`json:\",inline\"`")⟩]
      = .ok [⟨[str "X"], .ident (str "bool"), some (str "`json:\"x\"`")⟩] := by
  refine ⟨_, rfl, by decide +kernel, ⟨str "data", _, List.mem_singleton.2 rfl, by decide, _, List.mem_singleton.2 rfl, rfl,
    _, rfl, List.mem_singleton.2 rfl⟩, ?_, by decide +kernel⟩
  rintro t ⟨n, p, hp, _, g, hg, hf, _⟩
  cases List.mem_singleton.1 hp
  cases List.mem_singleton.1 hg
  cases hf

def shopImports : List ImportSpec := [⟨none, str "ex.org/m/b/c"⟩, ⟨some (str "d"), str "ex.org/m/a"⟩, ⟨none, str "time"⟩]

def shopDirs (d : Str) : Option ParsedDir :=
  if d = str "/w/m/b/c" then some dataC else if d = str "/w/m/a" then some dataA else none

/-- the hypotheses of C52 -/
example : resolveExternal (str "ex.org/m") (str "/w/m") shopDirs shopImports (str "c") (str "Base") = some baseType := by
  refine C52_resolves_partial (i := ⟨none, str "ex.org/m/b/c"⟩) (rest := str "b/c") (ps := dataC) (t := baseType) ?_ (by decide)
    (by simp [shopImports]) (.last (pre := str "ex.org/m/b") rfl (by decide)) rfl ?_ rfl ?_ ?_
  · decide
  · intro j hj hl
    simp only [shopImports, List.mem_cons, List.not_mem_nil, or_false] at hj
    rcases hj with rfl | rfl | rfl
    · rfl
    · exact absurd ((label_iff (by decide) (by decide)).2 hl) (by decide +kernel)
    · exact absurd ((label_iff (by decide) (by decide)).2 hl) (by decide +kernel)
  · exact ⟨str "data", _, List.mem_singleton.2 rfl, by decide, _, List.mem_singleton.2 rfl, rfl,
      _, rfl, List.mem_singleton.2 rfl⟩
  · rintro t ⟨n, p, hp, _, g, hg, _, d, hd, ht⟩ _
    cases List.mem_singleton.1 hp
    cases List.mem_singleton.1 hg
    cases hd
    exact List.mem_singleton.1 ht

/-- The package `d`, imported under another name than that of its directory. -/
example : resolveExternal (str "ex.org/m") (str "/w/m") shopDirs shopImports (str "a") (str "Base") = none := by
  decide +kernel

/-- An import of the module `ex.org/mail`, whose path starts with the letters of `ex.org/m`,
is looked for inside `ex.org/m`. -/
theorem C52_neighbour :
    resolveExternal (str "ex.org/m") (str "/w/m")
      (fun d => if d = str "/w/m/ex.org/mail" then some dataC else none)
      [⟨none, str "ex.org/mail"⟩] (str "mail") (str "Base") = some baseType := by
  decide +kernel

/-- **Types of the package in the module's root directory are not resolved.**  The root directory /w/m of the module `ex.org/m` declares
`Base`, but `m.Base` of a file that imports `ex.org/m` is looked for in /w/m/ex.org/m. -/
theorem C52_root_package :
    TopLevel dataC baseType ∧ ImportedAs (str "m") ⟨none, str "ex.org/m"⟩ ∧
    resolveExternal (str "ex.org/m") (str "/w/m") (fun d => if d = str "/w/m" then some dataC else none)
      [⟨none, str "ex.org/m"⟩] (str "m") (str "Base") = none := by
  refine ⟨?_, ?_, by decide +kernel⟩
  · exact ⟨str "data", _, List.mem_singleton.2 rfl, by decide, _, List.mem_singleton.2 rfl, rfl, _, rfl, List.mem_singleton.2 rfl⟩
  · exact ImportedAs.last (pre := str "ex.org") rfl (by decide)

end Examples

end VJ
