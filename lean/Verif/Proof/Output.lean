import Verif.Spec.Output
import Verif.Props.Discover

/-!
# Lemmas about directory listings and the steps of `Print`
-/

namespace VJ

theorem subdirs_place {n s} : (es : List Tree) → subdirs (place n s es) = subdirs es
  | [] => rfl
  | .file m c :: es => by
    have ih := subdirs_place (n := n) (s := s) es
    rw [place]; split
    · rfl
    · split
      · rfl
      · exact ih
  | .dir m sub :: es => by
    have ih := subdirs_place (n := n) (s := s) es
    rw [place]; split
    · rfl
    · exact congrArg ((m, sub) :: ·) ih

theorem lookup_if {m k c : Str} {l : List (Str × Str)} :
    ((k, c) :: l).lookup m = if m = k then some c else l.lookup m := by
  rw [List.lookup_cons]
  by_cases h : m = k
  · simp [h]
  · rw [if_neg h]; simp only [beq_eq_false_iff_ne.2 h]

theorem filesOf_file {k c l} : filesOf (.file k c :: l) = (k, c) :: filesOf l := rfl
theorem filesOf_dir {k c l} : filesOf (.dir k c :: l) = filesOf l := rfl

theorem lookup_place {n s m} : (es : List Tree) →
    (filesOf (place n s es)).lookup m = if m = n then some s else (filesOf es).lookup m
  | [] => by
    rw [place, filesOf_file, lookup_if]
  | .file k c :: es => by
    have ih := lookup_place (n := n) (s := s) (m := m) es
    rw [place]; split
    · rename_i h; subst h
      rw [filesOf_file, filesOf_file, lookup_if, lookup_if]
      by_cases h : m = k <;> simp [h]
    · rename_i hk
      split
      · rw [filesOf_file, lookup_if]
      · rw [filesOf_file, filesOf_file, lookup_if, lookup_if, ih]
        by_cases h : m = k
        · subst h; simp [hk]
        · simp [h]
  | .dir k sub :: es => by
    have ih := lookup_place (n := n) (s := s) (m := m) es
    rw [place]; split
    · rw [filesOf_file, lookup_if]
    · rw [filesOf_dir, filesOf_dir, ih]

theorem subdirs_inDir {f d ds} : (es : List Tree) →
    subdirs (inDir f (d :: ds) es) = (subdirs es).map fun p => (p.1, if p.1 = d then inDir f ds p.2 else p.2)
  | [] => by simp [inDir, subdirs]
  | .file n s :: es => by
    have ih := subdirs_inDir (f := f) (d := d) (ds := ds) es
    rw [inDir] at ih ⊢
    exact ih
  | .dir n sub :: es => by
    have ih := subdirs_inDir (f := f) (d := d) (ds := ds) es
    rw [inDir] at ih ⊢
    rw [List.map_cons]
    by_cases h : n = d
    · subst h
      simp only [if_true]
      have hs : ∀ x l, subdirs (.dir n x :: l) = (n, x) :: subdirs l := fun _ _ => rfl
      rw [hs, hs, ih]; simp
    · simp only [h, if_false]
      have hs : ∀ x l, subdirs (.dir n x :: l) = (n, x) :: subdirs l := fun _ _ => rfl
      rw [hs, hs, ih]; simp [h]

theorem filesOf_inDir {f d ds} : (es : List Tree) → filesOf (inDir f (d :: ds) es) = filesOf es
  | [] => by simp [inDir, filesOf]
  | .file n s :: es => by
    have ih := filesOf_inDir (f := f) (d := d) (ds := ds) es
    rw [inDir] at ih ⊢
    exact congrArg ((n, s) :: ·) ih
  | .dir n sub :: es => by
    have ih := filesOf_inDir (f := f) (d := d) (ds := ds) es
    rw [inDir] at ih ⊢
    rw [List.map_cons]
    by_cases h : n = d
    · subst h; simp only [if_true]; exact ih
    · simp only [h, if_false]; exact ih

theorem dirFiles_cons {d ds es} : dirFiles es (d :: ds) =
    (subdirs es).findSome? fun p => if p.1 = d then dirFiles p.2 ds else none := by
  rw [dirFiles, listDir]
  induction subdirs es with
  | nil => rfl
  | cons p ps ih =>
    rw [List.findSome?_cons, List.findSome?_cons, ← ih]
    by_cases h : p.1 = d
    · simp only [h, if_true, dirFiles]
      cases listDir ds p.2 <;> rfl
    · simp [h]

theorem dirFiles_nil {es} : dirFiles es [] = some (filesOf es) := rfl

/-- A directory other than the one worked in keeps its files. -/
theorem dirFiles_inDir_ne {f : List Tree → List Tree} (hf : ∀ es, subdirs (f es) = subdirs es) :
    {dir d : DirPath} → {es : List Tree} → d ≠ dir → dirFiles (inDir f dir es) d = dirFiles es d
  | [], [], _, h => absurd rfl h
  | [], d :: ds, es, _ => by rw [inDir, dirFiles_cons, dirFiles_cons, hf]
  | a :: as, [], es, _ => by rw [dirFiles_nil, dirFiles_nil, filesOf_inDir]
  | a :: as, d :: ds, es, h => by
    rw [dirFiles_cons, dirFiles_cons, subdirs_inDir, List.findSome?_map]
    congr 1
    funext p
    simp only [Function.comp_apply]
    by_cases hp : p.1 = d
    · simp only [hp, if_true]
      by_cases had : d = a
      · subst had
        simp only [if_true]
        exact dirFiles_inDir_ne hf (fun h' => h (by rw [h']))
      · simp [had]
    · simp [hp]

/-- The directory worked in. -/
theorem dirFiles_inDir_self {f : List Tree → List Tree} {g : List (Str × Str) → List (Str × Str)} :
    {dir : DirPath} → {es : List Tree} → (∀ es, filesOf (f es) = g (filesOf es)) →
      dirFiles (inDir f dir es) dir = (dirFiles es dir).map g
  | [], es, h => by rw [inDir, dirFiles_nil, dirFiles_nil, h]; rfl
  | d :: ds, es, h => by
    rw [dirFiles_cons, dirFiles_cons, subdirs_inDir, List.findSome?_map]
    induction subdirs es with
    | nil => rfl
    | cons p ps ih =>
      rw [List.findSome?_cons, List.findSome?_cons]
      simp only [Function.comp_apply]
      by_cases hp : p.1 = d
      · simp only [hp, if_true]
        rw [dirFiles_inDir_self h]
        cases dirFiles p.2 ds with
        | none => exact ih
        | some x => rfl
      · simp only [hp, if_false]; exact ih

theorem readFile_inDir_self {n s} : {dir : DirPath} → {es : List Tree} → (m : Str) →
    readFile (inDir (place n s) dir es) dir m =
      if m = n then (dirFiles es dir).map fun _ => s else readFile es dir m
  | [], es, m => by
    simp only [inDir, readFile, dirFiles_nil, Option.bind_some, lookup_place, Option.map_some]
  | d :: ds, es, m => by
    simp only [readFile]
    rw [dirFiles_cons, dirFiles_cons, subdirs_inDir, List.findSome?_map]
    induction subdirs es with
    | nil => simp
    | cons p ps ih =>
      rw [List.findSome?_cons, List.findSome?_cons]
      simp only [Function.comp_apply]
      by_cases hp : p.1 = d
      · simp only [hp, if_true]
        have hr := readFile_inDir_self (n := n) (s := s) (dir := ds) (es := p.2) m
        have hd := dirFiles_isSome (n := n) (s := s) (dir := ds) (es := p.2)
        simp only [readFile] at hr
        cases h1 : dirFiles p.2 ds with
        | none =>
          rw [h1] at hd
          cases h2 : dirFiles (inDir (place n s) ds p.2) ds with
          | none => exact ih
          | some x => rw [h2] at hd; cases hd
        | some x =>
          rw [h1] at hd hr
          cases h2 : dirFiles (inDir (place n s) ds p.2) ds with
          | none => rw [h2] at hd; cases hd
          | some y => rw [h2] at hr; exact hr
      · simp only [hp, if_false]; exact ih
where
  dirFiles_isSome {n s} : {dir : DirPath} → {es : List Tree} →
      (dirFiles (inDir (place n s) dir es) dir).isSome = (dirFiles es dir).isSome
    | [], _ => rfl
    | d :: ds, es => by
      rw [dirFiles_cons, dirFiles_cons, subdirs_inDir, List.findSome?_map]
      induction subdirs es with
      | nil => rfl
      | cons p ps ih =>
        rw [List.findSome?_cons, List.findSome?_cons]
        simp only [Function.comp_apply]
        by_cases hp : p.1 = d
        · simp only [hp, if_true]
          have hd := dirFiles_isSome (n := n) (s := s) (dir := ds) (es := p.2)
          cases h1 : dirFiles p.2 ds with
          | none =>
            rw [h1] at hd
            cases h2 : dirFiles (inDir (place n s) ds p.2) ds with
            | none => exact ih
            | some x => rw [h2] at hd; cases hd
          | some x =>
            rw [h1] at hd
            cases h2 : dirFiles (inDir (place n s) ds p.2) ds with
            | none => rw [h2] at hd; cases hd
            | some y => rfl
        · simp only [hp, if_false]; exact ih

theorem readFile_inDir_ne {n s dir d es m} (h : ¬ (d = dir ∧ m = n)) :
    readFile (inDir (place n s) dir es) d m = readFile es d m := by
  by_cases hd : d = dir
  · subst hd
    rw [readFile_inDir_self, if_neg (fun hm => h ⟨rfl, hm⟩)]
  · rw [readFile, readFile, dirFiles_inDir_ne subdirs_place hd]

theorem putAll_nil {dir es} : putAll dir [] es = es := rfl

theorem putAll_append {dir a b es} : putAll dir (a ++ b) es = putAll dir b (putAll dir a es) := by
  simp [putAll, List.foldl_append]

theorem putAll_concat {dir a p es} :
    putAll dir (a ++ [p]) es = inDir (place p.1 p.2) dir (putAll dir a es) := by
  rw [putAll_append]; rfl

theorem putAll_cons {dir a p es} :
    putAll dir (p :: a) es = putAll dir a (inDir (place p.1 p.2) dir es) := rfl

/-- Files that are not written stay as they are. -/
theorem readFile_putAll_ne {dir d m} : {steps : List (Str × Str)} → {es : List Tree} →
    (∀ p ∈ steps, ¬ (d = dir ∧ m = p.1)) → readFile (putAll dir steps es) d m = readFile es d m
  | [], _, _ => rfl
  | p :: ps, es, h => by
    rw [putAll_cons, readFile_putAll_ne (fun q hq => h q (List.mem_cons_of_mem _ hq)),
      readFile_inDir_ne (h p (List.mem_cons_self ..))]

theorem dirFiles_putAll_ne {dir d} (h : d ≠ dir) : {steps : List (Str × Str)} → {es : List Tree} →
    dirFiles (putAll dir steps es) d = dirFiles es d
  | [], _ => rfl
  | p :: ps, es => by
    rw [putAll_cons, dirFiles_putAll_ne h, dirFiles_inDir_ne subdirs_place h]

theorem dirFiles_putAll_isSome {dir} : {steps : List (Str × Str)} → {es : List Tree} →
    (dirFiles (putAll dir steps es) dir).isSome = (dirFiles es dir).isSome
  | [], _ => rfl
  | p :: ps, es => by
    rw [putAll_cons, dirFiles_putAll_isSome, readFile_inDir_self.dirFiles_isSome]

/-- A file holds what it held or something written to it. -/
theorem readFile_putAll_mem {dir m} : {steps : List (Str × Str)} → {es : List Tree} →
    readFile (putAll dir steps es) dir m = readFile es dir m ∨
      ∃ p ∈ steps, p.1 = m ∧ readFile (putAll dir steps es) dir m = some p.2
  | [], _ => .inl rfl
  | p :: ps, es => by
    rw [putAll_cons]
    rcases readFile_putAll_mem (dir := dir) (m := m) (steps := ps) (es := inDir (place p.1 p.2) dir es) with h | ⟨q, hq, h1, h2⟩
    · rw [h, readFile_inDir_self]
      by_cases hm : m = p.1
      · rw [if_pos hm]
        cases hd : dirFiles es dir with
        | none => left; simp [readFile, hd]
        | some x => right; exact ⟨p, List.mem_cons_self .., hm.symm, rfl⟩
      · rw [if_neg hm]; exact .inl rfl
    · exact .inr ⟨q, List.mem_cons_of_mem _ hq, h1, h2⟩

theorem mem_puts {n s p} : p ∈ puts n s → p.1 = n ∧ p.2 <+: s := by
  intro h
  rw [puts, List.mem_map] at h
  obtain ⟨k, _, rfl⟩ := h
  exact ⟨rfl, List.take_prefix ..⟩

theorem puts_concat {n s} : puts n s = (List.range s.length).map (fun k => (n, s.take k)) ++ [(n, s)] := by
  rw [puts, List.range_succ, List.map_append]; simp

/-- A file written completely holds the text. -/
theorem readFile_puts {dir a n s es} (h : (dirFiles es dir).isSome) :
    readFile (putAll dir (a ++ puts n s) es) dir n = some s := by
  rw [puts_concat, ← List.append_assoc, putAll_concat, readFile_inDir_self, if_pos rfl]
  have := dirFiles_putAll_isSome (dir := dir) (steps := a ++ (List.range s.length).map (fun k => (n, s.take k))) (es := es)
  rw [h] at this
  obtain ⟨x, hx⟩ := Option.isSome_iff_exists.1 this
  rw [hx]; rfl

theorem inDir_comp {f g : List Tree → List Tree} : {dir : DirPath} → {es : List Tree} →
    inDir f dir (inDir g dir es) = inDir (fun x => f (g x)) dir es
  | [], _ => rfl
  | d :: ds, es => by
    rw [inDir, inDir, inDir, List.map_map]
    congr 1
    funext e
    cases e with
    | file n s => rfl
    | dir n sub =>
      simp only [Function.comp_apply]
      by_cases h : n = d
      · simp only [h, if_true]; rw [inDir_comp]
      · simp [h]

theorem inDir_id : {dir : DirPath} → {es : List Tree} → inDir (fun x => x) dir es = es
  | [], _ => rfl
  | d :: ds, es => by
    rw [inDir]
    conv => rhs; rw [← List.map_id es]
    congr 1
    funext e
    cases e with
    | file n s => rfl
    | dir n sub =>
      by_cases h : n = d
      · simp only [h, if_true]; rw [inDir_id]; rfl
      · simp [h]

/-- The steps, in one directory. -/
def placeAll (steps : List (Str × Str)) (es : List Tree) : List Tree :=
  steps.foldl (fun es p => place p.1 p.2 es) es

theorem putAll_inDir {dir} : {steps : List (Str × Str)} → {es : List Tree} →
    putAll dir steps es = inDir (placeAll steps) dir es
  | [], es => inDir_id.symm
  | p :: ps, es => by
    rw [putAll_cons, putAll_inDir, inDir_comp]; rfl

theorem isDir_inDir {f : List Tree → List Tree} {dir es sub} (h : IsDir es dir sub) :
    IsDir (inDir f dir es) dir (f sub) := by
  induction h with
  | here => exact .here
  | @deeper es name sub path x hm _ ih =>
    refine .deeper (sub := inDir f path sub) ?_ ih
    rw [inDir]
    exact List.mem_map.2 ⟨_, hm, by simp⟩

theorem treeEntries_append {c} : (a b : List Tree) →
    treeEntries c (a ++ b) = treeEntries c a ++ treeEntries c b
  | [], _ => rfl
  | e :: es, b => by
    show e.entry c :: treeEntries c (es ++ b) = _
    rw [treeEntries_append es b]; rfl

theorem mem_treeEntries {c e} : {es : List Tree} → e ∈ es → e.entry c ∈ treeEntries c es
  | x :: xs, h => by
    show _ ∈ x.entry c :: treeEntries c xs
    rcases List.mem_cons.1 h with rfl | h
    · exact List.mem_cons_self ..
    · exact List.mem_cons_of_mem _ (mem_treeEntries h)

theorem discoverPackages_append {dir} : (a b : List FsEntry) → (pk : PackageDirs) →
    discoverPackages dir (a ++ b) pk = (discoverPackages dir a pk).bind (discoverPackages dir b)
  | [], _, _ => by simp [discoverPackages]
  | e :: es, b, pk => by
    rw [List.cons_append, discoverPackages, discoverPackages]
    cases discoverEntry dir e pk with
    | none => rfl
    | some x => exact discoverPackages_append es b x

theorem addPackage_known {p dir pk} (h : dir ∈ pk p) : addPackage p dir pk = pk := by
  funext n
  rw [addPackage]
  split
  · rename_i hn; subst hn; rw [if_pos h]
  · rfl

theorem cleared_cons_dir {out n sub es} :
    cleared out (.dir n sub :: es) = .dir n sub :: cleared out es := by simp [cleared]

theorem cleared_cons_file {out n s es} : cleared out (.file n s :: es) =
    if n = out ∨ n = utilsName then cleared out es else .file n s :: cleared out es := by
  rw [cleared, List.filter_cons]
  by_cases h : n = out ∨ n = utilsName
  · rw [if_pos h]
    rw [if_neg]
    · rfl
    · rcases h with h | h <;> simp [h]
  · rw [if_neg h]
    rw [not_or] at h
    rw [if_pos]
    · rfl
    · simp [h]

theorem cleared_append {out} (a b : List Tree) : cleared out (a ++ b) = cleared out a ++ cleared out b := by
  simp [cleared, List.filter_append]

/-- Once the directory is listed for the package, more files of the package add nothing. -/
theorem discover_cleared_tail {dir out p c} : (es : List Tree) → (pk : PackageDirs) → dir ∈ pk p →
    (∀ n s, n = out ∨ n = utilsName → .file n s ∈ es → c s = some p) →
    discoverPackages dir (treeEntries c es) pk = discoverPackages dir (treeEntries c (cleared out es)) pk
  | [], _, _, _ => rfl
  | e :: es, pk, hpk, hg => by
    have hcons : ∀ x l, treeEntries c (x :: l) = x.entry c :: treeEntries c l := fun _ _ => rfl
    have hg' : ∀ n s, n = out ∨ n = utilsName → .file n s ∈ es → c s = some p :=
      fun n s hn hm => hg n s hn (List.mem_cons_of_mem _ hm)
    have hstep : ∀ x, discoverPackages dir (treeEntries c (x :: es)) pk =
        discoverPackages dir (treeEntries c (x :: cleared out es)) pk := by
      intro x
      rw [hcons, hcons, discoverPackages, discoverPackages]
      cases h : discoverEntry dir (x.entry c) pk with
      | none => rfl
      | some pk' =>
        exact discover_cleared_tail es pk' (((discoverEntry_adds _ h).2 _ _).2 (.inl hpk)) hg'
    cases e with
    | dir n sub => rw [cleared_cons_dir]; exact hstep _
    | file n s =>
      rw [cleared_cons_file]
      split
      · rename_i hn
        rw [hcons, discoverPackages, Tree.entry, discoverEntry, hg n s hn (List.mem_cons_self ..)]
        have : (if pathExt n = str ".go" then discoverPackage (dir ++ [n]) (some p) pk else some pk) = some pk := by
          split
          · simp only [discoverPackage, Option.map_some, List.dropLast_concat]
            rw [addPackage_known hpk]
          · rfl
        rw [this]
        exact discover_cleared_tail es pk hpk hg'
      · exact hstep _

theorem cleared_of_none {out} : (es : List Tree) → (∀ n s, .file n s ∈ es → ¬ (n = out ∨ n = utilsName)) →
    cleared out es = es
  | [], _ => rfl
  | .dir n sub :: es, h => by
    rw [cleared_cons_dir, cleared_of_none es fun n s hm => h n s (List.mem_cons_of_mem _ hm)]
  | .file n s :: es, h => by
    rw [cleared_cons_file, if_neg (h n s (List.mem_cons_self ..)),
      cleared_of_none es fun n s hm => h n s (List.mem_cons_of_mem _ hm)]

/-- The generated files make no difference to discovery. -/
theorem discover_cleared {dir src out p c es pk} (hr : Ready c src out p es)
    (hgo : ∃ base, src = base ++ str ".go") (h1 : src < out) (h2 : src < utilsName) :
    discoverPackages dir (treeEntries c es) pk = discoverPackages dir (treeEntries c (cleared out es)) pk := by
  obtain ⟨s, hm, hs⟩ := hr.source
  obtain ⟨pre, post, rfl⟩ := List.append_of_mem hm
  have hle : ∀ n s, .file n s ∈ pre → n ≤ src := by
    intro n s hn
    have := (List.pairwise_append.1 hr.sorted).2.2 _ hn _ (List.mem_cons_self ..)
    exact this
  have hpre : ∀ n s, .file n s ∈ pre → ¬ (n = out ∨ n = utilsName) := by
    rintro n s hn (rfl | rfl)
    · exact List.not_lt.2 (hle _ _ hn) h1
    · exact List.not_lt.2 (hle _ _ hn) h2
  have hsrc : ¬ (src = out ∨ src = utilsName) := by
    rintro (h | h)
    · rw [h] at h1; exact List.lt_irrefl _ h1
    · rw [h] at h2; exact List.lt_irrefl _ h2
  have hcons : ∀ x l, treeEntries c (x :: l) = x.entry c :: treeEntries c l := fun _ _ => rfl
  rw [cleared_append, cleared_of_none pre hpre, cleared_cons_file, if_neg hsrc]
  rw [treeEntries_append, treeEntries_append, discoverPackages_append, discoverPackages_append]
  cases discoverPackages dir (treeEntries c pre) pk with
  | none => rfl
  | some pk' =>
    rw [Option.bind_some, Option.bind_some, hcons, hcons, discoverPackages, discoverPackages]
    cases h : discoverEntry dir ((Tree.file src s).entry c) pk' with
    | none => rfl
    | some pk'' =>
      refine discover_cleared_tail (p := p) post pk'' ?_ ?_
      · refine ((discoverEntry_adds _ h).2 _ _).2 (.inr ⟨[], by simp, ?_⟩)
        obtain ⟨base, rfl⟩ := hgo
        exact .here (base := base) (by rw [Tree.entry, hs]; exact List.mem_singleton.2 rfl)
      · intro n s' hn hm'
        exact hr.generated n s' hn (List.mem_append_right _ (List.mem_cons_of_mem _ hm'))

theorem cleared_place {out n s} (hn : n = out ∨ n = utilsName) : (es : List Tree) →
    cleared out (place n s es) = cleared out es
  | [] => by rw [place, cleared_cons_file, if_pos hn]
  | .file m c :: es => by
    rw [place]
    split
    · rename_i h; subst h
      rw [cleared_cons_file, cleared_cons_file, if_pos hn, if_pos hn]
    · split
      · rw [cleared_cons_file, if_pos hn]
      · rw [cleared_cons_file, cleared_cons_file, cleared_place hn es]
  | .dir m sub :: es => by
    rw [place]
    split
    · rw [cleared_cons_file, if_pos hn]
    · rw [cleared_cons_dir, cleared_cons_dir, cleared_place hn es]

theorem cleared_placeAll {out} : {steps : List (Str × Str)} → {es : List Tree} →
    (∀ p ∈ steps, p.1 = out ∨ p.1 = utilsName) → cleared out (placeAll steps es) = cleared out es
  | [], _, _ => rfl
  | p :: ps, es, h => by
    show cleared out (placeAll ps (place p.1 p.2 es)) = _
    rw [cleared_placeAll fun q hq => h q (List.mem_cons_of_mem _ hq),
      cleared_place (h p (List.mem_cons_self ..))]

theorem place_mem {n s e} : {es : List Tree} → e ∈ place n s es → e = .file n s ∨ e ∈ es
  | [], h => by simpa [place] using h
  | .file m c :: es, h => by
    rw [place] at h
    split at h
    · rcases List.mem_cons.1 h with h | h
      · exact .inl h
      · exact .inr (List.mem_cons_of_mem _ h)
    · split at h
      · rcases List.mem_cons.1 h with h | h
        · exact .inl h
        · exact .inr h
      · rcases List.mem_cons.1 h with h | h
        · exact .inr (List.mem_cons.2 (.inl h))
        · exact (place_mem h).imp_right (List.mem_cons_of_mem _)
  | .dir m sub :: es, h => by
    rw [place] at h
    split at h
    · rcases List.mem_cons.1 h with h | h
      · exact .inl h
      · exact .inr h
    · rcases List.mem_cons.1 h with h | h
      · exact .inr (List.mem_cons.2 (.inl h))
      · exact (place_mem h).imp_right (List.mem_cons_of_mem _)

theorem mem_place {n s m c} (hm : m ≠ n) : {es : List Tree} → .file m c ∈ es → .file m c ∈ place n s es
  | .file k x :: es, h => by
    rw [place]
    rcases List.mem_cons.1 h with h | h
    · cases h
      rw [if_neg hm]
      split
      · exact List.mem_cons_of_mem _ (List.mem_cons_self ..)
      · exact List.mem_cons_self ..
    · split
      · exact List.mem_cons_of_mem _ h
      · split
        · exact List.mem_cons_of_mem _ (List.mem_cons_of_mem _ h)
        · exact List.mem_cons_of_mem _ (mem_place hm h)
  | .dir k x :: es, h => by
    rw [place]
    rcases List.mem_cons.1 h with h | h
    · cases h
    · split
      · exact List.mem_cons_of_mem _ (List.mem_cons_of_mem _ h)
      · exact List.mem_cons_of_mem _ (mem_place hm h)

theorem str_le_of_lt {a b : Str} (h : a < b) : a ≤ b := List.le_iff_lt_or_eq.2 (.inl h)

theorem str_lt_le {a b c : Str} (h : a < b) (h' : b ≤ c) : a ≤ c := by
  rcases List.le_iff_lt_or_eq.1 h' with h' | rfl
  · exact str_le_of_lt (List.lt_trans h h')
  · exact str_le_of_lt h

/-- Listings stay in order. -/
theorem place_sorted {n s} : {es : List Tree} → (es.Pairwise fun a b => a.name ≤ b.name) →
    (place n s es).Pairwise fun a b => a.name ≤ b.name
  | [], _ => by simp [place]
  | .file m c :: es, h => by
    rw [List.pairwise_cons] at h
    rw [place]
    split
    · rename_i hm; subst hm
      exact List.pairwise_cons.2 ⟨h.1, h.2⟩
    · split
      · rename_i hlt
        refine List.pairwise_cons.2 ⟨?_, List.pairwise_cons.2 h⟩
        intro e he
        rcases List.mem_cons.1 he with rfl | he
        · exact str_le_of_lt hlt
        · exact str_lt_le hlt (h.1 e he)
      · rename_i hlt
        refine List.pairwise_cons.2 ⟨?_, place_sorted h.2⟩
        intro e he
        rcases place_mem he with rfl | he
        · exact List.not_lt.1 hlt
        · exact h.1 e he
  | .dir m sub :: es, h => by
    rw [List.pairwise_cons] at h
    rw [place]
    split
    · rename_i hlt
      refine List.pairwise_cons.2 ⟨?_, List.pairwise_cons.2 h⟩
      intro e he
      rcases List.mem_cons.1 he with rfl | he
      · exact str_le_of_lt hlt
      · exact str_lt_le hlt (h.1 e he)
    · rename_i hlt
      refine List.pairwise_cons.2 ⟨?_, place_sorted h.2⟩
      intro e he
      rcases place_mem he with rfl | he
      · exact List.not_lt.1 hlt
      · exact h.1 e he

theorem placeAll_sorted : {steps : List (Str × Str)} → {es : List Tree} → (es.Pairwise fun a b => a.name ≤ b.name) →
    (placeAll steps es).Pairwise fun a b => a.name ≤ b.name
  | [], _, h => h
  | p :: ps, es, h => by
    show (placeAll ps (place p.1 p.2 es)).Pairwise _
    exact placeAll_sorted (place_sorted h)

theorem mem_placeAll {m c} : {steps : List (Str × Str)} → {es : List Tree} → (∀ p ∈ steps, m ≠ p.1) →
    .file m c ∈ es → .file m c ∈ placeAll steps es
  | [], _, _, h => h
  | p :: ps, es, hn, h => by
    show _ ∈ placeAll ps (place p.1 p.2 es)
    exact mem_placeAll (fun q hq => hn q (List.mem_cons_of_mem _ hq))
      (mem_place (hn p (List.mem_cons_self ..)) h)

/-- Discovery in a tree depends on a directory only by what is discovered in it. -/
theorem discover_inDir {f g : List Tree → List Tree} {c} : {dir : DirPath} → {es : List Tree} →
    (∀ sub, IsDir es dir sub → ∀ r pk, discoverPackages r (treeEntries c (f sub)) pk =
      discoverPackages r (treeEntries c (g sub)) pk) →
    ∀ r pk, discoverPackages r (treeEntries c (inDir f dir es)) pk =
      discoverPackages r (treeEntries c (inDir g dir es)) pk
  | [], es, h => h es .here
  | d :: ds, es, h => by
    have hcons : ∀ x l, treeEntries c (x :: l) = x.entry c :: treeEntries c l := fun _ _ => rfl
    have hall : ∀ l : List Tree, (∀ e ∈ l, e ∈ es) → ∀ r pk,
        discoverPackages r (treeEntries c (inDir f (d :: ds) l)) pk =
        discoverPackages r (treeEntries c (inDir g (d :: ds) l)) pk := by
      intro l
      induction l with
      | nil => intro _ r pk; rfl
      | cons e l ih =>
        intro hl r pk
        have ih := ih fun e he => hl e (List.mem_cons_of_mem _ he)
        have hstep : ∀ x y : Tree, (discoverEntry r (x.entry c) pk = discoverEntry r (y.entry c) pk) →
            discoverPackages r (treeEntries c (x :: inDir f (d :: ds) l)) pk =
            discoverPackages r (treeEntries c (y :: inDir g (d :: ds) l)) pk := by
          intro x y hxy
          rw [hcons, hcons, discoverPackages, discoverPackages, hxy]
          cases discoverEntry r (y.entry c) pk with
          | none => rfl
          | some pk' => exact ih r pk'
        rw [inDir, inDir] at hstep ⊢
        rw [List.map_cons, List.map_cons]
        cases e with
        | file n s => exact hstep _ _ rfl
        | dir n sub =>
          by_cases hn : n = d
          · subst hn
            simp only [if_true]
            refine hstep _ _ ?_
            simp only [Tree.entry, discoverEntry]
            exact discover_inDir (fun x hx => h x (.deeper (hl _ (List.mem_cons_self ..)) hx)) _ _
          · simp only [hn, if_false]
            exact hstep _ _ rfl
    exact hall es fun _ h => h

end VJ
