import Verif.Spec.Discover

/-!
# C45: module discovery finds every package directory once
-/

namespace VJ

theorem pathExt_go {name : Str} : pathExt name = str ".go" ↔ ∃ base, name = base ++ str ".go" := by
  constructor
  · intro h
    rw [pathExt] at h
    split at h
    · have h0 : str ".go" = '.' :: ['g', 'o'] := rfl
      rw [h0, List.cons.injEq] at h
      replace h := h.2
      have h1 := congrArg List.reverse h
      rw [List.reverse_reverse] at h1
      have h2 := List.takeWhile_append_dropWhile (p := (· ≠ '.')) (l := name.reverse)
      have hd : ∃ r, name.reverse.dropWhile (· ≠ '.') = '.' :: r := by
        have hm : '.' ∈ name.reverse := by simpa
        generalize name.reverse = l at hm
        clear h h1 h2
        induction l with
        | nil => cases hm
        | cons c l ih =>
          by_cases hc : c = '.'
          · subst hc; exact ⟨l, by simp⟩
          · simp only [List.mem_cons] at hm
            rcases hm with hm | hm
            · exact absurd hm.symm hc
            · obtain ⟨r, hr⟩ := ih hm
              exact ⟨r, by rw [List.dropWhile_cons_of_pos (by simpa using hc)]; exact hr⟩
      obtain ⟨r, hr⟩ := hd
      rw [h1, hr] at h2
      refine ⟨r.reverse, ?_⟩
      have h3 := congrArg List.reverse h2
      rw [List.reverse_reverse] at h3
      rw [← h3, h0]
      simp
    · cases h
  · rintro ⟨base, rfl⟩
    have h0 : str ".go" = ['.', 'g', 'o'] := rfl
    rw [pathExt, h0, if_pos (by simp)]
    simp

theorem mem_addPackage {name dir pk n d} :
    d ∈ addPackage name dir pk n ↔ d ∈ pk n ∨ (n = name ∧ d = dir) := by
  rw [addPackage]
  split
  · rename_i h
    split
    · rename_i hm
      constructor
      · exact .inl
      · rintro (h' | ⟨_, rfl⟩)
        · exact h'
        · exact hm
    · simp [h]
  · rename_i h; simp [h]

theorem addPackage_nodup {name dir pk} (h : ∀ n, (pk n).Nodup) (n : Str) :
    (addPackage name dir pk n).Nodup := by
  rw [addPackage]
  split
  · split
    · exact h n
    · rename_i hm
      rw [List.nodup_append]
      exact ⟨h n, by simp, by intro a ha b hb; simp at hb; subst hb; rintro rfl; exact hm ha⟩
  · exact h n

/-- What one listing adds to the directories known so far. -/
def Adds (dir : DirPath) (entries : List FsEntry) (pk pk' : PackageDirs) : Prop :=
  ((∀ n, (pk n).Nodup) → ∀ n, (pk' n).Nodup) ∧
  ∀ n d, d ∈ pk' n ↔ d ∈ pk n ∨ ∃ path, d = dir ++ path ∧ HasPackage entries path n

theorem hasPackage_nil {path p} : ¬ HasPackage [] path p := by
  intro h
  cases h with
  | here h => cases h
  | deeper h => cases h

theorem hasPackage_cons {e es path p} :
    HasPackage (e :: es) path p ↔ HasPackage [e] path p ∨ HasPackage es path p := by
  constructor
  · intro h
    cases h with
    | here hm =>
      rcases List.mem_cons.1 hm with hm | hm
      · exact .inl (.here (List.mem_cons.2 (.inl hm)))
      · exact .inr (.here hm)
    | deeper hm hs =>
      rcases List.mem_cons.1 hm with hm | hm
      · exact .inl (.deeper (List.mem_cons.2 (.inl hm)) hs)
      · exact .inr (.deeper hm hs)
  · rintro (h | h)
    · cases h with
      | here hm => exact .here (List.mem_cons.2 (.inl (List.mem_singleton.1 hm)))
      | deeper hm hs => exact .deeper (List.mem_cons.2 (.inl (List.mem_singleton.1 hm))) hs
    · cases h with
      | here hm => exact .here (List.mem_cons_of_mem _ hm)
      | deeper hm hs => exact .deeper (List.mem_cons_of_mem _ hm) hs

mutual
theorem discoverEntry_adds {dir : DirPath} {pk pk' : PackageDirs} :
    (e : FsEntry) → discoverEntry dir e pk = some pk' → Adds dir [e] pk pk'
  | .file name clause, h => by
    rw [discoverEntry] at h
    split at h
    · rename_i hgo
      obtain ⟨base, rfl⟩ := pathExt_go.1 hgo
      simp only [discoverPackage, Option.map_eq_some_iff, List.dropLast_concat] at h
      obtain ⟨p, rfl, rfl⟩ := h
      refine ⟨fun hn n => addPackage_nodup hn n, fun n d => ?_⟩
      rw [mem_addPackage]
      refine or_congr_right ⟨?_, ?_⟩
      · rintro ⟨rfl, rfl⟩
        exact ⟨[], by simp, .here (List.mem_singleton.2 rfl)⟩
      · rintro ⟨path, rfl, hp⟩
        cases hp with
        | here hm => simp at hm; exact ⟨hm.2, by simp⟩
        | deeper hm => simp at hm
    · rename_i hgo
      cases h
      refine ⟨id, fun n d => ?_⟩
      constructor
      · exact .inl
      · rintro (h | ⟨path, rfl, hp⟩)
        · exact h
        · cases hp with
          | here hm =>
            simp at hm
            exact absurd (pathExt_go.2 ⟨_, hm.1.symm⟩) hgo
          | deeper hm => simp at hm
  | .dir name entries, h => by
    rw [discoverEntry] at h
    obtain ⟨h1, h2⟩ := discoverPackages_adds entries h
    refine ⟨h1, fun n d => ?_⟩
    rw [h2]
    refine or_congr_right ⟨?_, ?_⟩
    · rintro ⟨path, rfl, hp⟩
      exact ⟨name :: path, by simp, .deeper (List.mem_singleton.2 rfl) hp⟩
    · rintro ⟨path, rfl, hp⟩
      cases hp with
      | here hm => simp at hm
      | deeper hm hs =>
        simp at hm
        obtain ⟨rfl, rfl⟩ := hm
        exact ⟨_, by simp, hs⟩
  | .locked _, h => by simp [discoverEntry] at h
theorem discoverPackages_adds {dir : DirPath} {pk pk' : PackageDirs} :
    (es : List FsEntry) → discoverPackages dir es pk = some pk' → Adds dir es pk pk'
  | [], h => by
    rw [discoverPackages] at h
    cases h
    exact ⟨id, fun n d => by simp [hasPackage_nil]⟩
  | e :: es, h => by
    rw [discoverPackages] at h
    simp only [Option.bind_eq_bind, Option.bind_eq_some_iff] at h
    obtain ⟨pk1, h1, h2⟩ := h
    obtain ⟨n1, m1⟩ := discoverEntry_adds e h1
    obtain ⟨n2, m2⟩ := discoverPackages_adds es h2
    refine ⟨fun hn => n2 (n1 hn), fun n d => ?_⟩
    rw [m2, m1, or_assoc]
    refine or_congr_right ⟨?_, ?_⟩
    · rintro (⟨path, rfl, hp⟩ | ⟨path, rfl, hp⟩)
      · exact ⟨path, rfl, hasPackage_cons.2 (.inl hp)⟩
      · exact ⟨path, rfl, hasPackage_cons.2 (.inr hp)⟩
    · rintro ⟨path, rfl, hp⟩
      rcases hasPackage_cons.1 hp with hp | hp
      · exact .inl ⟨path, rfl, hp⟩
      · exact .inr ⟨path, rfl, hp⟩
end

mutual
theorem discoverEntry_none {dir : DirPath} {pk : PackageDirs} :
    (e : FsEntry) → (discoverEntry dir e pk = none ↔ Broken [e])
  | .file name clause => by
    rw [discoverEntry]
    split
    · rename_i hgo
      obtain ⟨base, rfl⟩ := pathExt_go.1 hgo
      simp only [discoverPackage, Option.map_eq_none_iff]
      constructor
      · rintro rfl; exact .clause (List.mem_singleton.2 rfl)
      · intro h
        cases h with
        | clause hm => simp at hm; exact hm.2.symm
        | locked hm => simp at hm
        | deeper hm => simp at hm
    · rename_i hgo
      refine ⟨fun h => by (cases h), fun h => ?_⟩
      cases h with
      | clause hm => simp at hm; exact absurd (pathExt_go.2 ⟨_, hm.1.symm⟩) hgo
      | locked hm => simp at hm
      | deeper hm => simp at hm
  | .dir name entries => by
    rw [discoverEntry, discoverPackages_none entries]
    constructor
    · exact .deeper (List.mem_singleton.2 rfl)
    · intro h
      cases h with
      | clause hm => simp at hm
      | locked hm => simp at hm
      | deeper hm hs => simp at hm; obtain ⟨rfl, rfl⟩ := hm; exact hs
  | .locked name => by
    rw [discoverEntry]
    exact ⟨fun _ => .locked (List.mem_singleton.2 rfl), fun _ => rfl⟩
theorem discoverPackages_none {dir : DirPath} {pk : PackageDirs} :
    (es : List FsEntry) → (discoverPackages dir es pk = none ↔ Broken es)
  | [] => by
    rw [discoverPackages]
    refine ⟨fun h => by (cases h), fun h => ?_⟩
    cases h <;> rename_i hm <;> first | (cases hm) | (rename_i h; cases h)
  | e :: es => by
    have hb : Broken (e :: es) ↔ Broken [e] ∨ Broken es := by
      constructor
      · intro h
        cases h with
        | clause hm =>
          rcases List.mem_cons.1 hm with hm | hm
          · exact .inl (.clause (List.mem_singleton.2 hm))
          · exact .inr (.clause hm)
        | locked hm =>
          rcases List.mem_cons.1 hm with hm | hm
          · exact .inl (.locked (List.mem_singleton.2 hm))
          · exact .inr (.locked hm)
        | deeper hm hs =>
          rcases List.mem_cons.1 hm with hm | hm
          · exact .inl (.deeper (List.mem_singleton.2 hm) hs)
          · exact .inr (.deeper hm hs)
      · rintro (h | h)
        · cases h with
          | clause hm => exact .clause (List.mem_cons.2 (.inl (List.mem_singleton.1 hm)))
          | locked hm => exact .locked (List.mem_cons.2 (.inl (List.mem_singleton.1 hm)))
          | deeper hm hs => exact .deeper (List.mem_cons.2 (.inl (List.mem_singleton.1 hm))) hs
        · cases h with
          | clause hm => exact .clause (List.mem_cons_of_mem _ hm)
          | locked hm => exact .locked (List.mem_cons_of_mem _ hm)
          | deeper hm hs => exact .deeper (List.mem_cons_of_mem _ hm) hs
    rw [discoverPackages, hb, ← discoverEntry_none (dir := dir) (pk := pk) e]
    simp only [Option.bind_eq_bind, Option.bind_eq_none_iff]
    constructor
    · intro h
      cases h1 : discoverEntry dir e pk with
      | none => exact .inl rfl
      | some pk1 => exact .inr ((discoverPackages_none es).1 (h pk1 h1))
    · rintro (h | h) pk1 h1
      · rw [h] at h1; cases h1
      · exact (discoverPackages_none es).2 h
end

/-- **C45.** For every directory tree: after a discovery that ends without error, the
directories listed for a package name are exactly those holding a Go file with that package
clause, each listed once. -/
theorem C45_every_directory_once {root entries pk} (h : discover root entries = some pk)
    (p : Str) :
    (pk p).Nodup ∧
    ∀ dir, dir ∈ pk p ↔ ∃ path, dir = root ++ path ∧ HasPackage entries path p := by
  obtain ⟨h1, h2⟩ := discoverPackages_adds entries h
  refine ⟨h1 (fun _ => .nil) p, fun d => ?_⟩
  rw [h2]
  simp

/-- **C45.** Discovery ends with an error exactly when a Go file somewhere in the tree has no
readable package clause, or a directory cannot be listed. -/
theorem C45_errors {root entries} : discover root entries = none ↔ Broken entries :=
  discoverPackages_none entries

/-- **C45.** The module root is the nearest directory with a go.mod, among the directories above that the path spells out, when every
go.mod passed on the way there can be opened or is not there; otherwise there is an error.

Missing from the full property: a path relative to the working directory does not spell out
the directories above that one (`Examples.C45_parent_module_missed`), and `..` is taken for
the name of a directory below it (`Examples.C45_foreign_module`). -/
theorem C45_module_root_partial {fs : DirPath → OpenMod} {dir : DirPath} (m : DirPath) :
    discoverMod fs dir = some m ↔ NearestMod fs dir m ∧ ∀ d, m <+: d → d <+: dir → fs d ≠ .failed := by
  induction h : dir.length using Nat.strongRecOn generalizing dir with
  | _ n ih =>
    rw [discoverMod]
    split
    · rename_i hf
      constructor
      · intro h
        cases h
        refine ⟨⟨hf, List.prefix_refl _, fun _ h _ => h⟩, fun d h1 h2 hd => ?_⟩
        rw [h2.eq_of_length_le h1.length_le, hf] at hd
        cases hd
      · rintro ⟨⟨h1, h2, h3⟩, _⟩
        have := h3 dir (List.prefix_refl _) hf
        exact congrArg some (this.eq_of_length_le h2.length_le)
    · rename_i hf
      split
      · rename_i h0
        subst h0
        refine ⟨fun h => by (cases h), ?_⟩
        rintro ⟨⟨h1, h2, _⟩, _⟩
        rw [List.prefix_nil.1 h2, hf] at h1
        cases h1
      · rename_i h0
        have hd : ∀ d : DirPath, d <+: dir ↔ d = dir ∨ d <+: dir.dropLast := by
          intro d
          have hc := List.dropLast_concat_getLast h0
          constructor
          · intro hp
            rw [← hc] at hp
            rcases List.prefix_concat_iff.1 hp with hp | hp
            · exact .inl (hp.trans hc)
            · exact .inr hp
          · rintro (rfl | hp)
            · exact List.prefix_refl _
            · exact hp.trans (List.dropLast_prefix _)
        have := List.length_pos_iff.2 h0
        rw [ih dir.dropLast.length (by simp only [List.length_dropLast]; omega) rfl]
        constructor
        · rintro ⟨⟨h1, h2, h3⟩, h4⟩
          refine ⟨⟨h1, (hd m).2 (.inr h2), fun d hp hf' => ?_⟩, fun d hm hp => ?_⟩
          · rcases (hd d).1 hp with rfl | hp
            · rw [hf] at hf'; cases hf'
            · exact h3 d hp hf'
          · rcases (hd d).1 hp with rfl | hp
            · rw [hf]; intro h; cases h
            · exact h4 d hm hp
        · rintro ⟨⟨h1, h2, h3⟩, h4⟩
          refine ⟨⟨h1, ?_, fun d hp hf' => h3 d ((hd d).2 (.inr hp)) hf'⟩, fun d hm hp => h4 d hm ((hd d).2 (.inr hp))⟩
          rcases (hd m).1 h2 with rfl | hp
          · rw [hf] at h1; cases h1
          · exact hp
    · rename_i hf
      refine ⟨fun h => by (cases h), ?_⟩
      rintro ⟨⟨_, h2, _⟩, h4⟩
      exact absurd hf (h4 dir h2 (List.prefix_refl _))

namespace Examples

/-- A module with two packages called `data` in different directories, one of them in two
files. -/
def tree : List FsEntry :=
  [.file (str "go.mod") none, .file (str "main.go") (some (str "main")),
   .dir (str "a") [.file (str "x.go") (some (str "data")), .file (str "y.go") (some (str "data"))],
   .dir (str "b") [.dir (str "c") [.file (str "z.go") (some (str "data"))],
     .file (str "z_test.go") (some (str "b_test"))]]

theorem C45_tree : ∃ pk, discover [] tree = some pk ∧
    pk (str "data") = [[str "a"], [str "b", str "c"]] := ⟨_, rfl, rfl⟩

example : HasPackage tree [str "b", str "c"] (str "data") :=
  .deeper (sub := [.dir (str "c") [.file (str "z.go") (some (str "data"))],
     .file (str "z_test.go") (some (str "b_test"))]) (by simp [tree])
    (.deeper (sub := [.file (str "z.go") (some (str "data"))]) (by simp)
      (.here (base := str "z") (List.mem_singleton.2 rfl)))

/-- What a relative path means when the working directory is `cwd`. -/
def resolve (cwd : DirPath) : DirPath → DirPath
  | [] => cwd
  | d :: ds => if d = str ".." then resolve cwd.dropLast ds else resolve (cwd ++ [d]) ds

/-- The file system with the single go.mod file `root/go.mod`, seen from `cwd`. -/
def oneModule (root cwd dir : DirPath) : OpenMod :=
  if resolve cwd dir = root then .found else .missing

example : NearestMod (oneModule [str "m"] []) [str "m", str "p", str "q"] [str "m"] := by
  exact ((C45_module_root_partial _).1 (by decide +kernel)).1

/-- A go.mod that cannot be opened, below the one that can: an error, not the module above. -/
example : discoverMod (fun d => if d = [] then .found else .failed) [str "m"] = none := by decide +kernel

/-- The full property fails: started in `/m/p` on a file of `.`, the module file `/m/go.mod`
above is not found. -/
theorem C45_parent_module_missed :
    discoverMod (oneModule [str "m"] [str "m", str "p"]) [] = none ∧
    NearestMod (oneModule [str "m"] []) [str "m", str "p"] [str "m"] := by
  refine ⟨by decide +kernel, ((C45_module_root_partial _).1 (by decide +kernel)).1⟩

/-- The full property fails: started in `/m` on a file of the directory `../x`, which is in
no module, the module `/m` is taken for its module. -/
theorem C45_foreign_module :
    discoverMod (oneModule [str "m"] [str "m"]) [str "..", str "x"] = some [] ∧
    resolve [str "m"] [] = [str "m"] ∧
    resolve [str "m"] [str "..", str "x"] = [str "x"] := by decide +kernel

end Examples

end VJ
