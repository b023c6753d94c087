import Verif.Proof.Output

/-!
# C57: what a run of the generator leaves on the disk, also when it is interrupted
-/

namespace VJ

theorem puts_names {fmt : Str → Option Str} {out now : Str} {p} (h : p ∈ fmtSteps fmt out now) : p.1 = out := by
  rw [fmtSteps] at h
  split at h
  · exact (mem_puts h).1
  · cases h

theorem writeSteps_names {out text utils : Str} {p} (h : p ∈ writeSteps out text utils) :
    p.1 = out ∨ p.1 = utilsName := by
  rw [writeSteps, List.mem_append] at h
  exact h.imp (fun h => (mem_puts h).1) (fun h => (mem_puts h).1)

/-- Whatever way `Print` ends, all it did was writing to the two files. -/
theorem prints_steps {fmt dir out text utils es e es'} (h : Prints fmt dir out text utils es e es') :
    ∃ steps, es' = putAll dir steps es ∧ ∀ p ∈ steps, p.1 = out ∨ p.1 = utilsName := by
  have hw : ∀ p ∈ printSteps fmt out text utils, p.1 = out ∨ p.1 = utilsName := by
    intro p hp
    rcases List.mem_append.1 hp with hp | hp
    · exact writeSteps_names hp
    · exact .inl (puts_names hp)
  cases h with
  | finished => exact ⟨_, rfl, hw⟩
  | dropped m =>
    refine ⟨_, rfl, fun p hp => ?_⟩
    rcases List.mem_append.1 hp with hp | hp
    · exact writeSteps_names hp
    · exact .inl (puts_names (List.mem_of_mem_take hp))
  | killed k => exact ⟨_, rfl, fun p hp => hw p (List.mem_of_mem_take hp)⟩
  | create => exact ⟨[], rfl, fun _ h => by cases h⟩
  | @failed k m now hk hnow =>
    refine ⟨_, rfl, fun p hp => ?_⟩
    rcases List.mem_append.1 hp with hp | hp
    · exact writeSteps_names (List.mem_of_mem_take hp)
    · exact .inl (puts_names (List.mem_of_mem_take hp))

theorem runs_steps {G dir src out es e es'} (h : Runs G dir src out es e es') :
    ∃ steps, es' = putAll dir steps es ∧ ∀ p ∈ steps, p.1 = out ∨ p.1 = utilsName := by
  cases h with
  | refused => exact ⟨[], rfl, fun _ h => by cases h⟩
  | prints _ hp => exact prints_steps hp

/-- **C57, only two files.** Whatever way a run of the generator ends (it finishes, it is killed at
any moment, an operation on a file fails, or it gives up), every file of the module except the
output file and `valyjson_utils.go` beside it is as before. -/
theorem C57_only_two_files {G dir src out es e es'} (h : Runs G dir src out es e es') {d name}
    (hn : ¬ (d = dir ∧ (name = out ∨ name = utilsName))) :
    readFile es' d name = readFile es d name := by
  obtain ⟨steps, rfl, hs⟩ := runs_steps h
  refine readFile_putAll_ne fun p hp => ?_
  rintro ⟨rfl, rfl⟩
  exact hn ⟨rfl, hs p hp⟩

/-- **C57, refused.** A run that cannot generate (a package clause that cannot be read, a source
file that is missing or unsupported) leaves the disk as it is, with the old output. -/
theorem C57_refused {G dir src out es e es'} (h : Runs G dir src out es e es') (hp : G.plan es dir src = none) :
    e = .refused ∧ es' = es := by
  cases h with
  | refused => exact ⟨rfl, rfl⟩
  | prints h' => rw [hp] at h'; cases h'

theorem read_utils {dir out text utils es} {steps : List (Str × Str)} (hd : (dirFiles es dir).isSome)
    (hu : out ≠ utilsName) (hs : ∀ p ∈ steps, p.1 = out) :
    readFile (putAll dir (writeSteps out text utils ++ steps) es) dir utilsName = some utils := by
  rw [putAll_append, readFile_putAll_ne (fun p hp => by
    rintro ⟨-, h⟩; exact hu ((hs p hp).symm.trans h.symm)), writeSteps, readFile_puts hd]

theorem read_out {dir out text utils es} (hd : (dirFiles es dir).isSome) (hu : out ≠ utilsName) :
    readFile (putAll dir (writeSteps out text utils) es) dir out = some text := by
  rw [writeSteps, putAll_append, readFile_putAll_ne (fun p hp => by
    rintro ⟨-, h⟩; exact hu (h.trans (mem_puts hp).1)),
    ← List.nil_append (puts out text), readFile_puts hd]

theorem read_print {fmt dir out text utils es} (hd : (dirFiles es dir).isSome) (hu : out ≠ utilsName) :
    readFile (putAll dir (printSteps fmt out text utils) es) dir out = some ((fmt text).getD text) := by
  rw [printSteps, fmtSteps]
  cases fmt text with
  | some t => exact readFile_puts hd
  | none => simp only [List.append_nil]; exact read_out hd hu

theorem mem_fmtSteps {fmt : Str → Option Str} {out now : Str} {p} (h : p ∈ fmtSteps fmt out now) :
    ∃ t, fmt now = some t ∧ p.2 <+: t := by
  rw [fmtSteps] at h
  split at h
  · rename_i t ht; exact ⟨t, ht, (mem_puts h).2⟩
  · cases h

/-- **C57, complete.** A run in which nothing fails finishes, and leaves the whole generated
text in the output file, formatted if it is a Go file, and the whole helper file beside it. -/
theorem C57_complete {G dir src out es es'} (h : Completes G dir src out es es')
    (hd : (dirFiles es dir).isSome) (hu : out ≠ utilsName) :
    Runs G dir src out es .finished es' ∧ readFile es' dir utilsName = some G.utils ∧
    ∃ text, G.plan es dir src = some text ∧ readFile es' dir out = some ((G.fmt text).getD text) := by
  obtain ⟨text, hp, rfl⟩ := h
  exact ⟨.prints hp .finished, read_utils hd hu fun p hp => puts_names hp, text, hp, read_print hd hu⟩

/-- **C57, finished.** After a run that ends normally the helper file is complete, and the output
file holds the whole text that was generated, or what the formatter wrote.

Missing from the full property: when the disk fails during the formatting the run ends normally
too, and the output file may hold only a beginning of the formatted text
(`Examples.C57_truncated`). -/
theorem C57_finished_partial {G dir src out es es' text} (h : Runs G dir src out es .finished es')
    (hp : G.plan es dir src = some text) (hd : (dirFiles es dir).isSome) (hu : out ≠ utilsName) :
    readFile es' dir utilsName = some G.utils ∧
    ∃ now, readFile es' dir out = some now ∧ (now = text ∨ ∃ t, G.fmt text = some t ∧ now <+: t) := by
  cases h with
  | prints hp' hpr =>
    rw [hp] at hp'
    cases hp'
    cases hpr with
    | finished =>
      refine ⟨read_utils hd hu fun p hp => puts_names hp, _, read_print hd hu, ?_⟩
      cases G.fmt text with
      | some t => exact .inr ⟨t, rfl, List.prefix_refl _⟩
      | none => exact .inl rfl
    | dropped m =>
      refine ⟨read_utils hd hu fun p hp => puts_names (List.mem_of_mem_take hp), ?_⟩
      rcases readFile_putAll_mem (dir := dir) (m := out) (steps := (fmtSteps G.fmt out text).take m)
        (es := putAll dir (writeSteps out text G.utils) es) with h | ⟨p, hp, h1, h2⟩
      · exact ⟨text, by rw [putAll_append, h, read_out hd hu], .inl rfl⟩
      · exact ⟨p.2, by rw [putAll_append, h2], .inr (mem_fmtSteps (List.mem_of_mem_take hp))⟩

/-- **C57, killed.** A run killed at any moment leaves in the output file what was there, a
beginning of the generated text or a beginning of the formatted text; and in the helper file
what was there or a beginning of the new one.  No texts are mixed. -/
theorem C57_killed {G dir src out es es'} (h : Runs G dir src out es .killed es') (hu : out ≠ utilsName) :
    ∃ text, G.plan es dir src = some text ∧
    (readFile es' dir out = readFile es dir out ∨
      ∃ now, readFile es' dir out = some now ∧ (now <+: text ∨ ∃ t, G.fmt text = some t ∧ now <+: t)) ∧
    (readFile es' dir utilsName = readFile es dir utilsName ∨
      ∃ now, readFile es' dir utilsName = some now ∧ now <+: G.utils) := by
  cases h with
  | @prints text _ _ hp hpr =>
    cases hpr with
    | killed k =>
      refine ⟨text, hp, readFile_putAll_mem.imp_right ?_, readFile_putAll_mem.imp_right ?_⟩
      · rintro ⟨p, hm, h1, h2⟩
        refine ⟨p.2, h2, ?_⟩
        rcases List.mem_append.1 (List.mem_of_mem_take hm) with hm | hm
        · rcases List.mem_append.1 hm with hm | hm
          · exact .inl (mem_puts hm).2
          · exact absurd (h1.symm.trans (mem_puts hm).1) hu
        · exact .inr (mem_fmtSteps hm)
      · rintro ⟨p, hm, h1, h2⟩
        refine ⟨p.2, h2, ?_⟩
        rcases List.mem_append.1 (List.mem_of_mem_take hm) with hm | hm
        · rcases List.mem_append.1 hm with hm | hm
          · exact absurd ((mem_puts hm).1.symm.trans h1) hu
          · exact (mem_puts hm).2
        · exact absurd ((puts_names hm).symm.trans h1) hu

theorem plan_changed {G dir src out p es} {f : List Tree → List Tree} (h : Settled G dir src out p es)
    (hf : ∀ sub, cleared out (f sub) = cleared out sub) (hsub : ∀ sub, subdirs (f sub) = subdirs sub)
    (hready : ∀ sub, IsDir es dir sub → Ready G.clause src out p (f sub) ∨ f sub = cleared out sub)
    (hsrc : readFile (inDir f dir es) dir src = readFile es dir src) :
    G.plan (inDir f dir es) dir src = G.plan es dir src := by
  have hd : discover [] (treeEntries G.clause (inDir f dir es)) = discover [] (treeEntries G.clause es) := by
    have := discover_inDir (c := G.clause) (f := f) (g := fun x => x) (dir := dir) (es := es) (fun sub hs r pk => by
      rw [discover_cleared (h.ready sub hs) h.go h.before.1 h.before.2]
      rcases hready sub hs with hr | hr
      · rw [discover_cleared hr h.go h.before.1 h.before.2, hf]
      · rw [hr]) [] (fun _ => [])
    rw [inDir_id] at this
    exact this
  rw [Generator.plan, Generator.plan, hd, hsrc]
  cases discover [] (treeEntries G.clause es) with
  | none => rfl
  | some pk =>
    cases readFile es dir src with
    | none => rfl
    | some s => exact h.elsewhere pk _ _ s fun d hne => dirFiles_inDir_ne hsub hne

theorem subdirs_placeAll : {steps : List (Str × Str)} → {es : List Tree} → subdirs (placeAll steps es) = subdirs es
  | [], _ => rfl
  | p :: ps, es => by
    show subdirs (placeAll ps (place p.1 p.2 es)) = _
    rw [subdirs_placeAll, subdirs_place]

theorem src_ne {src out : Str} (h : src < out ∧ src < utilsName) : ¬ (src = out ∨ src = utilsName) := by
  rintro (h' | h')
  · rw [h'] at h; exact List.lt_irrefl _ h.1
  · rw [h'] at h; exact List.lt_irrefl _ h.2

/-- Two complete runs that generate the same text, from trees that differ only in the two files,
leave the same files. -/
theorem complete_same {G : Generator} {dir src out es es1 text} (hu : out ≠ utilsName)
    (hd : (dirFiles es1 dir).isSome = (dirFiles es dir).isSome)
    (hsrc : G.plan es dir src = some text)
    (hsame : ∀ d name, ¬ (d = dir ∧ (name = out ∨ name = utilsName)) → readFile es1 d name = readFile es d name) :
    SameFiles (putAll dir (printSteps G.fmt out text G.utils) es1) (putAll dir (printSteps G.fmt out text G.utils) es) := by
  have hsome : (dirFiles es dir).isSome := by
    rw [Generator.plan] at hsrc
    cases h1 : discover [] (treeEntries G.clause es) with
    | none => rw [h1] at hsrc; cases hsrc
    | some pk =>
      rw [h1] at hsrc
      cases h2 : dirFiles es dir with
      | none => simp [readFile, h2] at hsrc
      | some x => rfl
  have hsome1 : (dirFiles es1 dir).isSome := hd.trans hsome
  intro d name
  by_cases hn : d = dir ∧ (name = out ∨ name = utilsName)
  · obtain ⟨rfl, rfl | rfl⟩ := hn
    · rw [read_print hsome1 hu, read_print hsome hu]
    · rw [printSteps, read_utils hsome1 hu fun p hp => puts_names hp,
        read_utils hsome hu fun p hp => puts_names hp]
  · have : ∀ p ∈ printSteps G.fmt out text G.utils, ¬ (d = dir ∧ name = p.1) := by
      rintro p hp ⟨rfl, rfl⟩
      rcases List.mem_append.1 hp with hp | hp
      · exact hn ⟨rfl, writeSteps_names hp⟩
      · exact hn ⟨rfl, .inl (puts_names hp)⟩
    rw [readFile_putAll_ne this, readFile_putAll_ne this, hsame d name hn]

/-- **C57, repeat.** After a run that ended in any way, killed or failed included, running the
generator again gives exactly the files one undisturbed run would have given, provided the files
left behind still begin with a readable package clause.

Missing from the full property: that last condition.  Without it no run does anything, see
`C57_stuck`. -/
theorem C57_repeat_partial {G dir src out p es e es1 es3} (hs : Settled G dir src out p es) (hu : out ≠ utilsName)
    (h : Runs G dir src out es e es1)
    (hleft : ∀ sub n s, IsDir es1 dir sub → n = out ∨ n = utilsName → .file n s ∈ sub → G.clause s = some p)
    (h3 : Completes G dir src out es es3) :
    ∃ es2, Completes G dir src out es1 es2 ∧ SameFiles es2 es3 := by
  obtain ⟨steps, rfl, hst⟩ := runs_steps h
  obtain ⟨text, hp, rfl⟩ := h3
  have hsn := src_ne hs.before
  have hsrc : readFile (putAll dir steps es) dir src = readFile es dir src :=
    readFile_putAll_ne fun q hq => by rintro ⟨-, rfl⟩; exact hsn (hst q hq)
  have hplan : G.plan (putAll dir steps es) dir src = some text := by
    rw [← hp]
    rw [putAll_inDir] at hsrc hleft ⊢
    refine plan_changed hs (fun sub => cleared_placeAll hst) (fun sub => subdirs_placeAll) (fun sub hsub => .inl ?_) hsrc
    have hr := hs.ready sub hsub
    obtain ⟨s, hm, hc⟩ := hr.source
    exact ⟨placeAll_sorted hr.sorted,
      ⟨s, mem_placeAll (fun q hq => by rintro rfl; exact hsn (hst q hq)) hm, hc⟩,
      fun n s hn hm => hleft _ n s (isDir_inDir hsub) hn hm⟩
  refine ⟨_, ⟨text, hplan, rfl⟩, complete_same hu dirFiles_putAll_isSome hp fun d name hn => ?_⟩
  exact C57_only_two_files h hn

theorem subdirs_cleared {out} : (es : List Tree) → subdirs (cleared out es) = subdirs es
  | [] => rfl
  | .file n s :: es => by
    rw [cleared_cons_file]
    split
    · exact subdirs_cleared es
    · exact subdirs_cleared es
  | .dir n sub :: es => by
    rw [cleared_cons_dir]
    exact congrArg ((n, sub) :: ·) (subdirs_cleared es)

theorem filesOf_cleared {out} : (es : List Tree) →
    filesOf (cleared out es) = (filesOf es).filter fun q => q.1 ≠ out ∧ q.1 ≠ utilsName
  | [] => rfl
  | .file n s :: es => by
    rw [cleared_cons_file, filesOf_file, List.filter_cons]
    by_cases h : n = out ∨ n = utilsName
    · rw [if_pos h, if_neg, filesOf_cleared es]
      rcases h with h | h <;> simp [h]
    · rw [if_neg h]
      rw [not_or] at h
      rw [if_pos (by simp [h]), filesOf_file, filesOf_cleared es]
  | .dir n sub :: es => by
    rw [cleared_cons_dir, filesOf_dir, filesOf_dir, filesOf_cleared es]

theorem cleared_cleared {out} {es : List Tree} : cleared out (cleared out es) = cleared out es := by
  simp [cleared, List.filter_filter]

theorem lookup_cleared {out m : Str} (h : ¬ (m = out ∨ m = utilsName)) : {fs : List (Str × Str)} →
    (fs.filter fun q => q.1 ≠ out ∧ q.1 ≠ utilsName).lookup m = fs.lookup m
  | [] => rfl
  | (k, c) :: fs => by
    rw [List.filter_cons]
    split
    · rw [lookup_if, lookup_if, lookup_cleared h]
    · rename_i hk
      rw [lookup_cleared h, lookup_if, if_neg]
      rintro rfl
      rw [not_or] at h
      exact hk (by simp [h])

/-- **C57, recover.** After a run that ended in any way, removing the two generated files and
running the generator again gives exactly the files one undisturbed run would have given. -/
theorem C57_recover {G dir src out p es e es1 es3} (hs : Settled G dir src out p es) (hu : out ≠ utilsName)
    (h : Runs G dir src out es e es1) (h3 : Completes G dir src out es es3) :
    ∃ es2, Completes G dir src out (inDir (cleared out) dir es1) es2 ∧ SameFiles es2 es3 := by
  obtain ⟨steps, rfl, hst⟩ := runs_steps h
  obtain ⟨text, hp, rfl⟩ := h3
  have hsn := src_ne hs.before
  have hcl : inDir (cleared out) dir (putAll dir steps es) = inDir (cleared out) dir es := by
    rw [putAll_inDir, inDir_comp]
    congr 1
    funext sub
    exact cleared_placeAll hst
  rw [hcl]
  have hsame : ∀ d name, ¬ (d = dir ∧ (name = out ∨ name = utilsName)) →
      readFile (inDir (cleared out) dir es) d name = readFile es d name := by
    intro d name hn
    by_cases hd : d = dir
    · subst hd
      rw [readFile, readFile, dirFiles_inDir_self filesOf_cleared]
      cases dirFiles es d with
      | none => rfl
      | some fs => exact lookup_cleared fun h => hn ⟨rfl, h⟩
    · rw [readFile, readFile, dirFiles_inDir_ne subdirs_cleared hd]
  have hplan : G.plan (inDir (cleared out) dir es) dir src = some text := by
    rw [← hp]
    exact plan_changed hs (fun sub => cleared_cleared) subdirs_cleared (fun sub _ => .inr rfl)
      (hsame dir src fun h => hsn h.2)
  refine ⟨_, ⟨text, hplan, rfl⟩, complete_same hu ?_ hp hsame⟩
  rw [dirFiles_inDir_self filesOf_cleared]
  cases dirFiles es dir <;> rfl

theorem broken_in {c out s} (hs : c s = none) {es dir sub} (h : IsDir es dir sub) :
    .file (out ++ str ".go") s ∈ sub → Broken (treeEntries c es) := by
  induction h with
  | here =>
    intro hm
    have := mem_treeEntries (c := c) hm
    rw [Tree.entry, hs] at this
    exact .clause this
  | deeper hm _ ih =>
    intro h'
    have := mem_treeEntries (c := c) hm
    rw [Tree.entry] at this
    exact .deeper this (ih h')

/-- **C57, stuck.** As long as some Go file anywhere in the module has no readable package clause,
a run of the generator on any source file of the module panics and changes nothing. -/
theorem C57_stuck {G : Generator} {es dir sub base s} (h : IsDir es dir sub) (hm : .file (base ++ str ".go") s ∈ sub)
    (hs : G.clause s = none) {dir' src' out' e es'} (hr : Runs G dir' src' out' es e es') :
    e = .refused ∧ es' = es := by
  refine C57_refused hr ?_
  rw [Generator.plan, C45_errors.2 (broken_in hs h hm)]
  rfl

theorem place_here {n s} : (es : List Tree) → .file n s ∈ place n s es
  | [] => by simp [place]
  | .file m c :: es => by
    rw [place]; split
    · simp
    · split
      · simp
      · exact List.mem_cons_of_mem _ (place_here es)
  | .dir m c :: es => by
    rw [place]; split
    · simp
    · exact List.mem_cons_of_mem _ (place_here es)

/-- **C57, blocked.** Every run can be killed at a moment after which no run does anything any
more, for any source file of the module: when the output file has just been created, it is
empty. -/
theorem C57_blocked {G : Generator} {dir src base es text sub} (hp : G.plan es dir src = some text)
    (hd : IsDir es dir sub) (hc : G.clause [] = none) :
    ∃ es1, Runs G dir src (base ++ str ".go") es .killed es1 ∧
      ∀ dir' src' out' e es2, Runs G dir' src' out' es1 e es2 → e = .refused ∧ es2 = es1 := by
  refine ⟨putAll dir ((printSteps G.fmt (base ++ str ".go") text G.utils).take 1) es,
    .prints hp (.killed 1), fun dir' src' out' e es2 h => ?_⟩
  have h1 : (printSteps G.fmt (base ++ str ".go") text G.utils).take 1 = [(base ++ str ".go", [])] := by
    rw [printSteps, writeSteps, puts, List.range_succ_eq_map]; rfl
  rw [h1, putAll_cons, putAll_nil] at h ⊢
  exact C57_stuck (isDir_inDir hd) (place_here sub) hc h

namespace Examples

/-- the line `package …`, after comment lines -/
def clauseOf (s : Str) : Option Str :=
  let rest := if (str "//").isPrefixOf s then (s.dropWhile (· ≠ '\n')).drop 1 else s
  if (str "package ").isPrefixOf rest ∧ '\n' ∈ rest then some ((rest.drop 8).takeWhile (· ≠ '\n')) else none

/-- A generator that copies the source and the files of the directory `lib`. -/
def copier : Generator where
  clause := clauseOf
  fmt s := if (clauseOf s).isSome then some (s ++ ['\n']) else none
  gen _ f s := some (str "// gen\n" ++ s ++ ((f [str "lib"]).getD []).flatMap (·.2))
  utils := str "package data\n//"

def onDisk : List Tree :=
  [.dir (str "data") [.file (str "data.go") (str "package data\nT"), .file (str "z.go") (str "package z\n")],
   .file (str "go.mod") [], .dir (str "lib") [.file (str "l.go") (str "package lib\n")]]

def dataDir : DirPath := [str "data"]
def dataGo : Str := str "data.go"
def dataJson : Str := str "data_json.go"

theorem onDisk_settled : Settled copier dataDir dataGo dataJson (str "data") onDisk where
  go := ⟨str "data", rfl⟩
  before := by decide +kernel
  ready := by
    intro sub h
    have : sub = [.file (str "data.go") (str "package data\nT"), .file (str "z.go") (str "package z\n")] := by
      cases h with
      | deeper hm h =>
        simp only [onDisk, List.mem_cons, Tree.dir.injEq, reduceCtorEq, false_or, List.not_mem_nil, or_false] at hm
        rcases hm with ⟨-, rfl⟩ | ⟨h', -⟩
        · cases h; rfl
        · exact absurd h' (by decide +kernel)
    subst this
    refine ⟨by simp only [List.pairwise_cons]; decide +kernel, ⟨_, List.mem_cons_self .., by decide +kernel⟩, ?_⟩
    intro n s hn hm
    simp only [List.mem_cons, Tree.file.injEq, List.not_mem_nil, or_false] at hm
    rcases hm with ⟨rfl, -⟩ | ⟨rfl, -⟩ <;> exact absurd hn (by decide +kernel)
  elsewhere := by
    intro pk f g s h
    simp only [copier, h [str "lib"] (by decide +kernel)]

def written : Str := str "// gen\npackage data\nTpackage lib\n"

theorem onDisk_plan : copier.plan onDisk dataDir dataGo = some written := by decide +kernel

def dirOf : List Tree := [.file (str "data.go") (str "package data\nT"), .file (str "z.go") (str "package z\n")]

theorem isDir_data : IsDir onDisk dataDir dirOf := .deeper (List.mem_cons_self ..) .here

/-- The undisturbed run: the new files are listed in order. -/
theorem C57_undisturbed : ∃ es, Completes copier dataDir dataGo dataJson onDisk es ∧
    dirFiles es dataDir = some [(str "data.go", str "package data\nT"),
      (str "data_json.go", str "// gen\npackage data\nTpackage lib\n\n"),
      (str "valyjson_utils.go", str "package data\n//"), (str "z.go", str "package z\n")] :=
  ⟨_, ⟨_, onDisk_plan, rfl⟩, by decide +kernel⟩

/-- Killed while the output file is being written, after its package clause: the next run gives
what the undisturbed run gives. -/
theorem C57_repeated : ∃ es1, Runs copier dataDir dataGo dataJson onDisk .killed es1 ∧
    readFile es1 dataDir dataJson = some (str "// gen\npackage data\nT") ∧
    ∃ es2 es3, Completes copier dataDir dataGo dataJson es1 es2 ∧
      Completes copier dataDir dataGo dataJson onDisk es3 ∧ SameFiles es2 es3 := by
  refine ⟨_, .prints onDisk_plan (.killed 22), by decide +kernel, ?_⟩
  have h3 : Completes copier dataDir dataGo dataJson onDisk _ := ⟨_, onDisk_plan, rfl⟩
  have h := C57_repeat_partial onDisk_settled (by decide +kernel) (.prints onDisk_plan (.killed 22)) ?_ h3
  · obtain ⟨es2, h1, h2⟩ := h
    exact ⟨es2, _, h1, h3, h2⟩
  · have hw : putAll dataDir ((printSteps copier.fmt dataJson written copier.utils).take 22) onDisk =
        [.dir (str "data") [.file (str "data.go") (str "package data\nT"),
          .file dataJson (str "// gen\npackage data\nT"), .file (str "z.go") (str "package z\n")],
        .file (str "go.mod") [], .dir (str "lib") [.file (str "l.go") (str "package lib\n")]] := by rfl
    rw [hw]
    intro sub n s h hn hm
    cases h with
    | deeper hm' h =>
      simp only [List.mem_cons, Tree.dir.injEq, reduceCtorEq, false_or, List.not_mem_nil, or_false] at hm'
      rcases hm' with ⟨-, rfl⟩ | ⟨h', -⟩
      · cases h
        simp only [List.mem_cons, Tree.file.injEq, List.not_mem_nil, or_false] at hm
        rcases hm with ⟨rfl, -⟩ | ⟨-, rfl⟩ | ⟨rfl, -⟩
        · exact absurd hn (by decide +kernel)
        · decide +kernel
        · exact absurd hn (by decide +kernel)
      · exact absurd h' (by decide +kernel)

/-- Killed earlier, nothing works any more, also for the source file of another package. -/
theorem C57_blocked_module : ∃ es1, Runs copier dataDir dataGo dataJson onDisk .killed es1 ∧
    ∀ dir' src' out' e es2, Runs copier dir' src' out' es1 e es2 → e = .refused ∧ es2 = es1 :=
  C57_blocked (base := str "data_json") onDisk_plan isDir_data (by decide +kernel)

/-- … until the files are removed by hand. -/
theorem C57_recovered {es1} (h : Runs copier dataDir dataGo dataJson onDisk .killed es1) :
    ∃ es2 es3, Completes copier dataDir dataGo dataJson (inDir (cleared dataJson) dataDir es1) es2 ∧
      Completes copier dataDir dataGo dataJson onDisk es3 ∧ SameFiles es2 es3 := by
  have h3 : Completes copier dataDir dataGo dataJson onDisk _ := ⟨_, onDisk_plan, rfl⟩
  obtain ⟨es2, h1, h2⟩ := C57_recover onDisk_settled (by decide +kernel) h h3
  exact ⟨es2, _, h1, h3, h2⟩

/-- The full property fails: a run that ends normally leaves an empty output file, when the disk is
full once the text has to be written again. -/
theorem C57_truncated : ∃ es1, Runs copier dataDir dataGo dataJson onDisk .finished es1 ∧
    readFile es1 dataDir dataJson = some [] :=
  ⟨_, .prints onDisk_plan (.dropped 1), by decide +kernel⟩

end Examples

end VJ
