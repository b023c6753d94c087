import Verif.Spec.Walks
import Verif.Proof.Front
import Verif.Props.Lookup
import Verif.Props.Link

/-!
# C80: the order in which maps are walked
-/

namespace VJ

/-! ## Orders -/

theorem otherOrder_left {ps ps' : ParsedDir} (h : OtherOrder ps ps') {p : Str × AstPackage} (hp : p ∈ ps) :
    ∃ q ∈ ps', p.1 = q.1 ∧ p.2.Perm q.2 := by
  obtain ⟨qs, h1, h2⟩ := h
  have hp' := h1.mem_iff.1 hp
  clear h1 hp
  induction h2 with
  | nil => cases hp'
  | cons hr _ ih =>
    rcases List.mem_cons.1 hp' with rfl | hp'
    · exact ⟨_, by simp, hr⟩
    · obtain ⟨q, hq, h⟩ := ih hp'
      exact ⟨q, List.mem_cons_of_mem _ hq, h⟩

theorem otherOrder_right {ps ps' : ParsedDir} (h : OtherOrder ps ps') {q : Str × AstPackage} (hq : q ∈ ps') :
    ∃ p ∈ ps, p.1 = q.1 ∧ p.2.Perm q.2 := by
  obtain ⟨qs, h1, h2⟩ := h
  have : ∃ p ∈ qs, p.1 = q.1 ∧ p.2.Perm q.2 := by
    clear h1
    induction h2 with
    | nil => cases hq
    | cons hr _ ih =>
      rcases List.mem_cons.1 hq with rfl | hq
      · exact ⟨_, by simp, hr⟩
      · obtain ⟨p, hp, h⟩ := ih hq
        exact ⟨p, List.mem_cons_of_mem _ hp, h⟩
  obtain ⟨p, hp, h⟩ := this
  exact ⟨p, h1.mem_iff.2 hp, h⟩

theorem otherOrder_keys {ps ps' : ParsedDir} (h : OtherOrder ps ps') : (ps.map Prod.fst).Perm (ps'.map Prod.fst) := by
  obtain ⟨qs, h1, h2⟩ := h
  have : qs.map Prod.fst = ps'.map Prod.fst := by
    clear h1
    induction h2 with
    | nil => rfl
    | cons hr _ ih => rw [List.map_cons, List.map_cons, ih, hr.1]
  exact this ▸ h1.map _

theorem otherOrder_topType {ps ps' : ParsedDir} (h : OtherOrder ps ps') (s : TypeSpec) : TopType ps s ↔ TopType ps' s := by
  constructor
  · rintro ⟨name, p, g, d, hp, ht, hg, h1⟩
    obtain ⟨⟨n, q⟩, hq, rfl, hpq⟩ := otherOrder_left h hp
    exact ⟨_, q, g, d, hq, ht, hpq.mem_iff.1 hg, h1⟩
  · rintro ⟨name, p, g, d, hp, ht, hg, h1⟩
    obtain ⟨⟨n, q⟩, hq, rfl, hpq⟩ := otherOrder_right h hp
    exact ⟨_, q, g, d, hq, ht, hpq.mem_iff.2 hg, h1⟩

theorem types_perm {p q : AstPackage} (h : p.Perm q) : p.types.Perm q.types := h.filterMap _

theorem distinctTypes_perm {f f' : List TypeDecl} (h : f.Perm f') : DistinctTypes f ↔ DistinctTypes f' :=
  (h.flatMap_right _).nodup_iff

theorem otherOrder_once {ps ps' : ParsedDir} (h : OtherOrder ps ps') (ho : NamesOnce ps) : NamesOnce ps' where
  packages := (otherOrder_keys h).nodup_iff.1 ho.packages
  types q hq := by
    obtain ⟨p, hp, _, hpq⟩ := otherOrder_right h hq
    exact (distinctTypes_perm (types_perm hpq)).1 (ho.types p hp)
  apart s s' hs hs' hn := ho.apart s s' ((otherOrder_topType h s).2 hs) ((otherOrder_topType h s').2 hs') hn

/-! ## The directory -/

theorem lookupNames_order {ps ps' : ParsedDir} (h : OtherOrder ps ps') (hints : List Str) : lookupNames ps hints = lookupNames ps' hints := by
  have key : ∀ {g g' : AstPackage}, g.Perm g' → ∀ x, g.any (·.hasName x) = g'.any (·.hasName x) := fun hg x => by
    rw [Bool.eq_iff_iff, List.any_eq_true, List.any_eq_true]
    simp only [hg.mem_iff]
  rw [Bool.eq_iff_iff, lookupNames, lookupNames, List.any_eq_true, List.any_eq_true]
  constructor
  · rintro ⟨p, hp, hx⟩
    obtain ⟨q, hq, hn, hpq⟩ := otherOrder_left h hp
    refine ⟨q, hq, ?_⟩
    simpa only [← hn, ← key hpq] using hx
  · rintro ⟨q, hq, hx⟩
    obtain ⟨p, hp, hn, hpq⟩ := otherOrder_right h hq
    refine ⟨p, hp, ?_⟩
    simpa only [hn, key hpq] using hx

/-- both searches fail, or end in the same directory -/
inductive SameFind : Option (DirPath × ParsedDir) → Option (DirPath × ParsedDir) → Prop
  | none : SameFind none none
  | found {d : DirPath} {ps ps' : ParsedDir} (h : OtherOrder ps ps') : SameFind (some (d, ps)) (some (d, ps'))

theorem searchDirs_order {parse parse' : DirPath → Option ParsedDir} (h : ∀ d, SameRead (parse d) (parse' d)) (single : Bool) (hints : List Str) :
    ∀ ds, SameFind (searchDirs parse single hints ds) (searchDirs parse' single hints ds)
  | [] => .none
  | d :: ds => by
    rw [searchDirs, searchDirs]
    have hd := h d
    cases hp : parse d with
    | none =>
      rw [hp] at hd
      cases hp' : parse' d with
      | none => exact .none
      | some _ => rw [hp'] at hd; cases hd
    | some ps =>
      rw [hp] at hd
      cases hp' : parse' d with
      | none => rw [hp'] at hd; cases hd
      | some ps' =>
        rw [hp'] at hd
        cases hd with
        | read ho =>
          simp only [lookupNames_order ho]
          split
          · exact .found ho
          · exact searchDirs_order h single hints ds

/-- **C80.** The directory of a package does not depend on the order of walks, whatever is declared in it. -/
theorem C80_directory {parse parse' : DirPath → Option ParsedDir} (h : ∀ d, SameRead (parse d) (parse' d)) (pk : PackageDirs) (name : Str)
    (hints : List Str) : getPackagePath pk parse name hints = getPackagePath pk parse' name hints := by
  have := searchDirs_order h ((pk name).length == 1) hints (pk name)
  unfold getPackagePath findPackage
  cases hr : searchDirs parse ((pk name).length == 1) hints (pk name) with
  | none =>
    rw [hr] at this
    generalize searchDirs parse' _ _ _ = r at this
    cases this
    rfl
  | some _ =>
    rw [hr] at this
    generalize searchDirs parse' _ _ _ = r at this
    cases this
    rfl

/-! ## The types of fields -/

theorem findType_top {ps : ParsedDir} {name : Str} {s : TypeSpec} (h : findType ps name = some s) : TopType ps s ∧ s.name = name := by
  obtain ⟨⟨n, p⟩, hp, h⟩ := List.exists_of_findSome?_eq_some h
  simp only at h
  split at h
  · cases h
  · rename_i ht
    obtain ⟨g, hg, h⟩ := List.exists_of_findSome?_eq_some h
    split at h
    · cases h
    · rename_i hf
      split at h
      · rename_i d hd
        refine ⟨⟨n, p, g, d, hp, fun hs => ht (isTestName_iff.2 hs), hg, by simpa using hf, hd, List.mem_of_find?_eq_some h⟩, ?_⟩
        have := List.find?_some h
        simpa using this
      · cases h

theorem findType_top_none {ps : ParsedDir} {name : Str} (h : findType ps name = none) {s : TypeSpec} (ht : TopType ps s) : s.name ≠ name := by
  obtain ⟨n, p, g, d, hp, htest, hg, hf, hd, hs⟩ := ht
  have h1 := List.findSome?_eq_none_iff.1 h _ hp
  rw [if_neg (by rw [isTestName_iff]; exact htest)] at h1
  have h2 := List.findSome?_eq_none_iff.1 h1 _ hg
  rw [hf] at h2
  simp only [Bool.false_eq_true, if_false, hd] at h2
  have := List.find?_eq_none.1 h2 s hs
  simpa using this

theorem findType_order {ps ps' : ParsedDir} (h : OtherOrder ps ps') (ho : NamesOnce ps) (name : Str) : findType ps name = findType ps' name := by
  cases h1 : findType ps name with
  | none =>
    cases h2 : findType ps' name with
    | none => rfl
    | some s =>
      obtain ⟨ht, hn⟩ := findType_top h2
      exact absurd hn (findType_top_none h1 ((otherOrder_topType h s).2 ht))
  | some s =>
    obtain ⟨ht, hn⟩ := findType_top h1
    cases h2 : findType ps' name with
    | none => exact absurd hn (findType_top_none h2 ((otherOrder_topType h s).1 ht))
    | some s' =>
      obtain ⟨ht', hn'⟩ := findType_top h2
      rw [ho.apart s s' ht ((otherOrder_topType h s').2 ht') (hn.trans hn'.symm)]

theorem resolveExternal_order {parse parse' : Str → Option ParsedDir} (h : ∀ d, SameRead (parse d) (parse' d)) (ho : AllOnce parse)
    (module modPath : Str) (imports : List ImportSpec) (p n : Str) :
    resolveExternal module modPath parse imports p n = resolveExternal module modPath parse' imports p n := by
  unfold resolveExternal
  congr 1
  funext path
  unfold exploreType
  generalize packagePathFromPath module modPath path = d
  have hd := h d
  cases hp : parse d with
  | none =>
    rw [hp] at hd
    cases hp' : parse' d with
    | none => rfl
    | some _ => rw [hp'] at hd; cases hd
  | some ps =>
    rw [hp] at hd
    cases hp' : parse' d with
    | none => rw [hp'] at hd; cases hd
    | some ps' =>
      rw [hp'] at hd
      cases hd with
      | read hr => exact findType_order hr (ho d ps hp) n

/-! ## Inlining -/

/-- two visitors find the same types -/
def SameFinds (v v' : Visitor) : Prop := v.over = v'.over ∧ ∀ n, (v.getDecl n).map TaggedDecl.spec = (v'.getDecl n).map TaggedDecl.spec

theorem sameFinds_perm {f f' : List TypeDecl} (h : f.Perm f') (hd : DistinctTypes f) (over : Option Str) :
    SameFinds ⟨over, visit f⟩ ⟨over, visit f'⟩ := by
  have hd' := (distinctTypes_perm h).1 hd
  refine ⟨rfl, fun n => ?_⟩
  cases h1 : (⟨over, visit f⟩ : Visitor).getDecl n with
  | none =>
    cases h2 : (⟨over, visit f'⟩ : Visitor).getDecl n with
    | none => rfl
    | some d =>
      obtain ⟨doc, ⟨t, ht, h3, h4⟩, rfl, _⟩ := getDecl_inv hd' h2
      rw [getDecl_declared hd ⟨t, h.mem_iff.2 ht, h3, h4⟩] at h1
      cases h1
  | some d =>
    obtain ⟨doc, ⟨t, ht, h3, h4⟩, rfl, _⟩ := getDecl_inv hd h1
    rw [getDecl_declared hd' ⟨t, h.mem_iff.1 ht, h3, h4⟩]
    rfl

/-- two ways to find packages give the same types -/
inductive SamePkg : Option (List TypeDecl) → Option (List TypeDecl) → Prop
  | none : SamePkg none none
  | some {f f' : List TypeDecl} (h : f.Perm f') (hd : DistinctTypes f) : SamePkg (some f) (some f')

theorem inlineDecl_order {collect collect' : Visitor → List SrcField → Out (List SrcField)} {v v' : Visitor} (hv : SameFinds v v')
    (hc : ∀ fs, collect v fs = collect' v' fs) (n : Str) : inlineDecl collect v n = inlineDecl collect' v' n := by
  have hn := hv.2 n
  unfold inlineDecl
  cases h1 : v.getDecl n with
  | none =>
    rw [h1] at hn
    cases h2 : v'.getDecl n with
    | none => rfl
    | some _ => rw [h2] at hn; cases hn
  | some d =>
    rw [h1] at hn
    cases h2 : v'.getDecl n with
    | none => rw [h2] at hn; cases hn
    | some d' =>
      rw [h2] at hn
      simp only [Option.map_some, Option.some.injEq] at hn
      simp only [hn, hc]

theorem collectFields_order {pkgs pkgs' : GetPackage} (h : ∀ p n, SamePkg (pkgs p n) (pkgs' p n)) : ∀ (k : Nat) {v v' : Visitor}, SameFinds v v' →
    ∀ fs, collectFields pkgs k v fs = collectFields pkgs' k v' fs
  | 0, _, _, _, _ => rfl
  | k + 1, v, v', hv, fs => by
    have ih : ∀ {v v' : Visitor}, SameFinds v v' → ∀ fs, collectFields pkgs k v fs = collectFields pkgs' k v' fs :=
      fun hv fs => collectFields_order h k hv fs
    have hx : ∀ f, exploreInlined pkgs (collectFields pkgs k) v f = exploreInlined pkgs' (collectFields pkgs' k) v' f := by
      intro f
      unfold exploreInlined
      split
      · exact inlineDecl_order hv (ih hv) _
      · rename_i p n _
        split
        · have hp := h p n
          generalize pkgs p n = a at hp
          generalize pkgs' p n = b at hp
          cases hp with
          | none => rfl
          | some hperm hd =>
            have := sameFinds_perm hperm hd (some p)
            exact inlineDecl_order this (ih this) n
        · rfl
        · rfl
      · rfl
    have h1 : ∀ f, collectField pkgs (collectFields pkgs k) v f = collectField pkgs' (collectFields pkgs' k) v' f := by
      intro f
      unfold collectField
      rw [hv.1]
      simp only [hx]
    show collectEach _ fs = collectEach _ fs
    rw [funext h1]

theorem sameFinds_refl (v : Visitor) : SameFinds v v := ⟨rfl, fun _ => rfl⟩

theorem processDecl_order {pkgs pkgs' : GetPackage} (h : ∀ p n, SamePkg (pkgs p n) (pkgs' p n)) (v : Visitor) : ∀ (k : Nat) (d : TaggedDecl)
    (res : List Renderer), processDecl pkgs k v d res = processDecl pkgs' k v d res
  | 0, _, _ => rfl
  | k + 1, ⟨spec, tags⟩, res => by
    have ih : processDecl pkgs k v = processDecl pkgs' k v := funext fun d => funext fun res => processDecl_order h v k d res
    rw [processDecl, processDecl, ih]
    simp only [collectFields_order h k (sameFinds_refl v)]

/-- what the generator decides to generate -/
theorem getNormalized_order {pkgs pkgs' : GetPackage} (h : ∀ p n, SamePkg (pkgs p n) (pkgs' p n)) (k : Nat) (file : List TypeDecl) :
    getNormalized pkgs k file = getNormalized pkgs' k file := by
  unfold getNormalized
  generalize visit file = ds
  generalize (⟨none, ds⟩ : Visitor) = v
  generalize ([] : List Renderer) = res
  induction ds generalizing res with
  | nil => rfl
  | cons d ds ih => simp only [normalize, processDecl_order h, ih]

theorem lookup_order {ps ps' : ParsedDir} (h : OtherOrder ps ps') (ho : NamesOnce ps) (name : Str) :
    SamePkg ((ps.lookup name).map AstPackage.types) ((ps'.lookup name).map AstPackage.types) := by
  have ho' := otherOrder_once h ho
  have mem : ∀ {ps : ParsedDir} {a}, ps.lookup name = some a → (name, a) ∈ ps := by
    intro ps a h
    induction ps with
    | nil => cases h
    | cons p ps ih =>
      rw [List.lookup_cons] at h
      split at h
      · rename_i he
        cases h
        have : name = p.1 := by simpa using he
        rw [this]
        exact List.mem_cons_self
      · exact List.mem_cons_of_mem _ (ih h)
  have find : ∀ {ps : ParsedDir} {a}, (ps.map Prod.fst).Nodup → (name, a) ∈ ps → ps.lookup name = some a := by
    intro ps a hn hm
    induction ps with
    | nil => cases hm
    | cons p ps ih =>
      simp only [List.map_cons, List.nodup_cons, List.mem_map, not_exists, not_and] at hn
      rw [List.lookup_cons]
      rcases List.mem_cons.1 hm with rfl | hm
      · simp
      · have : name ≠ p.1 := fun e => hn.1 _ hm e
        have hb : (name == p.1) = false := by simpa using this
        rw [hb]
        exact ih hn.2 hm
  cases h1 : ps.lookup name with
  | none =>
    cases h2 : ps'.lookup name with
    | none => exact .none
    | some b =>
      obtain ⟨⟨n, a⟩, ha, rfl, _⟩ := otherOrder_right h (mem h2)
      rw [find ho.packages ha] at h1
      cases h1
  | some a =>
    obtain ⟨⟨n, b⟩, hb, hn, hab⟩ := otherOrder_left h (mem h1)
    simp only at hn hab
    subst hn
    rw [find ho'.packages hb]
    exact .some (types_perm hab) (ho.types _ (mem h1))

theorem packagesOf_order {parse parse' : DirPath → Option ParsedDir} (h : ∀ d, SameRead (parse d) (parse' d)) (ho : AllOnce parse)
    (pk : PackageDirs) (p n : Str) : SamePkg (packagesOf pk parse p n) (packagesOf pk parse' p n) := by
  have := searchDirs_order h ((pk p).length == 1) [n] (pk p)
  have hs := fun d ps => searchDirs_some (parse := parse) (single := (pk p).length == 1) (x := n) (d := d) (ps := ps) (ds := pk p)
  unfold packagesOf getPackage findPackage
  generalize searchDirs parse _ _ _ = r at this hs
  generalize searchDirs parse' _ _ _ = r' at this
  cases this with
  | none => exact .none
  | @found d ps ps' hr => exact lookup_order hr (ho d ps (hs d ps rfl).2.1) p

/-! ## C80 -/

section
variable {pk : PackageDirs} {dirs dirs' : DirPath → Option ParsedDir} {parse parse' : Str → Option ParsedDir}

/-- **C80.** Nothing that is generated depends on the order in which packages and files are walked, as long as nothing is declared twice
in a directory of the module: the file is refused for both orders, or the types have the same methods. -/
theorem C80_methods_partial (hd : ∀ d, SameRead (dirs d) (dirs' d)) (hp : ∀ d, SameRead (parse d) (parse' d)) (ho : AllOnce dirs) (ho' : AllOnce parse)
    (module modPath : Str) (imports : List ImportSpec) (k : Nat) (file : List TypeDecl) (ext : Nat → Methods) :
    link (projectOf module modPath pk dirs parse imports) k file ext = link (projectOf module modPath pk dirs' parse' imports) k file ext := by
  have h1 : (projectOf module modPath pk dirs parse imports).seen = (projectOf module modPath pk dirs' parse' imports).seen := by
    funext p n
    exact congrArg seenAs (resolveExternal_order hp ho' module modPath imports p n)
  have h2 := getNormalized_order (packagesOf_order hd ho pk) k file
  unfold link
  rw [show getNormalized (projectOf module modPath pk dirs parse imports).pkgs k file =
    getNormalized (projectOf module modPath pk dirs' parse' imports).pkgs k file from h2]
  have h3 : ∀ rs ss, declTable (projectOf module modPath pk dirs parse imports) rs file ss = declTable (projectOf module modPath pk dirs' parse' imports) rs file ss := by
    intro rs ss
    induction ss with
    | nil => rfl
    | cons s ss ih => simp only [declTable, h1, ih]
  simp only [h3]

/-- **C80.** The decoders and the encoders are generated in two passes, and each reads the directories anew.  Both see the same types. -/
theorem C80_passes_partial (hd : ∀ d, SameRead (dirs d) (dirs' d)) (ho : AllOnce dirs) (k : Nat) (file : List TypeDecl) :
    getNormalized (packagesOf pk dirs) k file = getNormalized (packagesOf pk dirs') k file :=
  getNormalized_order (packagesOf_order hd ho pk) k file

end

/-! ## Examples -/

namespace WalkSample
open Sample
attribute [local instance] Sample.ext

/-- type Base struct { Id uint16 `json:"<name>"` } -/
def base (name : String) : GenDecl :=
  ⟨false, .types ⟨none, [⟨str "Base", .struct [⟨[str "Id"], .ident (str "uint16"), some (str ("`json:\"" ++ name ++ "\"`"))⟩], none⟩]⟩⟩

/-- type Note struct { Text string `json:"text"` } -/
def note : GenDecl :=
  ⟨false, .types ⟨none, [⟨str "Note", .struct [⟨[str "Text"], .ident (str "string"), some (str "`json:\"text\"`")⟩], none⟩]⟩⟩

def pk : PackageDirs := fun n => if n = str "b" then [[str "b"]] else []

/-- the file: // json:all, type Order struct { b.Base `json:",inline"` } -/
def file : List TypeDecl :=
  [⟨some [str "// json:strict"], [⟨str "Order", .struct [⟨[], .sel (str "b") (str "Base"), some (str "`json:\",inline\"`")⟩], none⟩]⟩]

/-- the directory b, with a package and its tests -/
def once (d : DirPath) : Option ParsedDir :=
  if d = [str "b"] then some [(str "b", [base "id", note]), (str "b_test", [base "other"])] else none

/-- walked the other way round -/
def once' (d : DirPath) : Option ParsedDir :=
  if d = [str "b"] then some [(str "b_test", [base "other"]), (str "b", [note, base "id"])] else none

theorem once_same (d : DirPath) : SameRead (once d) (once' d) := by
  unfold once once'
  split
  · exact .read ⟨[(str "b_test", [base "other"]), (str "b", [base "id", note])], List.Perm.swap _ _ _,
      .cons ⟨rfl, .refl _⟩ (.cons ⟨rfl, List.Perm.swap _ _ _⟩ .nil)⟩
  · exact .failed

theorem once_once : AllOnce once := by
  intro d ps h
  unfold once at h
  split at h
  · cases h
    refine ⟨by decide +kernel, ?_, ?_⟩
    · have : ∀ p ∈ [(str "b", [base "id", note]), (str "b_test", [base "other"])], ((AstPackage.types p.2).flatMap fun d => d.specs.map TypeSpec.name).Nodup := by
        decide +kernel
      exact this
    · have key : ∀ {s}, TopType [(str "b", [base "id", note]), (str "b_test", [base "other"])] s → ∃ g ∈ [base "id", note], ∃ d, g.specs = .types d ∧ s ∈ d.specs := by
        rintro s ⟨name, p, g, d, hp, ht, hg, _, hd, hs⟩
        simp only [List.mem_cons, List.not_mem_nil, or_false, Prod.mk.injEq] at hp
        rcases hp with ⟨rfl, rfl⟩ | ⟨rfl, rfl⟩
        · exact ⟨g, hg, d, hd, hs⟩
        · exact absurd (by decide +kernel) ht
      intro s s' h1 h2 hn
      obtain ⟨g, hg, d, hd, hs⟩ := key h1
      obtain ⟨g', hg', d', hd', hs'⟩ := key h2
      simp only [List.mem_cons, List.not_mem_nil, or_false] at hg hg'
      rcases hg with rfl | rfl <;> rcases hg' with rfl | rfl <;> cases hd <;> cases hd' <;>
        simp only [List.mem_cons, List.not_mem_nil, or_false] at hs hs' <;> subst hs <;> subst hs'
      · rfl
      · exact absurd hn (by decide +kernel)
      · exact absurd hn (by decide +kernel)
      · rfl
  · cases h

/-- C80 applies, and the file is not refused -/
example : getNormalized (packagesOf pk once') 5 file =
    .ok [⟨str "Order", [str "strict"], .struct [⟨[str "Id"], .ident (str "uint16"), some (str "`json:\"id\"`")⟩]⟩] := by
  rw [← C80_passes_partial once_same once_once 5 file]
  decide +kernel

/-! The package b declares `Base` twice, in files for different systems: the parser reads both. -/

def twice (d : DirPath) : Option ParsedDir := if d = [str "b"] then some [(str "b", [base "id", base "key"])] else none

def twice' (d : DirPath) : Option ParsedDir := if d = [str "b"] then some [(str "b", [base "key", base "id"])] else none

theorem twice_same (d : DirPath) : SameRead (twice d) (twice' d) := by
  unfold twice twice'
  split
  · exact .read ⟨_, .refl _, .cons ⟨rfl, List.Perm.swap _ _ _⟩ .nil⟩
  · exact .failed

def env (name : String) (ext : Nat → Methods) : Env :=
  ⟨fun n => [(identId (str "Order"), Decl.struct true [⟨.prim .uint16, { jsonName := str name }⟩])].lookup n, ext⟩

def project (dirs : DirPath → Option ParsedDir) : Project := projectOf (str "ex.org/m") (str "/w/m") pk dirs (fun _ => none) []

theorem twice_link (ext : Nat → Methods) : link (project twice) 5 file ext = .ok (env "id" ext) := by
  have h1 : getNormalized (project twice).pkgs 5 file =
    .ok [⟨str "Order", [str "strict"], .struct [⟨[str "Id"], .ident (str "uint16"), some (str "`json:\"id\"`")⟩]⟩] := by decide +kernel
  rw [link, h1, Out.ok_bind]
  have h2 : declTable (project twice) [⟨str "Order", [str "strict"], .struct [⟨[str "Id"], .ident (str "uint16"), some (str "`json:\"id\"`")⟩]⟩]
    file (fileSpecs file) = .ok [(identId (str "Order"), Decl.struct true [⟨.prim .uint16, { jsonName := str "id" }⟩])] := by decide +kernel
  rw [h2]
  rfl

theorem twice_link' (ext : Nat → Methods) : link (project twice') 5 file ext = .ok (env "key" ext) := by
  have h1 : getNormalized (project twice').pkgs 5 file =
    .ok [⟨str "Order", [str "strict"], .struct [⟨[str "Id"], .ident (str "uint16"), some (str "`json:\"key\"`")⟩]⟩] := by decide +kernel
  rw [link, h1, Out.ok_bind]
  have h2 : declTable (project twice') [⟨str "Order", [str "strict"], .struct [⟨[str "Id"], .ident (str "uint16"), some (str "`json:\"key\"`")⟩]⟩]
    file (fileSpecs file) = .ok [(identId (str "Order"), Decl.struct true [⟨.prim .uint16, { jsonName := str "key" }⟩])] := by decide +kernel
  rw [h2]
  rfl

set_option maxRecDepth 20000 in
theorem reads_id : Fills (env "id" fun _ => .loop) (identId (str "Order")) (.obj [(str "id", .num (str "7"))]) (.struct [.int 0]) none (.struct [.int 7]) :=
  ⟨5, rfl⟩

set_option maxRecDepth 20000 in
theorem refuses_key : Fills (env "id" fun _ => .loop) (identId (str "Order")) (.obj [(str "key", .num (str "7"))]) (.struct [.int 0])
    (some ⟨none, .unexpected (str "key")⟩) (.struct [.int 0]) := ⟨5, rfl⟩

set_option maxRecDepth 20000 in
theorem writes_key : Marshals (env "key" fun _ => .loop) (identId (str "Order")) (some (.struct [.int 7])) (.ok (str "{\"key\":7}")) := ⟨5, rfl⟩

/-- **A type declared twice is read one way and written another.**  The same directory, walked in two orders for the two passes: the decoder
reads the member `id` and refuses `key`, the encoder writes `key`. -/
theorem C80_declared_twice : ∃ dec enc : Env, link (project twice) 5 file (fun _ => .loop) = .ok dec ∧
    link (project twice') 5 file (fun _ => .loop) = .ok enc ∧
    Fills dec (identId (str "Order")) (.obj [(str "id", .num (str "7"))]) (.struct [.int 0]) none (.struct [.int 7]) ∧
    (∃ e, Fills dec (identId (str "Order")) (.obj [(str "key", .num (str "7"))]) (.struct [.int 0]) (some e) (.struct [.int 0])) ∧
    Marshals enc (identId (str "Order")) (some (.struct [.int 7])) (.ok (str "{\"key\":7}")) :=
  ⟨env "id" fun _ => .loop, env "key" fun _ => .loop, twice_link _, twice_link' _, reads_id, ⟨_, refuses_key⟩, writes_key⟩

end WalkSample

end VJ
