import Verif.Proof.Inline
import Verif.Proof.StructIff
import Verif.Props.Encode
import Verif.Props.Sample

/-!
# C53: the generated methods are those of the source file
-/

namespace VJ

/-- **C53.** Types with different names are never confused, whether they are declared in the
file or belong to another package (whose name holds no dot). -/
theorem C53_names_distinct :
    (∀ a b, identId a = identId b → a = b) ∧ (∀ a p n, identId a ≠ selId p n) ∧
    (∀ p n p' n', '.' ∉ p → '.' ∉ p' → selId p n = selId p' n' → p = p' ∧ n = n') := by
  refine ⟨fun a b => identId_inj, ?_, ?_⟩
  · intro a p n h
    simp only [identId, selId] at h
    omega
  · intro p n p' n' hp hp' h
    replace h : p ++ '.' :: n = p' ++ '.' :: n' := nameCode_inj (by simp only [selId] at h; omega)
    induction p generalizing p' with
    | nil =>
      cases p' with
      | nil => simpa using h
      | cons c p' =>
        simp only [List.nil_append, List.cons_append, List.cons.injEq] at h
        exact absurd (by rw [h.1]; simp) hp'
    | cons c p ih =>
      cases p' with
      | nil =>
        simp only [List.nil_append, List.cons_append, List.cons.injEq] at h
        exact absurd (by rw [h.1]; simp) hp
      | cons c' p' =>
        simp only [List.cons_append, List.cons.injEq] at h
        obtain ⟨h1, h2⟩ := ih p' (fun hm => hp (List.mem_cons_of_mem _ hm))
          (fun hm => hp' (List.mem_cons_of_mem _ hm)) h.2
        exact ⟨by rw [h.1, h1], h2⟩

theorem hiddenName_predeclared {rs file} (n : Str) (p : Prim) (hp : Predeclared n p) (h : DeclaresName file n) : hiddenName rs file n = true := by
  obtain ⟨doc, s, ⟨d, hd, _, hs⟩, rfl⟩ := h
  rw [hiddenName, List.any_eq_true]
  refine ⟨s, List.mem_flatMap.2 ⟨d, hd, hs⟩, ?_⟩
  rw [primNamed_iff.2 hp]
  simp

theorem declOf_means {pr : Project} {hidden r file s d}
    (hh : ∀ n p, Predeclared n p → DeclaresName file n → hidden n = true) (hp : DistinctAll pr.pkgs)
    (hd : DistinctTypes file) (hf : Fits pr.pkgs ⟨none, visit file⟩ s r.tags r.kind)
    (h : declOf pr.seen hidden r s.typ = .ok d) : DeclMeans pr.pkgs file s.typ r.tags d := by
  unfold declOf at h
  unfold Fits at hf
  split at h
  · rename_i fields hk
    split at h
    · rename_i hn
      obtain ⟨fds, h1, h⟩ := Out.bind_eq_ok.1 h
      cases h
      split at hf
      · rename_i fs hs
        rcases hf with ⟨_, hf⟩ | ⟨_, k, fields', hc, hf⟩
        · rw [hk] at hf; cases hf
        · rw [hk] at hf
          cases hf
          rw [hs]
          exact .struct (collect_sound hp hd hc) (fieldDecls_sound hh h1) hn (by simp)
      · rw [hk] at hf; cases hf
      · rw [hk] at hf; split at hf <;> cases hf
      · rw [hk] at hf; cases hf
      · rw [hk] at hf; cases hf
      · exact hf.elim
    · cases h
  · rename_i v hk hs
    obtain ⟨t, h1, h⟩ := Out.bind_eq_ok.1 h
    cases h
    rw [hs]
    exact .alias .map (exprOf_sound hh h1)
  · rename_i len e hk hs
    obtain ⟨t, h1, h⟩ := Out.bind_eq_ok.1 h
    cases h
    rw [hs]
    exact .alias .array (arrayExpr_sound hh h1)
  · rename_i len e hk hs
    split at h
    · obtain ⟨t, h1, h⟩ := Out.bind_eq_ok.1 h
      cases h
      rw [hs]
      exact .alias .array (exprOf_sound hh h1)
    · cases h
  · rename_i n hk hs
    obtain ⟨t, h1, h⟩ := Out.bind_eq_ok.1 h
    cases h
    rw [hs]
    exact .alias .ident (exprOf_sound hh h1)
  · rename_i p n hk hs
    obtain ⟨t, h1, h⟩ := Out.bind_eq_ok.1 h
    cases h
    rw [hs]
    exact .alias .sel (exprOf_sound hh h1)
  · cases h

/-- **C53.** A type whose comment asks for all methods gets those of what is written in the
source: for a struct, its own fields and those of the structs inlined into it, in order, each
with the type and the tag it is written with; strict exactly when the comment says so. -/
theorem C53_tagged_partial {pr k file ext Γ doc s} (hp : DistinctAll pr.pkgs)
    (hd : DistinctTypes file) (hin : NoInnerTags file) (h : link pr k file ext = .ok Γ)
    (hs : Declares file doc s) (ht : AsksForAll (docTags doc)) :
    ∃ d, Γ.decl (identId s.name) = some d ∧ DeclMeans pr.pkgs file s.typ (docTags doc) d := by
  obtain ⟨rs, table, hrs, htab, rfl⟩ := link_inv h
  have he := declTable_entry htab (distinct_specs hd) (declares_mem hs)
  obtain ⟨r, hr, hname, htags, hfit⟩ := tagged_renderer hd hin hrs hs ht.1
  rw [Entry] at he
  split at he
  · rename_i r' hr'
    obtain ⟨h1, h2, _⟩ := fullRenderer_some hr'
    have hn : (rs.map Renderer.name).Nodup := (normalize_adds hrs).nodup (by simp)
    obtain rfl := renderer_unique hn h1 hr (h2.trans hname.symm)
    obtain ⟨d, hdecl, he⟩ := he
    exact ⟨d, he, htags ▸ declOf_means hiddenName_predeclared hp hd hfit hdecl⟩
  · rename_i hnone
    have := fullRenderer_none hnone hr hname
    rw [htags] at this
    rcases this with h | h | h
    · exact absurd h ht.2.1
    · exact absurd h ht.2.2.1
    · exact absurd h ht.2.2.2

/-- **C53.** A type without comment tags gets methods only as the element type of a slice with
tags (or of one that inherits tags), and those are again those of what is written in the
source.  Other names are known to the generated code only when they stand for a predeclared
type. -/
theorem C53_untagged_partial {pr k file ext Γ doc s} (hp : DistinctAll pr.pkgs)
    (hd : DistinctTypes file) (hin : NoInnerTags file) (h : link pr k file ext = .ok Γ)
    (hs : Declares file doc s) (ht : docTags doc = []) :
    (∃ tags d, Inherits file s tags ∧ AsksForAll tags ∧ Γ.decl (identId s.name) = some d ∧
      DeclMeans pr.pkgs file s.typ tags d) ∨
    (∃ n p, s.typ = .ident n ∧ Predeclared n p ∧ Γ.decl (identId s.name) = some (.alias (.prim p))) ∨
    Γ.decl (identId s.name) = none := by
  obtain ⟨rs, table, hrs, htab, rfl⟩ := link_inv h
  have he := declTable_entry htab (distinct_specs hd) (declares_mem hs)
  rw [Entry] at he
  split at he
  · rename_i r hr
    obtain ⟨h1, h2, h3, h4, h5⟩ := fullRenderer_some hr
    obtain ⟨d, hdecl, he⟩ := he
    obtain ⟨doc', t, h6, h7, h8, h9⟩ := renderer_origin hd hin hrs h1
    obtain ⟨rfl, hdoc⟩ := declared_unique hd h6 hs (h7.symm.trans h2)
    rcases h9 with ⟨h9, _⟩ | h9
    · exact absurd (hdoc.trans ht) h9
    · refine .inl ⟨r.tags, d, h9, ⟨?_, h3, h4, h5⟩, he, declOf_means hiddenName_predeclared hp hd h8 hdecl⟩
      obtain ⟨_, _, _, hne, heq, _⟩ := inherits_reached (over := none) hd h9
      rw [heq]
      exact hne
  · right
    cases hpn : plainName s with
    | none => exact .inr (he.trans (by rw [hpn]; rfl))
    | some p =>
      left
      unfold plainName at hpn
      split at hpn
      · rename_i n hn
        refine ⟨n, p, hn, primNamed_iff.1 hpn, ?_⟩
        simp only [he, plainName, hn, hpn, Option.map_some]
      · cases hpn

/-- **C53.** Nothing else is known to the generated code: all other types are called through
the methods they bring along. -/
theorem C53_nothing_else {pr k file ext Γ} (h : link pr k file ext = .ok Γ) {m d}
    (hm : Γ.decl m = some d) : (∃ doc s, Declares file doc s ∧ m = identId s.name) ∧ Γ.ext = ext := by
  obtain ⟨rs, table, hrs, htab, rfl⟩ := link_inv h
  refine ⟨?_, rfl⟩
  have hmem : (m, d) ∈ table := by
    clear htab h
    simp only at hm
    induction table with
    | nil => cases hm
    | cons p l ih =>
      obtain ⟨a, b⟩ := p
      rw [List.lookup_cons] at hm
      split at hm
      · rename_i heq
        cases hm
        rw [beq_iff_eq] at heq
        simp [heq]
      · exact List.mem_cons_of_mem _ (ih hm)
  obtain ⟨s, hs, rfl⟩ := declTable_keys htab hmem
  obtain ⟨td, htd, hs⟩ := List.mem_flatMap.1 hs
  exact ⟨td.doc, s, ⟨td, htd, rfl, hs⟩, rfl⟩

/-! ## C54: inlining -/

/-- **C54.** Inlining a struct and writing its fields out are the same, for any file and any
number of types in it: the generator accepts both or neither, declares the same methods, and
the methods work on the same types (`Γ`), so that they do the same on every input. -/
theorem C54_written_out {pr file file'} (hw : WrittenOut pr.pkgs file file') (hp : DistinctAll pr.pkgs)
    (hd : DistinctTypes file) :
    (∀ out, (∃ k, generate pr.pkgs k file = .ok out) ↔ ∃ k, generate pr.pkgs k file' = .ok out) ∧
    (∀ ext Γ, (∃ k, link pr k file ext = .ok Γ) ↔ ∃ k, link pr k file' ext = .ok Γ) := by
  have hs := written_sim hw hp hd
  have hd' := sim_distinct hs hd
  exact ⟨fun out => ⟨fun ⟨_, h⟩ => sim_generate hs hp hd h, fun ⟨_, h⟩ => sim_generate hs.symm hp hd' h⟩,
    fun ext Γ => ⟨fun ⟨_, h⟩ => sim_link hs hp hd h, fun ⟨_, h⟩ => sim_link hs.symm hp hd' h⟩⟩

/-- **C54.** The types the methods work on are determined by the file. -/
theorem C54_determined {pr k k' file ext Γ Γ'} (h : link pr k file ext = .ok Γ)
    (h' : link pr k' file ext = .ok Γ') : Γ = Γ' := by
  obtain ⟨rs, table, hrs, htab, rfl⟩ := link_inv h
  obtain ⟨rs', table', hrs', htab', rfl⟩ := link_inv h'
  have h1 := normalize_mono (Nat.le_max_left k k') hrs
  have h2 := normalize_mono (Nat.le_max_right k k') hrs'
  rw [h1] at h2
  cases h2
  rw [htab] at htab'
  cases htab'
  rfl

variable [Ext]

/-- **C53.** From the source text to the values: when a document is read into a struct of the
file, every member named in a tag is in the document at most once (with the comment tag
`strict` nothing else is), and every field, inlined ones included, holds what the type and the
tag written for it make of its member (`FieldResult`). -/
theorem C53_reads_partial {pr k file ext Γ doc s fields} (hp : DistinctAll pr.pkgs)
    (hd : DistinctTypes file) (hin : NoInnerTags file) (h : link pr k file ext = .ok Γ)
    (hs : Declares file doc s) (ht : AsksForAll (docTags doc)) (hst : s.typ = .struct fields) :
    ∃ flat names fds strict, Flat pr.pkgs none file fields flat ∧ FieldsMean file flat names fds ∧
      (strict = true ↔ str "strict" ∈ docTags doc) ∧
      (HasDecoder Γ (identId s.name) → ∀ v gs gs',
        (∀ fd ∈ fds, KeepsErrors Γ (pointee fd.typ)) → gs.length = fds.length →
        (Fills Γ (identId s.name) v (.struct gs) none (.struct gs') ↔
          Acceptable (jsonNames fds) strict v ∧ gs'.length = fds.length ∧
          ∀ (i : Nat) (fd : FieldDecl) (old new : GoVal), fds[i]? = some fd → gs[i]? = some old →
            gs'[i]? = some new → FieldResult Γ fd v old new)) := by
  obtain ⟨d, hdecl, hm⟩ := C53_tagged_partial hp hd hin h hs ht
  rw [hst] at hm
  cases hm with
  | @struct _ flat names fds _ strict hflat hfields hnames hstrict =>
    refine ⟨flat, names, fds, strict, hflat, hfields, hstrict, ?_⟩
    intro hdec v gs gs' hke hl
    constructor
    · intro hf
      obtain ⟨h1, _, h3, h4⟩ := (struct_iff hdecl hdec).1 hf hke
      exact ⟨h1, h3, h4⟩
    · rintro ⟨h1, h3, h4⟩
      exact (struct_iff hdecl hdec).2 h1 hl h3 h4
  | «alias» ha => cases ha

/-- **C53.** And back: the object written for a struct of the file has the members of the
fields written in the source, inlined ones included, in their order, each under the name in
its tag. -/
theorem C53_writes_partial {pr k file ext Γ doc s fields} (hp : DistinctAll pr.pkgs)
    (hd : DistinctTypes file) (hin : NoInnerTags file) (h : link pr k file ext = .ok Γ)
    (hs : Declares file doc s) (ht : AsksForAll (docTags doc)) (hst : s.typ = .struct fields)
    {F S X} (hP : EncPackage Γ F S) (hn : S (identId s.name)) :
    ∃ flat names fds, Flat pr.pkgs none file fields flat ∧ FieldsMean file flat names fds ∧
      ∀ gs text, HasType Γ X (.named (identId s.name)) (.struct gs) →
        Fine Γ F (.named (identId s.name)) (.struct gs) →
        Marshals Γ (identId s.name) (some (.struct gs)) (.ok text) →
        ∃ ms : List (List (Str × JV)), Json (.obj ms.flatten) text ∧ ms.length = fds.length ∧
          ∀ (i : Nat) (fd : FieldDecl) (g : GoVal) (m : List (Str × JV)), fds[i]? = some fd →
            gs[i]? = some g → ms[i]? = some m → Enc Γ F (.field fd) g (.obj m) ∧
            ((Omitted Γ fd g ∧ m = []) ∨
             (¬ Omitted Γ fd g ∧ ((∃ d, m = [(fd.tags.jsonName, d)]) ∨
               ∃ k, FieldKind Γ fd.typ (.method k) ∧ fd.tags.jsonName = [] ∧ Enc Γ F (.decl k) g (.obj m)))) := by
  obtain ⟨d, hdecl, hm⟩ := C53_tagged_partial hp hd hin h hs ht
  rw [hst] at hm
  cases hm with
  | @struct _ flat names fds _ strict hflat hfields hnames hstrict =>
    exact ⟨flat, names, fds, hflat, hfields, fun gs text h1 h2 h3 => C22_members_partial hP hn hdecl h1 h2 h3⟩
  | «alias» ha => cases ha

namespace Examples
open Sample
attribute [local instance] Sample.ext

/-! A file with a name for a predeclared type, a struct for inlining, and a strict struct. -/

def linkFile : List TypeDecl :=
  [⟨none, [⟨str "Level", .ident (str "int8"), none⟩]⟩,
   ⟨some [str "// Base is shared."],
     [⟨str "Base", .struct [⟨[str "Id"], .ident (str "uint16"), some (str "`json:\"id\"`")⟩], none⟩]⟩,
   ⟨some [str "// json:strict"],
     [⟨str "User", .struct [⟨[str "Name"], .ident (str "string"), some (str "`json:\"name\" default:\"bob\"`")⟩,
        ⟨[], .ident (str "Base"), some (str "`json:\",inline\"`")⟩,
        ⟨[str "Levels"], .array none (.ident (str "Level")), some (str "`json:\"levels\"`")⟩], none⟩]⟩]

def alone : Project := ⟨noPkgs, fun _ _ => .no⟩

/-- What the generator makes of it. -/
def linkTable : List (Nat × Decl) :=
  [(identId (str "Level"), .alias (.prim .int8)),
   (identId (str "User"), .struct true
      [⟨.prim .string, { jsonName := str "name", dflt := str "bob" }⟩,
       ⟨.prim .uint16, { jsonName := str "id" }⟩,
       ⟨.slice (.named (identId (str "Level"))), { jsonName := str "levels" }⟩])]

def linkEnv (ext : Nat → Methods) : Env := ⟨fun n => linkTable.lookup n, ext⟩

/-- The file is turned into these declarations. -/
theorem C53_file (ext : Nat → Methods) : link alone 5 linkFile ext = .ok (linkEnv ext) := by
  have h1 : getNormalized alone.pkgs 5 linkFile = .ok [⟨str "User", [str "strict"],
      .struct [⟨[str "Name"], .ident (str "string"), some (str "`json:\"name\" default:\"bob\"`")⟩,
        ⟨[str "Id"], .ident (str "uint16"), some (str "`json:\"id\"`")⟩,
        ⟨[str "Levels"], .array none (.ident (str "Level")), some (str "`json:\"levels\"`")⟩]⟩] := by
    decide +kernel
  rw [link, h1, Out.ok_bind]
  have h2 : declTable alone [⟨str "User", [str "strict"],
      .struct [⟨[str "Name"], .ident (str "string"), some (str "`json:\"name\" default:\"bob\"`")⟩,
        ⟨[str "Id"], .ident (str "uint16"), some (str "`json:\"id\"`")⟩,
        ⟨[str "Levels"], .array none (.ident (str "Level")), some (str "`json:\"levels\"`")⟩]⟩]
      linkFile (fileSpecs linkFile) = .ok linkTable := by decide +kernel
  rw [h2]
  rfl

example : DistinctTypes linkFile ∧ NoInnerTags linkFile ∧ DistinctAll alone.pkgs := by
  refine ⟨by rw [DistinctTypes]; decide +kernel, by rw [NoInnerTags]; decide +kernel, ?_⟩
  intro p n f h
  cases h

example : AsksForAll (docTags (some [str "// json:strict"])) := by
  refine ⟨?_, ?_, ?_, ?_⟩ <;> decide +kernel

/-- Only `User` and `Level` are known; `Base`, which has no methods, is not. -/
example : (linkEnv fun _ => .loop).decl (identId (str "Base")) = none := by decide +kernel

set_option maxRecDepth 20000 in
/-- From the text of the file to a value: the inlined field is read from its own member, the
elements of `levels` as `int8`, and the missing name is the default written in the tag. -/
theorem C53_user_read : Fills (linkEnv fun _ => .loop) (identId (str "User"))
    (.obj [(str "id", .num (str "7")), (str "levels", .arr [.num (str "-1"), .num (str "2")])])
    (.struct [.str [], .int 0, .nil]) none
    (.struct [.str (str "bob"), .int 7, .slice [.int (-1), .int 2] []]) := ⟨5, rfl⟩

set_option maxRecDepth 20000 in
/-- And back to text. -/
theorem C53_user_written : Marshals (linkEnv fun _ => .loop) (identId (str "User"))
    (some (.struct [.str (str "bob"), .int 7, .slice [.int (-1), .int 2] []]))
    (.ok (str "{\"name\":\"bob\",\"id\":7,\"levels\":[-1,2]}")) := ⟨5, rfl⟩

set_option maxRecDepth 20000 in
/-- The comment tag `strict` makes the struct refuse other members. -/
theorem C53_user_strict : ∃ e, Fills (linkEnv fun _ => .loop) (identId (str "User"))
    (.obj [(str "id", .num (str "7")), (str "other", .null)])
    (.struct [.str [], .int 0, .nil]) (some e) (.struct [.str [], .int 0, .nil]) := ⟨_, 5, rfl⟩

/-- The same file with `Base` written out in `User`. -/
def linkFileOut : List TypeDecl :=
  [⟨none, [⟨str "Level", .ident (str "int8"), none⟩]⟩,
   ⟨some [str "// Base is shared."],
     [⟨str "Base", .struct [⟨[str "Id"], .ident (str "uint16"), some (str "`json:\"id\"`")⟩], none⟩]⟩,
   ⟨some [str "// json:strict"],
     [⟨str "User", .struct [⟨[str "Name"], .ident (str "string"), some (str "`json:\"name\" default:\"bob\"`")⟩,
        ⟨[str "Id"], .ident (str "uint16"), some (str "`json:\"id\"`")⟩,
        ⟨[str "Levels"], .array none (.ident (str "Level")), some (str "`json:\"levels\"`")⟩], none⟩]⟩]

theorem C54_example : WrittenOut noPkgs linkFile linkFileOut ∧ linkFile ≠ linkFileOut := by
  refine ⟨.cons ⟨rfl, .cons .same .nil⟩ (.cons ⟨rfl, .cons .same .nil⟩
    (.cons ⟨rfl, .cons (.written ?_ ?_) .nil⟩ .nil)), by decide +kernel⟩
  · exact collect_sound (k := 3) (by intro p n f h; cases h) (by rw [DistinctTypes]; decide +kernel)
      (by decide +kernel)
  · intro f hf
    simp only [List.mem_cons, List.not_mem_nil, or_false] at hf
    rw [Inlined]
    rcases hf with rfl | rfl | rfl <;> decide +kernel

example : HasDecoder (linkEnv fun _ => .loop) (identId (str "User")) :=
  ⟨_, 5, _, rfl, rfl⟩

end Examples

end VJ
