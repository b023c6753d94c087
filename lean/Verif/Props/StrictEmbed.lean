import Verif.Props.Deep
import Verif.Proof.Evolve

/-!
# C68: strict and embedded structs

The check for unknown members looks at the fields of one struct, and both a struct and the
structs embedded in it check the same object.  So the tag `strict` does not go together with
embedding, on either side.
-/

namespace VJ
set_option linter.unusedSectionVars false

section
variable [Ext] {Γ : Env} {X : Nat → GoVal → Prop} {S : Nat → Prop} {F : Nat → Option GoVal → JV → Prop}

/-- a text that is a JSON document is refused if the document is -/
theorem refused_text {n : Nat} {doc : JV} {s : Str} (hj : Document doc s) {old new : GoVal} {e : Option Err}
    (hr : ∀ e' new', Fills Γ n doc old e' new' → e' ≠ none) (h : Unmarshals Γ n s old e new) : e ≠ none := by
  by_cases hd : DepthLe 300 doc
  · exact hr e new ((unmarshals_document hj hd).1 h)
  · rw [((C66_refused hj hd old).1 h).1]; exact fun h => by cases h

/-- **C68, a strict struct that embeds another**: a document with a member of the embedded struct
is refused, and the receiver stays as it was. -/
theorem C68_strict_parent {n m : Nat} {strict' : Bool} {fields fields' : List FieldDecl} (hd : Γ.decl n = some (.struct true fields))
    {fd fd' : FieldDecl} (_hf : fd ∈ fields) (_he : fd.tags.jsonName = []) (_ht : fd.typ = .named m)
    (_hd' : Γ.decl m = some (.struct strict' fields')) (_hf' : fd' ∈ fields') (hk : fd'.tags.jsonName ∉ jsonNames fields)
    {kvs : List (Str × JV)} {v : JV} (hkv : (fd'.tags.jsonName, v) ∈ kvs) {old new : GoVal} {e : Option Err}
    (h : Fills Γ n (.obj kvs) old e new) : new = old ∧ e ≠ none := by
  have hna : ¬ Acceptable (jsonNames fields) true (.obj kvs) := by
    rintro ⟨kvs', hkvs, _, hst⟩
    cases hkvs
    exact hk (hst rfl _ hkv)
  obtain ⟨h1, err, h2, _⟩ := C01_rejected hd hna h
  exact ⟨h1, by rw [h2]; exact fun h => by cases h⟩

/-- **C68, a struct that embeds a strict one**: a document with a member that is not one of the
strict struct — one of its own, for example — is refused. -/
theorem C68_strict_embedded {n m : Nat} {strict : Bool} {fields fields' : List FieldDecl} (hd : Γ.decl n = some (.struct strict fields))
    {i : Nat} {fd : FieldDecl} (hi : fields[i]? = some fd) (he : fd.tags.jsonName = []) (ht : fd.typ = .named m)
    (hd' : Γ.decl m = some (.struct true fields')) {kvs : List (Str × JV)} {key : Str} {v : JV} (hkv : (key, v) ∈ kvs)
    (hk : key ∉ jsonNames fields') {old new : GoVal} {e : Option Err} (h : Fills Γ n (.obj kvs) old e new) : e ≠ none := by
  rintro rfl
  obtain ⟨gs, gs', k, fs, rfl, rfl, _, _⟩ := fills_struct hd h
  obtain ⟨_, _, hl'⟩ := fills_lengths hd h
  have hlt : i < gs'.length := by rw [hl']; exact (List.getElem?_eq_some_iff.1 hi).1
  obtain ⟨old, _, hm⟩ := C33_read_from_parent hd h hi he ht hd' (List.getElem?_eq_getElem hlt)
  have hna : ¬ Acceptable (jsonNames fields') true (.obj kvs) := by
    rintro ⟨kvs', hkvs, _, hst⟩
    cases hkvs
    exact hk (hst rfl _ hkv)
  obtain ⟨_, err, h2, _⟩ := C01_rejected hd' hna hm
  cases h2

/-- **C68, own output, a strict struct that embeds another**: whenever the embedded value is not
zero, the decoder of the type refuses what its encoder has written. -/
theorem C68_strict_parent_own_output (hW : Writers Γ F S) {n : Nat} (hn : S n) {strict' : Bool} {fields fields' : List FieldDecl}
    (hd : Γ.decl n = some (.struct true fields)) {gs : List GoVal} (hv : HasType Γ X (.named n) (.struct gs)) {s : Str}
    (h : Marshals Γ n (some (.struct gs)) (.ok s)) {i m : Nat} {fd : FieldDecl} {g : GoVal} (hi : fields[i]? = some fd) (hg : gs[i]? = some g)
    (he : fd.tags.jsonName = []) (ht : fd.typ = .named m) (hd' : Γ.decl m = some (.struct strict' fields'))
    (hnames : ∀ fd' ∈ fields', fd'.tags.jsonName ≠ [] ∧ fd'.tags.jsonName ∉ jsonNames fields) (hz : IsZeroIs Γ m g false)
    {doc : JV} (hj : Document doc s) {old new : GoVal} {e : Option Err} (hu : Unmarshals Γ n s old e new) : e ≠ none := by
  have hm : ByMethod Γ fd.typ m := by rw [ht]; exact .struct hd'
  have hnm : NameOf (.named n) n := .named n
  have hf := fine_of_json hW hn hv h hj
  obtain ⟨ms, hdoc, hl, hms⟩ := C22_members hW hn hd hv h hj
  have hlen : i < ms.length := by rw [hl]; exact (List.getElem?_eq_some_iff.1 hi).1
  obtain ⟨henc, hrest⟩ := hms i fd g _ hi hg (List.getElem?_eq_getElem hlen)
  have hnot : ¬ Omitted Γ fd g := not_omitted (.method hm) fun h => by
    cases h with
    | method h => cases isZero_unique h hz
  obtain ⟨kv, hkv, fd', hfd', hname⟩ : ∃ kv ∈ ms[i], ∃ fd' ∈ fields', kv.1 = fd'.tags.jsonName := by
    obtain ⟨k, hk, ⟨ho, _⟩ | ⟨_, hr⟩⟩ := enc_cases henc
    · exact absurd ho hnot
    cases fieldKind_unique hk (.method hm)
    rcases hr with ⟨_, hr, _⟩ | ⟨hr, _⟩ | ⟨_, hr, _⟩
    · exact absurd rfl (hr m)
    · exact absurd he hr
    obtain ⟨kv, kvs, heq⟩ := hf.splices (.named n) n true fields gs .self hnm hd i m fd g _ hi hg he hm hz hr
    have hres := enc_declRes hr
    unfold DeclRes at hres
    rw [hd'] at hres
    obtain ⟨gs', ms', _, hfl, hl1, hl2, hmem⟩ := hres
    simp only [JV.obj.injEq] at heq hfl
    have hkv : kv ∈ ms'.flatten := by rw [← hfl, heq]; exact List.mem_cons_self
    refine ⟨kv, by rw [hfl]; exact hkv, ?_⟩
    obtain ⟨m', hm', hin⟩ := List.mem_flatten.1 hkv
    obtain ⟨j, hjm⟩ := List.getElem?_of_mem hm'
    have hj1 : j < ms'.length := (List.getElem?_eq_some_iff.1 hjm).1
    have hjf : j < fields'.length := by omega
    have hjg : j < gs'.length := by omega
    refine ⟨fields'[j], List.getElem_mem hjf, ?_⟩
    have hfm := field_members (hmem j _ _ m' (List.getElem?_eq_getElem hjf) (List.getElem?_eq_getElem hjg) hjm)
    rcases hfm with ⟨_, rfl⟩ | ⟨_, ⟨d, rfl⟩ | ⟨_, _, h, _⟩⟩
    · cases hin
    · rw [List.mem_singleton.1 hin]
    · exact absurd h (hnames _ (List.getElem_mem hjf)).1
  subst hdoc
  refine refused_text hj (fun e' new' hf' => ?_) hu
  refine (C68_strict_parent (v := kv.2) hd (List.mem_of_getElem? hi) he ht hd' hfd' (hnames fd' hfd').2 ?_ hf').2
  rw [← hname]
  exact List.mem_flatten.2 ⟨_, List.getElem_mem hlen, hkv⟩

/-- **C68, own output, a struct that embeds a strict one**: whenever a field of its own is written,
the decoder of the type refuses what its encoder has written. -/
theorem C68_strict_embedded_own_output (hW : Writers Γ F S) {n : Nat} (hn : S n) {strict : Bool} {fields fields' : List FieldDecl}
    (hd : Γ.decl n = some (.struct strict fields)) {gs : List GoVal} (hv : HasType Γ X (.named n) (.struct gs)) {s : Str}
    (h : Marshals Γ n (some (.struct gs)) (.ok s)) {i m : Nat} {fd : FieldDecl} (hi : fields[i]? = some fd)
    (he : fd.tags.jsonName = []) (ht : fd.typ = .named m) (hd' : Γ.decl m = some (.struct true fields'))
    {j : Nat} {own : FieldDecl} {x : GoVal} (hi' : fields[j]? = some own) (hx : gs[j]? = some x) (hne : own.tags.jsonName ≠ [])
    (hk : own.tags.jsonName ∉ jsonNames fields') (hw : ¬ Omitted Γ own x)
    {doc : JV} (hj : Document doc s) {old new : GoVal} {e : Option Err} (hu : Unmarshals Γ n s old e new) : e ≠ none := by
  obtain ⟨ms, hdoc, hl, hms⟩ := C22_members hW hn hd hv h hj
  have hlen : j < ms.length := by rw [hl]; exact (List.getElem?_eq_some_iff.1 hi').1
  obtain ⟨_, hrest⟩ := hms j own x _ hi' hx (List.getElem?_eq_getElem hlen)
  subst hdoc
  refine refused_text hj (fun e' new' hf' => ?_) hu
  rcases hrest with ⟨h, _⟩ | ⟨_, ⟨d, hmd⟩ | ⟨_, _, h, _⟩⟩
  · exact absurd h hw
  · refine C68_strict_embedded (v := d) hd hi he ht hd' (List.mem_flatten.2 ⟨_, List.getElem_mem hlen, ?_⟩) hk hf'
    rw [hmd]; exact List.mem_singleton.2 rfl
  · exact absurd h hne

end

/-! ### the hypotheses can be met -/

namespace Examples
open Sample

/-- Four structs: `0` is strict and embeds `1`; `2` embeds `3`, which is strict.
`type A struct { B; Name string }` with `type B struct { ID string }`, twice. -/
def strictEnv : Env where
  decl
    | 0 => some (.struct true [⟨.named 1, {}⟩, ⟨.prim .string, { jsonName := str "name" }⟩])
    | 1 => some (.struct false [⟨.prim .string, { jsonName := str "id" }⟩])
    | 2 => some (.struct false [⟨.named 3, {}⟩, ⟨.prim .string, { jsonName := str "name" }⟩])
    | 3 => some (.struct true [⟨.prim .string, { jsonName := str "id" }⟩])
    | _ => none
  ext _ := .unsupp

section
attribute [local instance] Sample.ext

/-- `A{B: B{ID: "x"}, Name: "y"}` -/
def strictVal : GoVal := .struct [.struct [.str (str "x")], .str (str "y")]
def strictText : Str := str "{\"id\":\"x\",\"name\":\"y\"}"
def strictDoc : JV := .obj [(str "id", .str (str "x")), (str "name", .str (str "y"))]

set_option maxRecDepth 200000 in
theorem strictEnv_package : EncPackage strictEnv noDoc (· ∈ [0, 1, 2, 3]) where
  closed n d t m hn hd ht hm := by
    have h : ∀ n ∈ [0, 1, 2, 3], ∀ d ∈ strictEnv.decl n, ∀ t ∈ d.types, ∀ m ∈ t.names, m ∈ [0, 1, 2, 3] := by decide
    exact h n hn d hd t ht m hm
  noAnon n d t hn hd ht := by
    have h : ∀ n ∈ [0, 1, 2, 3], ∀ d ∈ strictEnv.decl n, ∀ t ∈ d.types, t.anon = false := by decide
    exact h n hn d hd t ht
  sels n d t m hn hd ht hm := by
    have h : ∀ n ∈ [0, 1, 2, 3], ∀ d ∈ strictEnv.decl n, ∀ t ∈ d.types, t.sels = [] := by decide
    rw [h n hn d hd t ht] at hm; cases hm
  keys n strict fields fd hn hd hf := by
    have h : ∀ n ∈ [0, 1, 2, 3], ∀ d ∈ strictEnv.decl n,
        (match d with | .struct _ fields => fields.all (fun fd => plainb fd.tags.jsonName) | _ => true) = true := by
      decide
    exact plainb_iff (List.all_eq_true.1 (h n hn _ hd) fd hf)
  times tm := fmtTime_plain [] tm
  timeTexts tm s h := by cases h; exact fmtTime_plain [] tm
  layouts _ _ _ _ _ _ _ := ⟨fun tm => fmtTime_plain [] tm, fmtTime_plain [] _⟩
  foreign n r w w' hn hd hw h := by cases h
  tame n r hd := .unsupp

theorem strictEnv_writers : Writers strictEnv noDoc (· ∈ [0, 1, 2, 3]) :=
  { strictEnv_package with floatTexts := floatTexts, oneDoc := noDoc_unique, compact := fun _ _ _ _ _ _ _ hr => by cases hr }

theorem strictDoc_text : Document strictDoc strictText := by
  have pl : ∀ {s : Str}, plainb s = true → StrText s s := fun h => strText_plain (plainb_iff h)
  refine ⟨[], strictText, [], by simp, ws_nil, ws_nil, ?_⟩
  refine .obj (ps := [⟨[], str "id", [], [], str "\"x\"", []⟩, ⟨[], str "name", [], [], str "\"y\"", []⟩]) (by simp) rfl ?_ ?_ ?_
  · intro p hp
    simp only [List.mem_cons, List.not_mem_nil, or_false] at hp
    rcases hp with rfl | rfl <;> exact ⟨ws_nil, ws_nil, ws_nil, ws_nil⟩
  · intro i kv p h1 h2
    match i with
    | 0 => cases h1; cases h2; exact pl (by decide)
    | 1 => cases h1; cases h2; exact pl (by decide)
    | i + 2 => cases h1
  · intro i kv p h1 h2
    match i with
    | 0 => cases h1; cases h2; exact .str (pl (by decide))
    | 1 => cases h1; cases h2; exact .str (pl (by decide))
    | i + 2 => cases h1

theorem strictVal_typed {n m : Nat} {strict strict' : Bool}
    (hn : strictEnv.decl n = some (.struct strict [⟨.named m, {}⟩, ⟨.prim .string, { jsonName := str "name" }⟩]))
    (hm : strictEnv.decl m = some (.struct strict' [⟨.prim .string, { jsonName := str "id" }⟩])) :
    HasType strictEnv NoForeign (.named n) strictVal := by
  refine .struct (.named n) hn rfl ?_
  intro i fd g hf hg
  match i with
  | 0 =>
    cases hf; cases hg
    refine .struct (.named m) hm rfl ?_
    intro i fd g hf hg
    match i with
    | 0 => cases hf; cases hg; exact .prim (.string _)
    | i + 1 => cases hf
  | 1 => cases hf; cases hg; exact .prim (.string _)
  | i + 2 => cases hf

set_option maxRecDepth 200000 in
/-- a strict struct refuses its own output -/
example {old new : GoVal} {e : Option Err} (h : Unmarshals strictEnv 0 strictText old e new) : e ≠ none :=
  C68_strict_parent_own_output strictEnv_writers (n := 0) (by decide) rfl (strictVal_typed (n := 0) rfl rfl) ⟨5, rfl⟩ (i := 0) (m := 1) rfl rfl
    rfl rfl rfl (by decide) ⟨5, rfl⟩ strictDoc_text h

set_option maxRecDepth 200000 in
/-- and so does a struct that embeds a strict one -/
example {old new : GoVal} {e : Option Err} (h : Unmarshals strictEnv 2 strictText old e new) : e ≠ none :=
  C68_strict_embedded_own_output strictEnv_writers (n := 2) (by decide) rfl (strictVal_typed (n := 2) rfl rfl) ⟨5, rfl⟩ (i := 0) (m := 3) rfl
    rfl rfl rfl (j := 1) rfl rfl (by decide) (by decide)
    (not_omitted (.scalar (.self _)) fun h => by cases h with | scalar h => cases h) strictDoc_text h

set_option maxRecDepth 200000 in
/-- `C68_strict_parent` and `C68_strict_embedded`: the two decodes; each would succeed without the
member of the other struct. -/
theorem C68_refused :
    Fills strictEnv 0 strictDoc (.struct [.struct [.str []], .str []]) (some ⟨none, .unexpected (str "id")⟩) (.struct [.struct [.str []], .str []]) ∧
    Fills strictEnv 0 (.obj [(str "name", .str (str "y"))]) (.struct [.struct [.str []], .str []]) none (.struct [.struct [.str []], .str (str "y")]) ∧
    (∃ path new, Fills strictEnv 2 strictDoc (.struct [.struct [.str []], .str []]) (some ⟨path, .unexpected (str "name")⟩) new) ∧
    Fills strictEnv 2 (.obj [(str "id", .str (str "x"))]) (.struct [.struct [.str []], .str []]) none (.struct [.struct [.str (str "x")], .str []]) :=
  ⟨⟨5, rfl⟩, ⟨5, rfl⟩, ⟨_, _, 5, rfl⟩, ⟨5, rfl⟩⟩

end
end Examples
end VJ
