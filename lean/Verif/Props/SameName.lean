import Verif.Props.StrictEmbed
import Verif.Model.Link

/-!
# C69: several fields with one JSON name

The generator does not ask whether two fields of a struct have the same JSON name.  They have
it in any case when they are declared together (`A, B int` with one tag).
-/

namespace VJ
set_option linter.unusedSectionVars false

section
variable [Ext] {Γ : Env} {X : Nat → GoVal → Prop} {S : Nat → Prop} {F : Nat → Option GoVal → JV → Prop}

theorem occurrences_two (key : Str) (a b : List (Str × JV)) : occurrences key (a ++ b) = occurrences key a + occurrences key b := by
  simp [occurrences]

theorem occurrences_mem {key : Str} {d : JV} {kvs : List (Str × JV)} (h : (key, d) ∈ kvs) : 1 ≤ occurrences key kvs := by
  unfold occurrences
  exact List.length_pos_of_mem (List.mem_filter.2 ⟨h, by simp⟩)

/-- **C69, reading**: the fields of one declaration that held the same value hold the same value after a
successful decode. -/
theorem C69_read_alike {n : Nat} {strict : Bool} {fields : List FieldDecl} (hd : Γ.decl n = some (.struct strict fields)) {doc : JV}
    {gs gs' : List GoVal} (h : Fills Γ n doc (.struct gs) none (.struct gs')) {i j : Nat} {fd : FieldDecl} (hi : fields[i]? = some fd)
    (hj : fields[j]? = some fd) (hold : gs[i]? = gs[j]?) : gs'[i]? = gs'[j]? := by
  obtain ⟨k, h⟩ := h
  have a := ((methods_mono Γ (Nat.le_succ k) n).fill _ _).eq_of_ok h
  rw [methods_struct hd] at a
  obtain ⟨fs, hg, a⟩ := Out.bind_eq_ok.1 a
  have a' : runFields (Γ.methods k) doc fs gs = .ok (none, gs') := by
    simp only [runFill] at a
    split at a
    · simp at a
    · obtain ⟨⟨e, gs1⟩, h3, h4⟩ := Out.bind_eq_ok.1 a
      simp only [Out.pure_eq, Out.ok.injEq, Prod.mk.injEq, GoVal.struct.injEq] at h4
      rw [h3, h4.1, h4.2]
  obtain ⟨f, hf, hgen⟩ := genFields_get hg hi
  obtain ⟨f', hf', hgen'⟩ := genFields_get hg hj
  rw [hgen] at hgen'
  obtain rfl := Out.ok.inj hgen'
  obtain ⟨_, _, ha⟩ := runFields_ok a'
  obtain ⟨g1, r1, p1, q1, s1⟩ := ha i f hf
  obtain ⟨g2, r2, p2, q2, s2⟩ := ha j f hf'
  rw [p1, p2] at hold
  obtain rfl := Option.some.inj hold
  rw [s1] at s2
  simp only [Out.ok.injEq, Prod.mk.injEq, true_and] at s2
  rw [q1, q2, s2]

/-- **C69, writing**: if two fields with the same JSON name are both written, the object has two
members with this name … -/
theorem C69_written_twice (hW : Writers Γ F S) {n : Nat} (hn : S n) {strict : Bool} {fields : List FieldDecl}
    (hd : Γ.decl n = some (.struct strict fields)) {gs : List GoVal} (hv : HasType Γ X (.named n) (.struct gs)) {s : Str}
    (h : Marshals Γ n (some (.struct gs)) (.ok s)) {i j : Nat} (hij : i < j) {a b : FieldDecl} {x y : GoVal}
    (hi : fields[i]? = some a) (hj : fields[j]? = some b) (hx : gs[i]? = some x) (hy : gs[j]? = some y)
    (hname : a.tags.jsonName ≠ []) (hsame : b.tags.jsonName = a.tags.jsonName) (hwa : ¬ Omitted Γ a x) (hwb : ¬ Omitted Γ b y)
    {doc : JV} (hdoc : Document doc s) : ∃ kvs, doc = .obj kvs ∧ 2 ≤ occurrences a.tags.jsonName kvs := by
  obtain ⟨ms, rfl, hl, hms⟩ := C22_members hW hn hd hv h hdoc
  have one : ∀ {p : Nat} {fd : FieldDecl} {z : GoVal} (hp : p < ms.length), fields[p]? = some fd → gs[p]? = some z →
      fd.tags.jsonName = a.tags.jsonName → ¬ Omitted Γ fd z → ∃ d, (a.tags.jsonName, d) ∈ ms[p] := by
    intro p fd z hp h1 h2 h3 h4
    rcases (hms p fd z _ h1 h2 (List.getElem?_eq_getElem hp)).2 with ⟨ho, _⟩ | ⟨_, ⟨d, hm⟩ | ⟨_, _, he, _⟩⟩
    · exact absurd ho h4
    · exact ⟨d, by rw [hm, ← h3]; exact List.mem_singleton.2 rfl⟩
    · exact absurd (h3 ▸ he) hname
  have hli : i < ms.length := by rw [hl]; exact (List.getElem?_eq_some_iff.1 hi).1
  have hlj : j < ms.length := by rw [hl]; exact (List.getElem?_eq_some_iff.1 hj).1
  obtain ⟨d, hd1⟩ := one hli hi hx rfl hwa
  obtain ⟨d', hd2⟩ := one hlj hj hy hsame hwb
  refine ⟨_, rfl, ?_⟩
  rw [flatten_split ms i hli, occurrences_two, occurrences_two]
  have h1 := occurrences_mem hd1
  have h2 : (a.tags.jsonName, d') ∈ (ms.drop (i + 1)).flatten := by
    refine List.mem_flatten.2 ⟨_, ?_, hd2⟩
    rw [List.mem_iff_getElem?]
    refine ⟨j - (i + 1), ?_⟩
    rw [List.getElem?_drop, show i + 1 + (j - (i + 1)) = j by omega]
    exact List.getElem?_eq_getElem hlj
  have h3 := occurrences_mem h2
  omega

/-- … and the decoder of the type refuses it, and leaves the receiver as it was. -/
theorem C69_own_output_refused (hW : Writers Γ F S) {n : Nat} (hn : S n) {strict : Bool} {fields : List FieldDecl}
    (hd : Γ.decl n = some (.struct strict fields)) {gs : List GoVal} (hv : HasType Γ X (.named n) (.struct gs)) {s : Str}
    (h : Marshals Γ n (some (.struct gs)) (.ok s)) {i j : Nat} (hij : i < j) {a b : FieldDecl} {x y : GoVal}
    (hi : fields[i]? = some a) (hj : fields[j]? = some b) (hx : gs[i]? = some x) (hy : gs[j]? = some y)
    (hname : a.tags.jsonName ≠ []) (hsame : b.tags.jsonName = a.tags.jsonName) (hwa : ¬ Omitted Γ a x) (hwb : ¬ Omitted Γ b y)
    {doc : JV} (hdoc : Document doc s) {old new : GoVal} {e : Option Err} (hu : Unmarshals Γ n s old e new) : e ≠ none ∧ new = old := by
  obtain ⟨kvs, rfl, htwo⟩ := C69_written_twice hW hn hd hv h hij hi hj hx hy hname hsame hwa hwb hdoc
  have hna : ¬ Acceptable (jsonNames fields) strict (.obj kvs) := by
    rintro ⟨kvs', hkvs, hone, _⟩
    cases hkvs
    have := hone _ (List.mem_map_of_mem (f := fun fd : FieldDecl => fd.tags.jsonName) (List.mem_of_getElem? hi))
    omega
  by_cases hdep : DepthLe 300 (.obj kvs)
  · obtain ⟨h1, err, h2, _⟩ := C01_rejected hd hna ((unmarshals_document hdoc hdep).1 hu)
    exact ⟨by rw [h2]; simp, h1⟩
  · obtain ⟨h1, h2⟩ := (C66_refused hdoc hdep old).1 hu
    exact ⟨by rw [h1]; simp, h2⟩

end

/-! ### the hypotheses can be met -/

namespace Examples
open Sample

/-- `type Pair struct { A, B string }`, the two with the tag `json:"v"` -/
def twinEnv : Env where
  decl
    | 0 => some (.struct false [⟨.prim .string, { jsonName := str "v" }⟩, ⟨.prim .string, { jsonName := str "v" }⟩])
    | _ => none
  ext _ := .unsupp

section
attribute [local instance] Sample.ext

/-- one declaration with two names becomes two fields -/
example : fieldDecls (fun _ _ => .no) (fun _ => false) [⟨[str "A", str "B"], .ident (str "string"), some (str "`json:\"v\"`")⟩]
    = .ok [⟨.prim .string, { jsonName := str "v" }⟩, ⟨.prim .string, { jsonName := str "v" }⟩] := by decide +kernel

def twinVal : GoVal := .struct [.str (str "x"), .str (str "y")]
def twinText : Str := str "{\"v\":\"x\",\"v\":\"y\"}"

set_option maxRecDepth 200000 in
theorem twinEnv_package : EncPackage twinEnv noDoc (· ∈ [0]) where
  closed n d t m hn hd ht hm := by
    have h : ∀ n ∈ [0], ∀ d ∈ twinEnv.decl n, ∀ t ∈ d.types, ∀ m ∈ t.names, m ∈ [0] := by decide
    exact h n hn d hd t ht m hm
  noAnon n d t hn hd ht := by
    have h : ∀ n ∈ [0], ∀ d ∈ twinEnv.decl n, ∀ t ∈ d.types, t.anon = false := by decide
    exact h n hn d hd t ht
  sels n d t m hn hd ht hm := by
    have h : ∀ n ∈ [0], ∀ d ∈ twinEnv.decl n, ∀ t ∈ d.types, t.sels = [] := by decide
    rw [h n hn d hd t ht] at hm; cases hm
  keys n strict fields fd hn hd hf := by
    have h : ∀ n ∈ [0], ∀ d ∈ twinEnv.decl n,
        (match d with | .struct _ fields => fields.all (fun fd => plainb fd.tags.jsonName) | _ => true) = true := by
      decide
    exact plainb_iff (List.all_eq_true.1 (h n hn _ hd) fd hf)
  times tm := fmtTime_plain [] tm
  timeTexts tm s h := by cases h; exact fmtTime_plain [] tm
  layouts _ _ _ _ _ _ _ := ⟨fun tm => fmtTime_plain [] tm, fmtTime_plain [] _⟩
  foreign n r w w' hn hd hw h := by cases h
  tame n r hd := .unsupp

theorem twinEnv_writers : Writers twinEnv noDoc (· ∈ [0]) :=
  { twinEnv_package with floatTexts := floatTexts, oneDoc := noDoc_unique, compact := fun _ _ _ _ _ _ _ hr => by cases hr }

theorem twinVal_typed : HasType twinEnv NoForeign (.named 0) twinVal := by
  refine .struct (.named 0) (n := 0) rfl rfl ?_
  intro i fd g hf hg
  match i with
  | 0 => cases hf; cases hg; exact .prim (.string _)
  | 1 => cases hf; cases hg; exact .prim (.string _)
  | i + 2 => cases hf

theorem twinDoc_text : Document (.obj [(str "v", .str (str "x")), (str "v", .str (str "y"))]) twinText := by
  have pl : ∀ {s : Str}, plainb s = true → StrText s s := fun h => strText_plain (plainb_iff h)
  refine ⟨[], twinText, [], by simp, ws_nil, ws_nil, ?_⟩
  refine .obj (ps := [⟨[], str "v", [], [], str "\"x\"", []⟩, ⟨[], str "v", [], [], str "\"y\"", []⟩]) (by simp) rfl ?_ ?_ ?_
  · intro p hp
    simp only [List.mem_cons, List.not_mem_nil, or_false] at hp
    rcases hp with rfl | rfl <;> exact ⟨ws_nil, ws_nil, ws_nil, ws_nil⟩
  · intro i kv p h1 h2
    match i with
    | 0 => cases h1; cases h2; exact pl (by decide)
    | 1 => cases h1; cases h2; exact pl (by decide)
    | i + 2 => cases h1
  · intro i kv p h1 h2
    match i with
    | 0 => cases h1; cases h2; exact .str (pl (by decide))
    | 1 => cases h1; cases h2; exact .str (pl (by decide))
    | i + 2 => cases h1

theorem twin_written (s : Str) (hs : s ≠ []) : ¬ Omitted twinEnv ⟨.prim .string, { jsonName := str "v" }⟩ (.str s) :=
  not_omitted (.scalar (.self _)) fun h => by
    cases h with
    | scalar h => cases h; exact (hs rfl).elim

set_option maxRecDepth 200000 in
/-- `Pair{A: "x", B: "y"}` is written, and not read -/
theorem twin_refused {old new : GoVal} {e : Option Err} (h : Unmarshals twinEnv 0 twinText old e new) : e ≠ none ∧ new = old :=
  C69_own_output_refused twinEnv_writers (n := 0) (by decide) rfl twinVal_typed ⟨5, rfl⟩ (i := 0) (j := 1) (by decide) rfl rfl rfl rfl
    (by decide) rfl (twin_written _ (by decide)) (twin_written _ (by decide)) twinDoc_text h

set_option maxRecDepth 200000 in
/-- a document with one such member fills both fields -/
theorem C69_one_for_both : Fills twinEnv 0 (.obj [(str "v", .str (str "x"))]) (.struct [.str [], .str []]) none
    (.struct [.str (str "x"), .str (str "x")]) := ⟨5, rfl⟩

example {gs' : List GoVal} (h : Fills twinEnv 0 (.obj [(str "v", .str (str "x"))]) (.struct [.str [], .str []]) none (.struct gs')) :
    gs'[0]? = gs'[1]? := C69_read_alike rfl h (i := 0) (j := 1) rfl rfl rfl

end
end Examples
end VJ
