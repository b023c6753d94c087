import Verif.Props.StructDecode
import Verif.Props.Tags

/-!
# C06, C38: texts in tags

The text of a default tag is copied between quotes into the generated code, where the Go
compiler reads it once more.
-/

namespace VJ

section
variable [Ext]

/-- **C06.** A string field (or one of a type declared as string) whose member is absent holds
what the Go compiler reads in the text of the default tag: nothing else is possible. -/
theorem C06_text_default_exact {Γ : Env} {n : Nat} {strict : Bool} {fields : List FieldDecl}
    (hd : Γ.decl n = some (.struct strict fields)) {v : JV} {gs gs' : List GoVal}
    (h : Fills Γ n v (.struct gs) none (.struct gs')) {i : Nat} {fd : FieldDecl} (hi : fields[i]? = some fd)
    (hname : fd.tags.jsonName ≠ []) (hdash : fd.tags.jsonName ≠ str "-")
    (habs : v.get fd.tags.jsonName = none) (hdef : fd.tags.dflt ≠ []) (ht : IsPrim Γ fd.typ .string) :
    ∃ s, gs'[i]? = some (.str s) ∧ ReadAsSource fd.tags.dflt s := by
  obtain ⟨d, h1, h2⟩ := C06_default hd h hi hname hdash habs hdef
  have lit : ∀ {p : Prim}, p = .string → PrimLiteral p fd.tags.dflt d → ∃ s, d = .str s ∧ ReadAsSource fd.tags.dflt s := by
    intro p hp hl
    generalize fd.tags.dflt = t at hl ⊢
    cases hl with
    | string h => exact ⟨_, rfl, h⟩
    | int hi _ _ => subst hp; cases hi
    | _ => cases hp
  generalize hty : fd.typ = ty at ht h2
  obtain ⟨s, rfl, hs⟩ : ∃ s, d = .str s ∧ ReadAsSource fd.tags.dflt s := by
    cases h2 with
    | @prim _ p _ _ ht' hl =>
      have hp : p = .string := by
        cases ht with
        | self => cases ht'; rfl
        | named hn =>
          cases ht' with
          | named hn' => rw [hn] at hn'; cases hn'; rfl
        | sel hn =>
          cases ht' with
          | sel hn' => rw [hn] at hn'; cases hn'; rfl
      exact lit hp hl
    | ptr _ => cases ht
    | named hn h' =>
      cases ht with
      | named hn' =>
        rw [hn] at hn'
        cases hn'
        cases h' with
        | prim ht' hl => cases ht'; exact lit rfl hl
  exact ⟨s, h1, hs⟩

/-- **C06.** … and that is the text itself, if it has no backslashes, line breaks and such.
Missing from the full property: texts with backslashes are changed
(`Examples.C06_backslash_default`). -/
theorem C06_text_default_partial {Γ : Env} {n : Nat} {strict : Bool} {fields : List FieldDecl}
    (hd : Γ.decl n = some (.struct strict fields)) {v : JV} {gs gs' : List GoVal}
    (h : Fills Γ n v (.struct gs) none (.struct gs')) {i : Nat} {fd : FieldDecl} (hi : fields[i]? = some fd)
    (hname : fd.tags.jsonName ≠ []) (hdash : fd.tags.jsonName ≠ str "-")
    (habs : v.get fd.tags.jsonName = none) (hdef : fd.tags.dflt ≠ []) (ht : IsPrim Γ fd.typ .string)
    (hq : QuotesPlainly fd.tags.dflt) : gs'[i]? = some (.str fd.tags.dflt) := by
  obtain ⟨s, h1, h2⟩ := C06_text_default_exact hd h hi hname hdash habs hdef ht
  rw [h1, readAsSource_unique h2 (readAsSource_plain hq)]

end

namespace Examples

/-- a struct with two string fields that have defaults -/
def textFields : List FieldDecl :=
  [⟨.prim .string, { jsonName := str "dir", dflt := str "C:\\temp" }⟩,
   ⟨.prim .string, { jsonName := str "say", dflt := str "a \"b\"" }⟩]

def textEnv : Env where
  decl := fun n => if n = 0 then some (.struct false textFields) else none
  ext := fun _ => .loop

section
variable [Ext]

set_option maxRecDepth 20000 in
/-- **C06 is false** for texts with backslashes: the default `C:\temp` (written
`default:"C:\\temp"`, as Go's tags have it) is read as `C:`, a tab and `emp`.  A default with
quotes is right. -/
theorem C06_backslash_default :
    Fills textEnv 0 (.obj []) (.struct [.str [], .str []]) none
      (.struct [.str (str "C:\temp"), .str (str "a \"b\"")]) ∧
    str "C:\temp" ≠ str "C:\\temp" := ⟨⟨5, rfl⟩, by decide⟩

end

/-- the hypotheses of the theorems above hold of both fields, the condition on the text of
the second only -/
example : IsPrim textEnv (.prim .string) .string ∧ (JV.obj []).get (str "say") = none ∧
    QuotesPlainly (str "a \"b\"") ∧ ¬ QuotesPlainly (str "C:\\temp") :=
  ⟨.self _, rfl, by refine ⟨?_, ?_, ?_, ?_⟩ <;> decide, fun h => absurd h.1 (by decide)⟩

/-- a tag with escapes: `json:"na\u006de" default:"C:\\temp\x21"` -/
def escapedTag : Str := str "json:\"na\\u006de\" default:\"C:\\\\temp\\x21\""

theorem escapedTag_pairs :
    TagPairs escapedTag [(str "json", str "name"), (str "default", str "C:\\temp!")] :=
  .cons 0 (key := str "json") (src := str "na\\u006de") (tagKey_of (by decide)) (unquote_iff.1 rfl)
    (.cons 1 (key := str "default") (src := str "C:\\\\temp\\x21") (tagKey_of (by decide)) (unquote_iff.1 rfl) (.nil 0))

/-- **C38**: escapes in a tag are read as Go reads them -/
theorem C38_escapes : (fieldTags (some ('`' :: escapedTag ++ ['`']))).jsonName = str "name" ∧
    (fieldTags (some ('`' :: escapedTag ++ ['`']))).dflt = str "C:\\temp!" := by
  have hj : TagSays [(str "json", str "name"), (str "default", str "C:\\temp!")] (str "json") (str "name") := .here
  have hd : TagSays [(str "json", str "name"), (str "default", str "C:\\temp!")] (str "default") (str "C:\\temp!") :=
    .later (by decide) .here
  simp only [fieldTags, parseRaw, RawTags.tags, structTag_raw, tagGet_says escapedTag_pairs hj, tagGet_says escapedTag_pairs hd]
  exact ⟨(beforeComma_iff _ _).2 ⟨by decide, .inl rfl⟩, (beforeComma_iff _ _).2 ⟨by decide, .inl rfl⟩⟩

end Examples

end VJ
