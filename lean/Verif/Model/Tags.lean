import Verif.Model.Types
import Verif.Model.GoText

/-!
# Field tags: from the text of a tag to what the generator keeps of it
-/

namespace VJ

/-- `strings.Split(s, ",")` (tags/tags.go:74-76): the parts between commas; one empty part
for the empty string. -/
def splitComma : Str → List Str
  | [] => [[]]
  | c :: s =>
    if c = ',' then [] :: splitComma s
    else match splitComma s with
      | p :: ps => (c :: p) :: ps
      | [] => [[c]]

/-- The characters `reflect.StructTag.Lookup` accepts in a key: above space, and not a
colon, a quote or DEL. -/
def isTagKeyChar (c : Char) : Bool :=
  ' ' < c && c != ':' && c != '"' && c != Char.ofNat 0x7f

/-- The inner loop of `reflect.StructTag.Lookup`: the source text up to the closing quote,
skipping whatever follows a backslash, and the text after that quote. -/
def scanQuoted : Str → Option (Str × Str)
  | [] => none
  | ['\\'] => none
  | '\\' :: c :: r => (scanQuoted r).map fun (q, rest) => ('\\' :: c :: q, rest)
  | c :: r => if c = '"' then some ([], r) else (scanQuoted r).map fun (q, rest) => (c :: q, rest)

/-- The text of a key and what follows it. -/
def scanKey (s : Str) : Str × Str := (s.takeWhile isTagKeyChar, s.dropWhile isTagKeyChar)

theorem scanQuoted_shorter {s q r : Str} (h : scanQuoted s = some (q, r)) :
    r.length < s.length := by
  fun_induction scanQuoted s generalizing q r with
  | case1 => cases h
  | case2 => cases h
  | case3 c r ih =>
    simp only [Option.map_eq_some_iff, Prod.exists, Prod.mk.injEq] at h
    obtain ⟨q', r', h1, _, rfl⟩ := h
    have := ih h1
    simp only [List.length_cons]
    omega
  | case4 r => cases h; simp
  | case5 c r hc _ hne ih =>
    simp only [Option.map_eq_some_iff, Prod.exists, Prod.mk.injEq] at h
    obtain ⟨q', r', h1, _, rfl⟩ := h
    have := ih h1
    simp only [List.length_cons]
    omega

theorem length_dropWhile_le (p : Char → Bool) (s : Str) : (s.dropWhile p).length ≤ s.length :=
  (List.dropWhile_sublist p).length_le

/-- `reflect.StructTag.Get` (Go standard library, `Lookup`), called by tags/tags.go:74-76:
skip spaces, read a key, a colon and a quoted value; stop at the first thing that is not of
that form; the answer is the value of the first pair with the key, or the empty string. -/
def tagGet (key tag : Str) : Str :=
  match h : scanKey (tag.dropWhile (· == ' ')) with
  | (name, ':' :: '"' :: body) =>
    if name = [] then []
    else match hq : scanQuoted body with
      | none => []
      | some (quoted, rest) =>
        if key = name then (unquote quoted).getD []
        else tagGet key rest
  | _ => []
termination_by tag.length
decreasing_by
  have h1 := scanQuoted_shorter hq
  have h2 : (List.dropWhile isTagKeyChar (tag.dropWhile (· == ' '))) = ':' :: '"' :: body := by
    have := congrArg Prod.snd h
    simpa [scanKey] using this
  have h3 := length_dropWhile_le isTagKeyChar (tag.dropWhile (· == ' '))
  have h4 := length_dropWhile_le (· == ' ') tag
  rw [h2] at h3
  simp only [List.length_cons] at h3
  omega

/-- `StructTag` (tags/tags.go:80-88): the text between two backquotes; anything else,
a tag written with double quotes included, counts as empty. -/
def structTag (tag : Str) : Str :=
  if tag.length < 2 then []
  else if tag.head? = some '`' ∧ tag.getLast? = some '`' then (tag.drop 1).dropLast
  else []

/-- `Tags` (tags/tags.go:20): a map with the keys `json`, `layout` and `default`. -/
structure RawTags where
  json : List Str
  layout : List Str
  dflt : List Str

/-- `Parse` (tags/tags.go:72-78). -/
def parseRaw (tag : Str) : RawTags where
  json := splitComma (tagGet (str "json") (structTag tag))
  layout := splitComma (tagGet (str "layout") (structTag tag))
  dflt := splitComma (tagGet (str "default") (structTag tag))

/-- `JsonName` (tags/tags.go:22-30), `JsonAppendix` (32-40), `DefaultValue` (52-60) and
`Layout` (62-70), as the rest of the model keeps them. -/
def RawTags.tags (t : RawTags) : Tags where
  jsonName := t.json[0]?.getD []
  appendix := t.json[1]?.getD []
  dflt := t.dflt[0]?.getD []
  layout := t.layout[0]?.getD []

/-- The tags of a field (field/fields.go:47-50, struct.go:74-77, 129-132,
analyse.go:222-224): `tags.Parse` of its tag, or no tags at all. -/
def fieldTags : Option Str → Tags
  | none => {}
  | some tag => (parseRaw tag).tags

end VJ
