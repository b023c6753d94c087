import Verif.Model.Tags
import Verif.Spec.Tags
import Verif.Proof.GoText

/-!
# C38: field tags are read as Go reads them
-/

namespace VJ

theorem scanQuoted_plain {s : Str} (h : ∀ c ∈ s, c ≠ '"' ∧ c ≠ '\\') (t : Str) :
    scanQuoted (s ++ t) = (scanQuoted t).map fun (q, rest) => (s ++ q, rest) := by
  induction s with
  | nil => simp
  | cons c s ih =>
    have hc := h c (by simp)
    have hs := ih fun c' hc' => h c' (by simp [hc'])
    rw [List.cons_append, scanQuoted]
    · simp only [hc.1, if_false, hs, Option.map_map]
      rfl
    · rintro rfl; exact absurd rfl hc.2
    · rintro _ _ rfl; exact absurd rfl hc.2

theorem scanQuoted_escape {e : Str} {c : Char} (h : Escape e c) (t : Str) :
    scanQuoted ('\\' :: (e ++ t)) = (scanQuoted t).map fun (q, rest) => ('\\' :: (e ++ q), rest) := by
  obtain ⟨a, ds, rfl, hds⟩ : ∃ a ds, e = a :: ds ∧ ∀ c ∈ ds, c ≠ '"' ∧ c ≠ '\\' := by
    have dig : ∀ {b : Nat} {s : Str} {n : Nat}, DigitsOf b s n → ∀ c ∈ s, c ≠ '"' ∧ c ≠ '\\' := by
      intro b s n h c hc
      obtain ⟨d, hd, _⟩ := digits_char h c hc
      exact hexDigit_ne hd
    cases h with
    | octal hs hl _ =>
      match e, hl, dig hs with
      | [a, b, d], _, h => exact ⟨a, [b, d], rfl, fun c hc => h c (by simp at hc ⊢; exact .inr hc)⟩
    | hex hs _ _ => exact ⟨_, _, rfl, dig hs⟩
    | short hs _ _ => exact ⟨_, _, rfl, dig hs⟩
    | long hs _ _ => exact ⟨_, _, rfl, dig hs⟩
    | _ => exact ⟨_, [], rfl, by simp⟩
  rw [List.cons_append, scanQuoted, scanQuoted_plain hds, Option.map_map]
  rfl

theorem scanQuoted_value {src v : Str} (h : TagValue src v) (rest : Str) :
    scanQuoted (src ++ '"' :: rest) = some (src, rest) := by
  induction h with
  | nil => rfl
  | plain h1 h2 h3 _ ih =>
    rename_i c s _
    rw [List.cons_append]
    rw [scanQuoted]
    · simp [h1, ih]
    · rintro rfl; exact absurd rfl h2
    · rintro _ _ rfl; exact absurd rfl h2
  | escape he _ ih =>
    rw [List.cons_append, List.append_assoc, scanQuoted_escape he, ih]
    rfl

theorem unquote_value {src v : Str} (h : TagValue src v) : unquote src = some v := unquote_iff.2 h

theorem key_char {k : Str} (h : TagKey k) : ∀ c ∈ k, isTagKeyChar c = true := by
  intro c hc
  obtain ⟨h1, h2, h3, h4⟩ := h.2 c hc
  simp [isTagKeyChar, h1, h2, h3, h4]

theorem skip_spaces (n : Nat) (s : Str) (hs : s.head? ≠ some ' ') :
    (List.replicate n ' ' ++ s).dropWhile (· == ' ') = s := by
  induction n with
  | zero =>
    cases s with
    | nil => rfl
    | cons c s => simp at hs; simp [List.dropWhile, hs]
  | succ n ih => simpa [List.replicate_succ, List.dropWhile] using ih

theorem scanKey_key {k : Str} (h : TagKey k) (r : Str) :
    scanKey (k ++ ':' :: r) = (k, ':' :: r) := by
  have hk := key_char h
  have hc : isTagKeyChar ':' = false := by decide
  have h0 := h.1
  clear h h0
  induction k with
  | nil => simp [scanKey, hc]
  | cons c k ih =>
    have := ih (fun c hc => hk c (List.mem_cons_of_mem _ hc))
    simp only [scanKey, Prod.mk.injEq] at this ⊢
    simp [hk c (by simp), this.1, this.2]

theorem tagGet_spaces (key : Str) (n : Nat) : tagGet key (List.replicate n ' ') = [] := by
  rw [tagGet]
  have : (List.replicate n ' ').dropWhile (· == ' ') = [] := by
    have := skip_spaces n [] (by simp)
    simpa using this
  simp [this, scanKey]

theorem tagGet_cons (key : Str) (n : Nat) {k src v : Str} (rest : Str) (hk : TagKey k)
    (hv : TagValue src v) :
    tagGet key (List.replicate n ' ' ++ k ++ ':' :: '"' :: src ++ '"' :: rest)
      = if key = k then v else tagGet key rest := by
  rw [tagGet]
  have h1 : (List.replicate n ' ' ++ k ++ ':' :: '"' :: src ++ '"' :: rest).dropWhile (· == ' ')
      = k ++ ':' :: ('"' :: (src ++ '"' :: rest)) := by
    have := skip_spaces n (k ++ ':' :: ('"' :: (src ++ '"' :: rest))) (by
      cases k with
      | nil => simp
      | cons c k =>
        have := (hk.2 c (by simp)).1
        intro h
        simp at h
        subst h
        exact absurd this (by decide))
    simpa using this
  have h2 := scanKey_key hk ('"' :: (src ++ '"' :: rest))
  rw [← h1] at h2
  split
  · rename_i name body heq
    rw [h2] at heq
    simp only [Prod.mk.injEq, List.cons.injEq, true_and] at heq
    obtain ⟨rfl, rfl⟩ := heq
    rw [if_neg hk.1]
    split
    · rename_i hq
      rw [scanQuoted_value hv] at hq
      cases hq
    · rename_i q r hq
      rw [scanQuoted_value hv] at hq
      simp only [Option.some.injEq, Prod.mk.injEq] at hq
      obtain ⟨rfl, rfl⟩ := hq
      rw [unquote_value hv]
      rfl
  · rename_i hno
    exact absurd h2 (hno _ _)

/-- Reading a key of a well-formed tag gives the value the tag says. -/
theorem tagGet_says {text pairs key v} (h : TagPairs text pairs) (hs : TagSays pairs key v) :
    tagGet key text = v := by
  induction h with
  | nil n => cases hs; exact tagGet_spaces key n
  | cons n hk hv _ ih =>
    rw [tagGet_cons key n _ hk hv]
    cases hs with
    | here => simp
    | later hne hs => rw [if_neg (Ne.symm hne)]; exact ih hs

theorem tagSays_exists (pairs : List (Str × Str)) (key : Str) : ∃ v, TagSays pairs key v := by
  induction pairs with
  | nil => exact ⟨_, .nil⟩
  | cons p ps ih =>
    obtain ⟨k, w⟩ := p
    by_cases hk : k = key
    · subst hk; exact ⟨w, .here⟩
    · obtain ⟨v, hv⟩ := ih; exact ⟨v, .later hk hv⟩

theorem structTag_raw (text : Str) : structTag ('`' :: text ++ ['`']) = text := by
  have : ¬ ('`' :: text ++ ['`']).length < 2 := by simp
  have hl : ('`' :: text ++ ['`']).getLast? = some '`' := List.getLast?_concat ..
  rw [structTag, if_neg this, if_pos ⟨rfl, hl⟩]
  simp

theorem splitComma_ne (s : Str) : splitComma s ≠ [] := by
  cases s with
  | nil => simp [splitComma]
  | cons c s =>
    rw [splitComma]
    split
    · simp
    · split <;> simp

theorem splitComma_noComma {a : Str} (h : ',' ∉ a) : splitComma a = [a] := by
  induction a with
  | nil => rfl
  | cons c a ih =>
    simp only [List.mem_cons, not_or] at h
    rw [splitComma, if_neg (Ne.symm h.1), ih h.2]

theorem splitComma_comma {a : Str} (h : ',' ∉ a) (rest : Str) :
    splitComma (a ++ ',' :: rest) = a :: splitComma rest := by
  induction a with
  | nil => simp [splitComma]
  | cons c a ih =>
    simp only [List.mem_cons, not_or] at h
    rw [List.cons_append, splitComma, if_neg (Ne.symm h.1), ih h.2]

theorem comma_cases (v : Str) : ',' ∉ v ∨ ∃ a rest, ',' ∉ a ∧ v = a ++ ',' :: rest := by
  induction v with
  | nil => left; simp
  | cons c v ih =>
    by_cases hc : c = ','
    · subst hc; exact .inr ⟨[], v, by simp, rfl⟩
    · rcases ih with ih | ⟨a, r, ha, rfl⟩
      · left; simp [ih, Ne.symm hc]
      · exact .inr ⟨c :: a, r, by simp [ha, Ne.symm hc], rfl⟩

theorem beforeComma_iff (v a : Str) : (splitComma v)[0]?.getD [] = a ↔ BeforeComma v a := by
  constructor
  · rintro rfl
    rcases comma_cases v with h | ⟨a, r, ha, rfl⟩
    · rw [splitComma_noComma h]; exact ⟨h, .inl rfl⟩
    · rw [splitComma_comma ha]; exact ⟨ha, .inr ⟨r, rfl⟩⟩
  · rintro ⟨ha, rfl | ⟨r, rfl⟩⟩
    · rw [splitComma_noComma ha]; rfl
    · rw [splitComma_comma ha]; rfl

theorem firstOption_iff (v b : Str) : (splitComma v)[1]?.getD [] = b ↔ FirstOption v b := by
  have key : ∀ r : Str, (splitComma r)[0]?.getD [] = b ↔ BeforeComma r b :=
    fun r => beforeComma_iff r b
  constructor
  · intro h
    rcases comma_cases v with hv | ⟨a, r, ha, rfl⟩
    · rw [splitComma_noComma hv] at h
      exact .inl ⟨hv, h.symm⟩
    · rw [splitComma_comma ha] at h
      exact .inr ⟨a, r, ha, rfl, (key r).1 (by simpa using h)⟩
  · rintro (⟨hv, rfl⟩ | ⟨a, r, ha, rfl, hb⟩)
    · rw [splitComma_noComma hv]; rfl
    · rw [splitComma_comma ha]
      have := (key r).2 hb
      simpa using this

/-- **C38.** For every well-formed tag written between backquotes: the JSON name is the
text before the first comma of the `json` value, the only option looked at is the one
straight after it, and the default and the layout are the text before the first comma of
theirs.

Missing from the full property: a tag may also be written as an interpreted string, in
double quotes; those are ignored altogether (`Examples.C38_double_quoted_tag_lost`). -/
theorem C38_field_tags_partial {text pairs json layout dflt}
    (h : TagPairs text pairs) (hj : TagSays pairs (str "json") json)
    (hl : TagSays pairs (str "layout") layout) (hd : TagSays pairs (str "default") dflt) :
    BeforeComma json (fieldTags (some ('`' :: text ++ ['`']))).jsonName ∧
    FirstOption json (fieldTags (some ('`' :: text ++ ['`']))).appendix ∧
    BeforeComma layout (fieldTags (some ('`' :: text ++ ['`']))).layout ∧
    BeforeComma dflt (fieldTags (some ('`' :: text ++ ['`']))).dflt := by
  simp only [fieldTags, parseRaw, RawTags.tags, structTag_raw, tagGet_says h hj,
    tagGet_says h hl, tagGet_says h hd]
  exact ⟨(beforeComma_iff _ _).1 rfl, (firstOption_iff _ _).1 rfl, (beforeComma_iff _ _).1 rfl,
    (beforeComma_iff _ _).1 rfl⟩

/-- **C38.** `omitempty` is recognised exactly when it is the first option after the name,
and so is `required`. -/
theorem C38_options_partial {text pairs json}
    (h : TagPairs text pairs) (hj : TagSays pairs (str "json") json) :
    ((fieldTags (some ('`' :: text ++ ['`']))).omitempty = true
      ↔ FirstOption json (str "omitempty")) ∧
    ((fieldTags (some ('`' :: text ++ ['`']))).required = true
      ↔ FirstOption json (str "required")) := by
  simp only [Tags.omitempty, Tags.required, beq_iff_eq, fieldTags, parseRaw, RawTags.tags,
    structTag_raw, tagGet_says h hj]
  exact ⟨firstOption_iff _ _, firstOption_iff _ _⟩

/-- **C38.** What a tag says about other keys, and everything after the first option, makes
no difference. -/
theorem C38_only_these {text text' pairs pairs' json layout dflt}
    (h : TagPairs text pairs) (h' : TagPairs text' pairs')
    (hj : TagSays pairs (str "json") json) (hj' : TagSays pairs' (str "json") json)
    (hl : TagSays pairs (str "layout") layout) (hl' : TagSays pairs' (str "layout") layout)
    (hd : TagSays pairs (str "default") dflt) (hd' : TagSays pairs' (str "default") dflt) :
    fieldTags (some ('`' :: text ++ ['`'])) = fieldTags (some ('`' :: text' ++ ['`'])) := by
  simp only [fieldTags, parseRaw, structTag_raw, tagGet_says h hj, tagGet_says h hl,
    tagGet_says h hd, tagGet_says h' hj', tagGet_says h' hl', tagGet_says h' hd']

namespace Examples

theorem tagKey_of {k : Str} (h : k.isEmpty = false ∧ k.all isTagKeyChar = true) : TagKey k := by
  refine ⟨by cases k <;> simp_all, fun c hc => ?_⟩
  have := List.all_eq_true.1 h.2 c hc
  simp [isTagKeyChar] at this
  exact ⟨this.1.1.1, this.1.1.2, this.1.2, this.2⟩

/-- A text without quotes, backslashes and newlines stands for itself. -/
theorem tagValue_self {s : Str}
    (h : s.all (fun c => c != '"' && c != '\\' && c != '\n') = true) : TagValue s s := by
  induction s with
  | nil => exact .nil
  | cons c s ih =>
    simp only [List.all_cons, Bool.and_eq_true, bne_iff_ne, ne_eq] at h
    exact .plain h.1.1.1 h.1.1.2 h.1.2 (ih h.2)

def tagText : Str := str "json:\"age,omitempty\"  default:\"1,5\""

/-- The hypotheses of the theorems above hold of an ordinary tag. -/
theorem tagText_pairs :
    TagPairs tagText [(str "json", str "age,omitempty"), (str "default", str "1,5")] :=
  .cons 0 (key := str "json") (src := str "age,omitempty") (tagKey_of (by decide))
    (tagValue_self (by decide))
    (.cons 2 (key := str "default") (src := str "1,5") (tagKey_of (by decide))
      (tagValue_self (by decide)) (.nil 0))

example : TagSays [(str "json", str "age,omitempty"), (str "default", str "1,5")]
    (str "default") (str "1,5") := .later (by decide) .here

/-- The tag of the example is read so: the name, the option, and a default cut short at its
comma. -/
theorem C38_age : BeforeComma (str "age,omitempty") (str "age") ∧
    FirstOption (str "age,omitempty") (str "omitempty") ∧
    (fieldTags (some ('`' :: tagText ++ ['`']))).dflt = str "1" := by
  refine ⟨⟨by decide, .inr ⟨str "omitempty", rfl⟩⟩,
    .inr ⟨str "age", str "omitempty", by decide, rfl, by decide, .inl rfl⟩, ?_⟩
  have hd : TagSays [(str "json", str "age,omitempty"), (str "default", str "1,5")]
      (str "default") (str "1,5") := .later (by decide) .here
  simp only [fieldTags, parseRaw, RawTags.tags, structTag_raw, tagGet_says tagText_pairs hd]
  exact (beforeComma_iff _ _).2 ⟨by decide, .inr ⟨str "5", rfl⟩⟩

/-- The full property fails: the same tag written in double quotes, as Go allows, is read
as if there were none. -/
theorem C38_double_quoted_tag_lost :
    fieldTags (some (str "\"json:\\\"age,omitempty\\\"\"")) = fieldTags (some (str "``")) := by
  have h1 : structTag (str "\"json:\\\"age,omitempty\\\"\"") = [] := by decide
  have h2 : structTag (str "``") = [] := by decide
  simp only [fieldTags, parseRaw, h1, h2]

/-- `omitempty` in second place, where the standard library honours it, is not seen. -/
theorem C38_second_option_unseen :
    (fieldTags (some ('`' :: str "json:\"age,string,omitempty\"" ++ ['`']))).omitempty = false := by
  have hp : TagPairs (str "json:\"age,string,omitempty\"")
      [(str "json", str "age,string,omitempty")] :=
    .cons 0 (key := str "json") (src := str "age,string,omitempty") (tagKey_of (by decide))
      (tagValue_self (by decide)) (.nil 0)
  rw [Bool.eq_false_iff]
  intro h
  rcases (C38_options_partial hp .here).1.1 h with ⟨_, h⟩ | ⟨a, rest, ha, he, hb⟩
  · cases h
  · have h1 : (splitComma (str "age,string,omitempty"))[1]?.getD [] = str "string" := by decide
    have h2 := (firstOption_iff _ _).2
      (.inr ⟨a, rest, ha, he, hb⟩ : FirstOption (str "age,string,omitempty") (str "omitempty"))
    rw [h1] at h2
    exact absurd h2 (by decide)

end Examples

end VJ
