import Verif.Spec.Errors
import Verif.Spec.TextApi
import Verif.Proof.Codecs
import Verif.Proof.ParseLoose
import Verif.Props.Total

/-!
# C02, C20, C27–C30, C41, C42: texts
-/

namespace VJ
set_option linter.unusedSectionVars false

section
variable [Ext]

/-! ## From text to documents -/

/-- Every JSON text nested at most 300 deep reaches the decoder as the document it denotes. -/
theorem unmarshals_document {Γ : Env} {n : Nat} {data : Str} {v : JV} (hd : Document v data) (hdep : DepthLe 300 v)
    {s s' : GoVal} {e : Option Err} : Unmarshals Γ n data s e s' ↔ Fills Γ n v s e s' := by
  unfold Unmarshals Fills unmarshalJSON
  rw [parseBytes_document hd hdep]

/-- A text reaches the decoder exactly as the grammar reads it. -/
theorem unmarshals_loose {Γ : Env} {n : Nat} {data : Str} {v : JV} (hd : LooseDocument v data)
    {s s' : GoVal} {e : Option Err} : Unmarshals Γ n data s e s' ↔ Fills Γ n v s e s' := by
  unfold Unmarshals Fills unmarshalJSON
  rw [parseBytes_iff.2 hd]

omit [Ext] in
theorem notJSON_iff {data : Str} : NotJSON data ↔ parseBytes data = none := by
  constructor
  · intro h
    cases hp : parseBytes data with
    | none => rfl
    | some v => exact absurd (parseBytes_iff.1 hp) (h v)
  · intro h v hv
    rw [parseBytes_iff.2 hv] at h
    cases h

omit [Ext] in
/-- a text is read in one way at most -/
theorem looseDocument_unique {v v' : JV} {s : Str} (h : LooseDocument v s) (h' : LooseDocument v' s) : v = v' := by
  have := parseBytes_iff.2 h
  rw [parseBytes_iff.2 h'] at this
  cases this; rfl

/-- **C02.**  Bytes that are not JSON are rejected and leave the receiver as it was. -/
theorem C02_not_json {Γ : Env} {n : Nat} {data : Str} (hd : NotJSON data) {s s' : GoVal} {e : Option Err}
    (h : Unmarshals Γ n data s e s') : e = some ⟨none, .notJSON⟩ ∧ s' = s := by
  obtain ⟨k, h⟩ := h
  simp only [unmarshalJSON, notJSON_iff.1 hd, Out.ok.injEq, Prod.mk.injEq] at h
  exact ⟨h.1.symm, h.2.symm⟩

/-- **C02, in full**: whenever the bytes are not JSON or the document is not acceptable, the
decode fails and the receiver is exactly what it was. -/
theorem C02_rejected_untouched {Γ : Env} {n : Nat} {strict : Bool} {fields : List FieldDecl}
    (hd : Γ.decl n = some (.struct strict fields)) {data : Str}
    (hbad : NotJSON data ∨ ∃ v, LooseDocument v data ∧ ¬ Acceptable (jsonNames fields) strict v)
    {s s' : GoVal} {e : Option Err} (h : Unmarshals Γ n data s e s') : e ≠ none ∧ s' = s := by
  rcases hbad with hbad | ⟨v, h1, h3⟩
  · obtain ⟨rfl, rfl⟩ := C02_not_json hbad h
    exact ⟨by simp, rfl⟩
  · obtain ⟨rfl, err, rfl, _⟩ := C01_rejected hd h3 ((unmarshals_loose h1).1 h)
    exact ⟨by simp, rfl⟩

/-- **C20 on text, every outcome**: for every input text, JSON or not, `UnmarshalJSON` returns and
leaves a value of the type, or it panics, and then the text has too long a base64 string for a
fixed-length byte array. -/
theorem C20_unmarshal_outcomes {Γ : Env} {X : Nat → GoVal → Prop} {S : Nat → Prop} (hP : Package Γ X S)
    {n : Nat} (hn : S n) (data : Str) {old : GoVal} (hold : HasType Γ X (.named n) old) :
    (∃ e new, Unmarshals Γ n data old e new ∧ HasType Γ X (.named n) new) ∨
    (UnmarshalPanics Γ n data old ∧ ∃ v, LooseDocument v data ∧ Overflows Γ (.named n) v) := by
  cases hp : parseBytes data with
  | none => exact Or.inl ⟨_, old, ⟨0, by simp [unmarshalJSON, hp]; rfl⟩, hold⟩
  | some v =>
    rcases C20_outcomes hP hn v hold with ⟨e, new, ⟨k, hk⟩, h2⟩ | ⟨⟨_, k, hk⟩, ho⟩
    · exact Or.inl ⟨e, new, ⟨k, by simp [unmarshalJSON, hp, hk]⟩, h2⟩
    · exact Or.inr ⟨⟨k, by simp [unmarshalJSON, hp, hk]⟩, v, parseBytes_iff.1 hp, ho⟩

/-- the two outcomes exclude each other -/
theorem unmarshalPanics_excl {Γ : Env} {n : Nat} {data : Str} {old new : GoVal} {e : Option Err} (h : UnmarshalPanics Γ n data old)
    (h' : Unmarshals Γ n data old e new) : False := by
  obtain ⟨k, hk⟩ := h
  obtain ⟨k', hk'⟩ := h'
  simp only [unmarshalJSON] at hk hk'
  cases hp : parseBytes data with
  | none => rw [hp] at hk; cases hk
  | some v =>
    rw [hp] at hk hk'
    cases fillsTo_unique (Γ := Γ) (n := n) ⟨by simp, k, hk⟩ ⟨by simp, k', hk'⟩

/-- **C20 on text, the only panic**: a text that makes `UnmarshalJSON` panic is JSON with too long
a base64 string for a fixed-length byte array. -/
theorem C20_unmarshal_only_panic {Γ : Env} {X : Nat → GoVal → Prop} {S : Nat → Prop} (hP : Package Γ X S)
    {n : Nat} (hn : S n) {data : Str} {old : GoVal} (hold : HasType Γ X (.named n) old) (h : UnmarshalPanics Γ n data old) :
    ∃ v, LooseDocument v data ∧ Overflows Γ (.named n) v := by
  rcases C20_unmarshal_outcomes hP hn data hold with ⟨e, new, h1, _⟩ | ⟨_, ho⟩
  · exact (unmarshalPanics_excl h h1).elim
  · exact ho

/-- **C20 on text, partial** (no fixed-length byte arrays): `UnmarshalJSON` returns for every
input text, JSON or not. -/
theorem C20_unmarshal_returns_partial {Γ : Env} {X : Nat → GoVal → Prop} {S : Nat → Prop} (hP : Package Γ X S)
    (hF : NoFixedBytes Γ S) {n : Nat} (hn : S n) (data : Str) {old : GoVal} (hold : HasType Γ X (.named n) old) :
    ∃ e new, Unmarshals Γ n data old e new ∧ HasType Γ X (.named n) new := by
  cases hp : parseBytes data with
  | none => exact ⟨_, old, ⟨0, by simp [unmarshalJSON, hp]; rfl⟩, hold⟩
  | some v =>
    obtain ⟨e, new, ⟨k, hk⟩, h2⟩ := C20_decode_returns_partial hP hF hn v hold
    exact ⟨e, new, ⟨k, by simp [unmarshalJSON, hp, hk]⟩, h2⟩

/-! ## C27: strings -/

omit [Ext] in
/-- **C27, lossless.**  The literal written for a string is a JSON text that denotes it, and the
parser gives it back. -/
theorem C27_lossless (s : Str) : Json (.str s) (jsonStr s) ∧ parseBytes (jsonStr s) = some (.str s) :=
  ⟨jsonStr_json s, parseBytes_document ⟨[], jsonStr s, [], by simp, by simp [Ws], by simp [Ws], jsonStr_json s⟩ (.str _ s)⟩

omit [Ext] in
/-- different strings are written differently -/
theorem C27_injective {s t : Str} (h : jsonStr s = jsonStr t) : s = t := by
  have := (C27_lossless s).2
  rw [h, (C27_lossless t).2] at this
  cases this; rfl

omit [Ext] in
theorem escChar_chars (c : Char) : ∀ x ∈ escChar c, 32 ≤ x.toNat ∧ x ≠ '<' ∧ x ≠ '>' ∧ x ≠ '&' ∧ x.toNat ≠ 0x2028 ∧ x.toNat ≠ 0x2029 := by
  have hex : ∀ n < 16, 32 ≤ (hexChar n).toNat ∧ hexChar n ≠ '<' ∧ hexChar n ≠ '>' ∧ hexChar n ≠ '&' ∧ (hexChar n).toNat ≠ 0x2028 ∧ (hexChar n).toNat ≠ 0x2029 := by decide
  unfold escChar
  intro x hx
  split at hx
  · simp at hx; rcases hx with rfl | rfl <;> decide
  · split at hx
    · simp at hx; rcases hx with rfl | rfl <;> decide
    · split at hx
      · simp at hx; rcases hx with rfl | rfl <;> decide
      · split at hx
        · simp at hx; subst hx; decide
        · split at hx
          · simp at hx; rcases hx with rfl | rfl <;> decide
          · split at hx
            · rename_i h
              have hlt : c.toNat < 128 := by
                rcases h with h | rfl | rfl | rfl
                · omega
                · decide
                · decide
                · decide
              simp at hx
              rcases hx with rfl | rfl | rfl | rfl | rfl
              · decide
              · decide
              · decide
              · exact hex _ (by omega)
              · exact hex _ (by omega)
            · rename_i h
              split at hx
              · simp at hx
                rcases hx with rfl | rfl | rfl | rfl | rfl | rfl
                · decide
                · decide
                · decide
                · decide
                · decide
                · exact hex _ (by omega)
              · rename_i h'
                simp at hx
                subst hx
                simp only [not_or] at h h'
                exact ⟨by omega, h.2.2.1, h.2.2.2, h.2.1, h'.1, h'.2⟩

omit [Ext] in
/-- **C27, safe.**  Between the quotes there is no control character, no `<`, `>`, `&` and no
line or paragraph separator, and the characters are those of a JSON string literal: no quote
or backslash that is not part of an escape. -/
theorem C27_safe (s : Str) : ∃ body, jsonStr s = '"' :: (body ++ ['"']) ∧ StrText s body ∧
    ∀ c ∈ body, 32 ≤ c.toNat ∧ c ≠ '<' ∧ c ≠ '>' ∧ c ≠ '&' ∧ c.toNat ≠ 0x2028 ∧ c.toNat ≠ 0x2029 := by
  refine ⟨escBody s, rfl, escBody_text s, ?_⟩
  induction s with
  | nil => intro c h; simp [escBody] at h
  | cons c cs ih =>
    intro x hx
    simp only [escBody, List.mem_append] at hx
    rcases hx with hx | hx
    · exact escChar_chars c x hx
    · exact ih x hx

/-! ## C29: base64 -/

omit [Ext] in
/-- **C29, texts.**  The decoder reads a text as bytes exactly when the text, without its line
breaks, is padded base64 for them; what the encoder writes is such a text. -/
theorem C29_base64 (b : List UInt8) (s : Str) :
    (Base64Text s b ↔ B64 (withoutBreaks s) b) ∧ B64 (b64Encode b) b ∧ Base64Text (b64Encode b) b :=
  ⟨base64Text_iff, b64_encode_B64 b, base64Text_encode b⟩

/-- **C29, byte slices.**  A byte-slice field takes a text exactly when it is base64, and then
holds the bytes. -/
theorem C29_bytes_field {Γ : Env} {n : Nat} {doc : JV} {s : Str} {fd : FieldDecl} {old new : GoVal}
    (h : FieldAfter Γ n doc fd old new) (hn : fd.tags.jsonName ≠ str "-") (hn' : fd.tags.jsonName ≠ [])
    (ht : Is Γ fd.typ (.slice (.prim .byte))) (hw : doc.get fd.tags.jsonName = some (.str s)) :
    ∃ b, new = .bytes b ∧ B64 (withoutBreaks s) b := by
  obtain ⟨strict, fields, gs, gs', i, hd, hi, ho, hnew, hf⟩ := h
  have hk : KeepsErrors Γ (pointee fd.typ) := by
    rw [is_pointee ht (by simp)]
    refine .mk ?_ ?_
    · rintro elt (h' | ⟨n, h'⟩)
      · have := is_unique ht h' (by simp) (by simp) (by simp) (by simp) (by simp) (by simp)
        cases this
        simp only [LosesErrors, pointee]
        rintro (h | h | ⟨_, h⟩) <;> cases h
      · have := is_unique ht h' (by simp) (by simp) (by simp) (by simp) (by simp) (by simp)
        cases this
    · intro elt h'
      have : elt = .prim .byte := hasElem_unique h' (Or.inl ht)
      subst this
      exact keepsErrors_prim (.self _)
  obtain ⟨old', _, hdec, _⟩ := field_decoded hd hf hi hk hnew hn (Or.inr ⟨hn', hw⟩) (by intro _ h; cases h)
  rcases decodes_bytes_inv ht hdec with ⟨h, _⟩ | ⟨s', b, h1, h2, h3⟩
  · cases h
  · cases h1
    exact ⟨b, h2, base64Text_iff.1 h3⟩

/-- **C29, fixed arrays.**  A field `[N]byte` takes a text only if it is base64 for exactly `N`
bytes. -/
theorem C29_fixed_field {Γ : Env} {n len : Nat} {doc : JV} {s : Str} {fd : FieldDecl} {old new : GoVal}
    (h : FieldAfter Γ n doc fd old new) (hn : fd.tags.jsonName ≠ str "-") (hn' : fd.tags.jsonName ≠ [])
    (ht : Is Γ fd.typ (.array len (.prim .byte))) (hw : doc.get fd.tags.jsonName = some (.str s)) :
    ∃ b, new = .barr b ∧ b.length = len ∧ B64 (withoutBreaks s) b := by
  obtain ⟨strict, fields, gs, gs', i, hd, hi, ho, hnew, hf⟩ := h
  have hk : KeepsErrors Γ (pointee fd.typ) := by
    rw [is_pointee ht (by simp)]
    refine .mk ?_ ?_
    · rintro elt (h' | ⟨n, h'⟩)
      · have := is_unique ht h' (by simp) (by simp) (by simp) (by simp) (by simp) (by simp)
        cases this
      · have := is_unique ht h' (by simp) (by simp) (by simp) (by simp) (by simp) (by simp)
        cases this
        simp only [LosesErrors, pointee]
        rintro (h | h | ⟨_, h⟩) <;> cases h
    · intro elt h'
      have : elt = .prim .byte := hasElem_unique h' (Or.inr (Or.inl ⟨_, ht⟩))
      subst this
      exact keepsErrors_prim (.self _)
  obtain ⟨old', _, hdec, _⟩ := field_decoded hd hf hi hk hnew hn (Or.inr ⟨hn', hw⟩) (by intro _ h; cases h)
  rcases decodes_fixedBytes_inv ht hdec with ⟨h, _⟩ | ⟨s', b, h1, h2, h3, h4⟩
  · cases h
  · cases h1
    exact ⟨b, h2, h4, base64Text_iff.1 h3⟩

/-! ## C30: UUIDs -/

omit [Ext] in
/-- **C30.**  The text written for a UUID is its canonical lower-case text; it is read back as the same UUID;
and exactly the texts of `ReadsUUID` are read at all. -/
theorem C30_uuid {b : List UInt8} (h : b.length = 16) :
    UUIDText (uuidText b) b ∧ LowerCase (uuidText b) ∧ parseUUID (uuidText b) = some b ∧
    (∀ s b', parseUUID s = some b' ↔ ReadsUUID s b') :=
  ⟨(uuidText_text h).1, (uuidText_text h).2, parseUUID_text (uuidText_text h).1, fun _ _ => parseUUID_iff⟩

/-- **C30, acceptance**: a struct with one UUID field takes every text of a UUID, in any of its spellings. -/
theorem C30_accepts {Γ : Env} {m : Nat} {doc : JV} {fd : FieldDecl} {s : Str} {b : List UInt8}
    (hd : SingleField Γ m fd) (hdec : HasDecoder Γ m) (hn : fd.tags.jsonName ≠ str "-") (hn' : fd.tags.jsonName ≠ [])
    (ht : fd.typ = .uuid) (hacc : Acceptable [fd.tags.jsonName] false doc)
    (hw : doc.get fd.tags.jsonName = some (.str s)) (hr : ReadsUUID s b) (old : GoVal) :
    Fills Γ m doc (.struct [old]) none (.struct [.uuid b]) := by
  refine single_decoded hd hdec hn hacc (Or.inr ⟨hn', hw⟩) (by intro _ h; cases h) ?_ ?_
  · rw [ht]; exact .uuid (.self _) hr
  · intro p raw _ h; cases h

/-- **C30, fields.**  A UUID field that is decoded from a string holds the UUID that the string spells (in whichever spelling), and
then the string does spell one. -/
theorem C30_field {Γ : Env} {n : Nat} {doc : JV} {s : Str} {b : List UInt8} {fd : FieldDecl} {old new : GoVal}
    (h : FieldAfter Γ n doc fd old new) (hn : fd.tags.jsonName ≠ str "-") (hn' : fd.tags.jsonName ≠ [])
    (ht : Is Γ fd.typ .uuid) (hw : doc.get fd.tags.jsonName = some (.str s)) : ReadsUUID s b ↔ new = .uuid b := by
  obtain ⟨strict, fields, gs, gs', i, hd, hi, ho, hnew, hf⟩ := h
  have hk : KeepsErrors Γ (pointee fd.typ) := by
    rw [is_pointee ht (by simp)]
    refine keepsErrors_leaf ?_
    rintro elt (h' | ⟨n, h'⟩ | h')
    all_goals
      have := is_unique ht h' (by simp) (by simp) (by simp) (by simp) (by simp) (by simp)
      cases this
  obtain ⟨old', _, hdec, _⟩ := field_decoded hd hf hi hk hnew hn (Or.inr ⟨hn', hw⟩) (by intro _ h; cases h)
  obtain ⟨s', b', h1, h2, h3⟩ := decodes_uuid_inv ht hdec
  cases h1
  subst h2
  refine ⟨fun hs => by rw [readsUUID_unique hs h3], fun hb => ?_⟩
  cases hb
  exact h3

/-! ## C41: error paths -/

/-- wrapping an error with several path components, the last one first -/
def wrapAll : List Str → Option Err → Option Err
  | [], e => e
  | p :: ps, e => newParsingError? p (wrapAll ps e)

omit [Ext] in
/-- **C41.**  Wrapping no error any number of times gives no error. -/
theorem C41_no_error (ps : List Str) : wrapAll ps none = none := by
  induction ps with
  | nil => rfl
  | cons p ps ih => simp [wrapAll, ih, newParsingError?]

omit [Ext] in
/-- **C41.**  Wrapping an error keeps the cause; its path is the components joined with dots,
followed by a dot and the path the error already had. -/
theorem C41_paths (p : Str) (ps : List Str) (e : Err) :
    wrapAll (p :: ps) (some e) = some ⟨some (match e.path with
      | none => dotted (p :: ps)
      | some q => dotted (p :: ps) ++ '.' :: q), e.cause⟩ := by
  induction ps generalizing p with
  | nil =>
    obtain ⟨path, cause⟩ := e
    cases path <;> rfl
  | cons q ps ih =>
    rw [wrapAll, ih q]
    obtain ⟨path, cause⟩ := e
    cases path <;> simp [newParsingError?, newParsingError, dotted]

/-! ## C42: date-time layouts -/

/-- **C42, reading.**  What a time field holds after a successful decode is the member's text
read under the layout tag; without one, under the first of the four documented layouts that
takes it. -/
theorem C42_read {Γ : Env} {n : Nat} {doc w : JV} {fd : FieldDecl} {old new : GoVal}
    (h : FieldAfter Γ n doc fd old new) (hn : fd.tags.jsonName ≠ str "-") (hn' : fd.tags.jsonName ≠ [])
    (ht : Is Γ (pointee fd.typ) .time) (hw : doc.get fd.tags.jsonName = some w) (hnn : (∃ u, fd.typ = .star u) → w ≠ .null) :
    ∃ s t, w = .str s ∧ Holds fd.typ new (.time t) ∧ ReadsTime fd.tags.layout s t := by
  obtain ⟨strict, fields, gs, gs', i, hd, hi, ho, hnew, hf⟩ := h
  have hnl : fd.typ.nullLike = true → w ≠ .null := by
    intro hnl
    cases htyp : fd.typ with
    | star u => exact hnn ⟨u, htyp⟩
    | _ => rw [htyp] at ht hnl; first | (simp [TExpr.nullLike] at hnl; done) | cases ht
  have hk : KeepsErrors Γ (pointee fd.typ) := by
    refine keepsErrors_leaf ?_
    rintro elt (h' | ⟨n, h'⟩ | h')
    all_goals
      have := is_unique ht h' (by simp) (by simp) (by simp) (by simp) (by simp) (by simp)
      cases this
  obtain ⟨old', _, hdec, _⟩ := field_decoded hd hf hi hk hnew hn (Or.inr ⟨hn', hw⟩) hnl
  cases htyp : fd.typ with
  | star u =>
    rw [htyp] at hdec ht
    obtain ⟨x, rfl, hx⟩ := decodes_star_inv hdec
    cases hx with
    | call hc =>
      have := calls_final hc
      rw [show resolve2 Γ (resolve Γ u) = _ from is_resolve ht (by simp) (by simp) (by simp)] at this
      simp at this
    | other _ h =>
      obtain ⟨s, t, h1, h2, h3⟩ := decodes_time_inv ht (h .nil)
      exact ⟨s, t, h1, by rw [h2]; rfl, h3⟩
  | _ =>
    rw [htyp] at hdec ht
    obtain ⟨s, t, h1, h2, h3⟩ := decodes_time_inv ht hdec
    exact ⟨s, t, h1, h2, h3⟩

/-- **C42, acceptance**: every text that reads as a time is taken. -/
theorem C42_accepts {Γ : Env} {m : Nat} {doc : JV} {fd : FieldDecl} {s : Str} {t : Time}
    (hd : SingleField Γ m fd) (hdec : HasDecoder Γ m) (hn : fd.tags.jsonName ≠ str "-") (hn' : fd.tags.jsonName ≠ [])
    (ht : fd.typ = .time) (hacc : Acceptable [fd.tags.jsonName] false doc)
    (hw : doc.get fd.tags.jsonName = some (.str s)) (hr : ReadsTime fd.tags.layout s t) (old : GoVal) :
    Fills Γ m doc (.struct [old]) none (.struct [.time t]) := by
  refine single_decoded hd hdec hn hacc (Or.inr ⟨hn', hw⟩) (by intro _ h; cases h) ?_ ?_
  · rw [ht]; exact .time (.self _) hr
  · intro p raw _ h; cases h

/-- **C42, the default layouts**: without a tag a text reads as `t` if and only if one of the
four layouts gives `t` and those before it refuse the text. -/
theorem C42_default_layouts {s : Str} {t : Time} : ReadsTime [] s t ↔
    Ext.parseTime (str "2006-01-02T15:04:05.999999999Z07:00") s = some t ∨
    (Ext.parseTime (str "2006-01-02T15:04:05.999999999Z07:00") s = none ∧
      (Ext.parseTime (str "2006-01-02T15:04:05Z07:00") s = some t ∨
      (Ext.parseTime (str "2006-01-02T15:04:05Z07:00") s = none ∧
        (Ext.parseTime (str "2006-01-02 15:04:05Z07:00") s = some t ∨
        (Ext.parseTime (str "2006-01-02 15:04:05Z07:00") s = none ∧
          Ext.parseTime (str "02.01.2006 15:04:05Z07:00") s = some t))))) := by
  constructor
  · intro h
    generalize hL : ([] : Str) = L at h
    cases h with
    | @default _ _ pre post l hl hpre h =>
      match pre, hl with
      | [], hl => cases hl; exact Or.inl h
      | [a], hl => cases hl; exact Or.inr ⟨hpre _ (by simp), Or.inl h⟩
      | [a, b], hl => cases hl; exact Or.inr ⟨hpre _ (by simp), Or.inr ⟨hpre _ (by simp), Or.inl h⟩⟩
      | [a, b, c], hl =>
        cases hl
        exact Or.inr ⟨hpre _ (by simp), Or.inr ⟨hpre _ (by simp), Or.inr ⟨hpre _ (by simp), h⟩⟩⟩
      | a :: b :: c :: d :: pre, hl =>
        exfalso
        have := congrArg List.length hl
        simp [documentedLayouts] at this
    | const => simp [str] at hL
    | literal hl => exact absurd hL.symm hl
  · rintro (h | ⟨h1, h | ⟨h2, h | ⟨h3, h⟩⟩⟩)
    · exact .default (pre := []) (post := documentedLayouts.drop 1) rfl (by simp) h
    · exact .default (pre := documentedLayouts.take 1) (post := documentedLayouts.drop 2) rfl (by
        intro l' hl; simp [documentedLayouts] at hl; subst hl; exact h1) h
    · exact .default (pre := documentedLayouts.take 2) (post := documentedLayouts.drop 3) rfl (by
        intro l' hl; simp [documentedLayouts] at hl; rcases hl with rfl | rfl; exacts [h1, h2]) h
    · exact .default (pre := documentedLayouts.take 3) (post := documentedLayouts.drop 4) rfl (by
        intro l' hl; simp [documentedLayouts] at hl; rcases hl with rfl | rfl | rfl; exacts [h1, h2, h3]) h

end

/-! ## Cases that meet the hypotheses -/

namespace Examples
open Sample
attribute [local instance] Sample.ext

/-- `[1 ,"a"]` is a JSON text. -/
example : Document (.arr [.num (str "1"), .str (str "a")]) (str " [1 ,\"a\"]") := by
  refine ⟨[' '], str "[1 ,\"a\"]", [], rfl, by simp [Ws], by simp [Ws], ?_⟩
  refine .arr (ps := [⟨[], str "1", [' ']⟩, ⟨[], str "\"a\"", []⟩]) (by simp) rfl (by simp [ElemText.ws, Ws]) ?_
  intro i v p hv hp
  match i with
  | 0 => simp at hv hp; subst hv; subst hp; exact .num (intStr_num 1)
  | 1 =>
    simp at hv hp; subst hv; subst hp
    exact .str (s := str "a") (t := str "a") (strText_plain (by unfold PlainText; decide))
  | i + 2 => simp at hv

set_option maxRecDepth 200000 in
/-- texts that are not JSON -/
example : NotJSON (str "") ∧ NotJSON (str "nul") ∧ NotJSON (str "1 2") ∧ NotJSON (str "[1,]") ∧ NotJSON (str "{\"a\" 1}") ∧
    NotJSON (str "[1 2]") ∧ NotJSON (str "\"a\\\"") ∧ NotJSON (str "[-]") :=
  ⟨notJSON_iff.2 (by rfl), notJSON_iff.2 (by rfl), notJSON_iff.2 (by rfl), notJSON_iff.2 (by rfl), notJSON_iff.2 (by rfl),
    notJSON_iff.2 (by rfl), notJSON_iff.2 (by rfl), notJSON_iff.2 (by rfl)⟩

set_option maxRecDepth 200000 in
/-- texts that are not JSON and are accepted: a lone sign, an unknown escape, a raw line break,
half a surrogate pair, NaN, a number that is none -/
example : LooseDocument (.num (str "-")) (str " -") ∧ LooseDocument (.str (str "\\q")) (str "\"\\q\"") ∧
    LooseDocument (.str (str "\n")) (str "\"\n\"") ∧ LooseDocument (.str (str "\\ud800x")) (str "\"\\ud800x\"") ∧
    LooseDocument (.num (str "-nAn")) (str "-nAn") ∧ LooseDocument (.num (str "1e-.")) (str "1e-.") :=
  ⟨parseBytes_iff.1 (by rfl), parseBytes_iff.1 (by rfl), parseBytes_iff.1 (by rfl), parseBytes_iff.1 (by rfl),
    parseBytes_iff.1 (by rfl), parseBytes_iff.1 (by rfl)⟩

/-- a rejected text leaves a used receiver alone -/
example : Unmarshals Γ 0 (str "nul") used (some ⟨none, .notJSON⟩) used := ⟨1, rfl⟩

/-- an escaped string -/
example : jsonStr (str "a\"<\n") = str "\"a\\\"\\u003c\\n\"" := by decide

/-- base64 of five bytes, and a text with a line break in it -/
example : b64Encode [104, 101, 108, 108, 111] = str "aGVsbG8=" ∧ Base64Text (str "aGVs\nbG8=") [104, 101, 108, 108, 111] :=
  ⟨by decide, base64_decode.2 (by rfl)⟩

set_option maxRecDepth 200000 in
/-- a byte field that is decoded -/
example : FieldAfter Γ 5 (.obj [(str "blob", .str (str "aGVsbG8="))]) ⟨.named 4, tag "blob"⟩ .nil (.bytes [104, 101, 108, 108, 111]) :=
  ⟨false, holder, [.nil], [.bytes [104, 101, 108, 108, 111]], 0, rfl, rfl, rfl, rfl, ⟨5, rfl⟩⟩

set_option maxRecDepth 200000 in
/-- a fixed byte field that is decoded -/
example : FieldAfter Γ 29 (.obj [(str "key", .str (str "AQIDBA=="))]) ⟨.array 4 (.prim .byte), tag "key"⟩ (.barr [0, 0, 0, 0]) (.barr [1, 2, 3, 4]) :=
  ⟨false, _, [.barr [0, 0, 0, 0]], [.barr [1, 2, 3, 4]], 0, rfl, rfl, rfl, rfl, ⟨5, rfl⟩⟩

/-- a UUID -/
example : uuidText [1, 35, 69, 103, 137, 171, 205, 239, 0, 1, 2, 3, 4, 5, 6, 255] = str "01234567-89ab-cdef-0001-0203040506ff" := by decide

/-- the spellings of that UUID -/
example : ∀ s ∈ [str "01234567-89ab-cdef-0001-0203040506ff", str "01234567-89AB-CDEF-0001-0203040506FF", str "urn:UUID:01234567-89ab-cdef-0001-0203040506ff",
      str "{01234567-89ab-cdef-0001-0203040506ff}", str "0123456789abcdef00010203040506ff"],
    ReadsUUID s [1, 35, 69, 103, 137, 171, 205, 239, 0, 1, 2, 3, 4, 5, 6, 255] := by
  have h : ∀ s ∈ [str "01234567-89ab-cdef-0001-0203040506ff", str "01234567-89AB-CDEF-0001-0203040506FF", str "urn:UUID:01234567-89ab-cdef-0001-0203040506ff",
      str "{01234567-89ab-cdef-0001-0203040506ff}", str "0123456789abcdef00010203040506ff"],
    parseUUID s = some [1, 35, 69, 103, 137, 171, 205, 239, 0, 1, 2, 3, 4, 5, 6, 255] := by decide
  exact fun s hs => parseUUID_iff.1 (h s hs)

/-- not a spelling: a group too short -/
example (b : List UInt8) : ¬ ReadsUUID (str "0123456-89ab-cdef-0001-0203040506fff") b := by
  intro h
  have := parseUUID_iff.2 h
  have hn : parseUUID (str "0123456-89ab-cdef-0001-0203040506fff") = none := by decide
  rw [hn] at this; cases this

/-- `C30_accepts` for struct { ID uuid.UUID `json:"id"` } -/
example (s : Str) (b : List UInt8) (h : ReadsUUID s b) (old : GoVal) :
    Fills Γ 36 (.obj [(str "id", .str s)]) (.struct [old]) none (.struct [.uuid b]) :=
  C30_accepts (fd := ⟨.uuid, tag "id"⟩) (by rfl) ⟨_, 5, _, rfl, rfl⟩ (by decide) (by decide) rfl
    ⟨[(str "id", .str s)], rfl, fun k _ => (List.length_filter_le _ [(str "id", JV.str s)]), by simp⟩ rfl h old

set_option maxRecDepth 200000 in
/-- a UUID field that is decoded -/
example : FieldAfter Γ 36 (.obj [(str "id", .str (str "01234567-89AB-cdef-0001-0203040506ff"))]) ⟨.uuid, tag "id"⟩ (.uuid uuidNil)
    (.uuid [1, 35, 69, 103, 137, 171, 205, 239, 0, 1, 2, 3, 4, 5, 6, 255]) :=
  ⟨false, _, [.uuid uuidNil], [.uuid [1, 35, 69, 103, 137, 171, 205, 239, 0, 1, 2, 3, 4, 5, 6, 255]], 0, rfl, rfl, rfl, rfl, ⟨5, rfl⟩⟩

/-- an error wrapped three times -/
example : wrapAll [str "a", str "b", str "0"] (some (.plain .lenMismatch)) = some ⟨some (str "a.b.0"), .lenMismatch⟩ := by decide

set_option maxRecDepth 200000 in
/-- a time field that is decoded -/
example : FieldAfter Γ 3 (.obj [(str "rev", .num (str "1")), (str "owner", ann), (str "when", .str (str "T5"))]) ⟨.time, tag "when"⟩
    (.time ⟨0, 0⟩) (.time ⟨5, 0⟩) :=
  ⟨false, doc, [.struct [.int 0], used, .time ⟨0, 0⟩], [.struct [.int 1], annDecoded, .time ⟨5, 0⟩], 2, rfl, rfl, rfl, rfl, ⟨6, rfl⟩⟩

end Examples

end VJ
