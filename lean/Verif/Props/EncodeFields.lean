import Verif.Props.EncodeSamples

/-!
# C28, C29, C30, C42: what is written for integers, bytes, UUIDs and times
-/

namespace VJ
set_option linter.unusedSectionVars false

section
variable [Ext] {Γ : Env} {X : Nat → GoVal → Prop} {S : Nat → Prop} {F : Nat → Option GoVal → JV → Prop}

/-- What a field stands for is found in the object written for the struct, in its place. -/
theorem field_written (hP : EncPackage Γ F S) (hF : ∀ n r a b, F n r a → F n r b → a = b) {n : Nat} (hn : S n) {strict : Bool}
    {fields : List FieldDecl} (hd : Γ.decl n = some (.struct strict fields)) {gs : List GoVal} (hv : HasType Γ X (.named n) (.struct gs))
    (hf : Fine Γ F (.named n) (.struct gs)) {s : Str} (h : Marshals Γ n (some (.struct gs)) (.ok s)) {i : Nat} {fd : FieldDecl} {g : GoVal}
    (hi : fields[i]? = some fd) (hg : gs[i]? = some g) {m : List (Str × JV)} (he : Enc Γ F (.field fd) g (.obj m)) :
    ∃ before after, Json (.obj (before ++ m ++ after)) s := by
  obtain ⟨ms, hj, hl, hms⟩ := C22_members_partial hP hn hd hv hf h
  have hlen : i < ms.length := by rw [hl]; exact (List.getElem?_eq_some_iff.1 hi).1
  obtain ⟨henc, _⟩ := hms i fd g _ hi hg (List.getElem?_eq_getElem hlen)
  have := enc_unique hF henc he
  simp only [JV.obj.injEq] at this
  rw [flatten_split ms i hlen, this] at hj
  exact ⟨_, _, hj⟩

/-- **C28, the writing half, partial** (see `Fine`): an integer is written as its decimal
numeral, unless it is zero and the field has `omitempty`. -/
theorem C28_written_partial (hP : EncPackage Γ F S) (hF : ∀ n r a b, F n r a → F n r b → a = b) {n : Nat} (hn : S n) {strict : Bool}
    {fields : List FieldDecl} (hd : Γ.decl n = some (.struct strict fields)) {gs : List GoVal} (hv : HasType Γ X (.named n) (.struct gs))
    (hf : Fine Γ F (.named n) (.struct gs)) {s : Str} (h : Marshals Γ n (some (.struct gs)) (.ok s)) {i : Nat} {fd : FieldDecl} {p : Prim}
    {x : Int} (hi : fields[i]? = some fd) (hg : gs[i]? = some (.int x)) (hp : IsPrim Γ fd.typ p) (hx : x ≠ 0 ∨ fd.tags.omitempty = false) :
    ∃ before after, Json (.obj (before ++ [(fd.tags.jsonName, .num (intStr x))] ++ after)) s := by
  refine field_written hP hF hn hd hv hf h hi hg ?_
  by_cases h0 : x = 0
  · subst h0
    exact .empty (.scalar hp) (.scalar .int) (hx.resolve_left (by simp)) (.scalar (by simp) (.int 0))
  · exact .scalarField (.scalar hp) (fun h => h0 (by cases h; rfl)) (.int x)

/-- **C29, the writing half, partial** (see `Fine`): bytes are written as the base64 text of
RFC 4648. -/
theorem C29_written_partial (hP : EncPackage Γ F S) (hF : ∀ n r a b, F n r a → F n r b → a = b) {n : Nat} (hn : S n) {strict : Bool}
    {fields : List FieldDecl} (hd : Γ.decl n = some (.struct strict fields)) {gs : List GoVal} (hv : HasType Γ X (.named n) (.struct gs))
    (hf : Fine Γ F (.named n) (.struct gs)) {s : Str} (h : Marshals Γ n (some (.struct gs)) (.ok s)) {i : Nat} {fd : FieldDecl}
    {b : List UInt8} (hi : fields[i]? = some fd)
    (hb : (Is Γ fd.typ (.slice (.prim .byte)) ∧ gs[i]? = some (.bytes b)) ∨
      ((∃ len, Is Γ fd.typ (.array len (.prim .byte))) ∧ gs[i]? = some (.barr b) ∧ ∃ x ∈ b, x ≠ 0)) :
    ∃ before text after, B64 text b ∧ Json (.obj (before ++ [(fd.tags.jsonName, .str text)] ++ after)) s := by
  have : ∃ before after, Json (.obj (before ++ [(fd.tags.jsonName, .str (b64Encode b))] ++ after)) s := by
    rcases hb with ⟨ht, hg⟩ | ⟨⟨len, ht⟩, hg, hnz⟩
    · exact field_written hP hF hn hd hv hf h hi hg (.bytesField (.bytes ht))
    · exact field_written hP hF hn hd hv hf h hi hg (.fixedField (.fixedBytes ht) hnz)
  obtain ⟨x, y, hj⟩ := this
  exact ⟨x, _, y, b64_encode_B64 b, hj⟩

/-- **C30, the writing half, partial** (see `Fine`): a UUID is written as its canonical text. -/
theorem C30_written_partial (hP : EncPackage Γ F S) (hF : ∀ n r a b, F n r a → F n r b → a = b) {n : Nat} (hn : S n) {strict : Bool}
    {fields : List FieldDecl} (hd : Γ.decl n = some (.struct strict fields)) {gs : List GoVal} (hv : HasType Γ X (.named n) (.struct gs))
    (hf : Fine Γ F (.named n) (.struct gs)) {s : Str} (h : Marshals Γ n (some (.struct gs)) (.ok s)) {i : Nat} {fd : FieldDecl}
    {b : List UInt8} (hi : fields[i]? = some fd) (ht : fd.typ = .uuid) (hg : gs[i]? = some (.uuid b)) :
    ∃ before after, Json (.obj (before ++ [(fd.tags.jsonName, .str (uuidText b))] ++ after)) s :=
  field_written hP hF hn hd hv hf h hi hg (.uuidField (ht ▸ .uuid))

/-- **C42, the writing half, partial** (see `Fine`): a time that is not zero is written in the
layout of its field, or in RFC 3339 with nanoseconds if it has none. -/
theorem C42_written_partial (hP : EncPackage Γ F S) (hF : ∀ n r a b, F n r a → F n r b → a = b) {n : Nat} (hn : S n) {strict : Bool}
    {fields : List FieldDecl} (hd : Γ.decl n = some (.struct strict fields)) {gs : List GoVal} (hv : HasType Γ X (.named n) (.struct gs))
    (hf : Fine Γ F (.named n) (.struct gs)) {s : Str} (h : Marshals Γ n (some (.struct gs)) (.ok s)) {i : Nat} {fd : FieldDecl}
    {t : Time} (hi : fields[i]? = some fd) (ht : fd.typ = .time) (hg : gs[i]? = some (.time t)) (hz : t.isZero = false) :
    ∃ before after, Json (.obj (before ++
      [(fd.tags.jsonName, .str (Ext.fmtTime (if fd.tags.layout = [] then str "2006-01-02T15:04:05.999999999Z07:00" else fd.tags.layout) t))] ++
      after)) s :=
  field_written hP hF hn hd hv hf h hi hg (.timeField (ht ▸ .time) hz)

end

namespace Examples
open Sample
attribute [local instance] Sample.ext

/-- the time of the sample document -/
example : ∃ before after, Json (.obj (before ++ [(str "when", .str (str "T3"))] ++ after)) docText :=
  C42_written_partial (X := NoForeign) enc_package noDoc_unique (n := 3) (by decide) rfl doc_typed doc_fine doc_marshals (i := 2) rfl rfl rfl rfl

/-- a struct with one field cannot have trouble -/
theorem fine_single {n : Nat} {fd : FieldDecl} {g : GoVal} (hd : Γ.decl n = some (.struct false [fd])) (hn : fd.tags.jsonName ≠ [])
    (hp : ∀ t v, Part Γ (.named n) (.struct [g]) t v → (t = .named n ∧ v = .struct [g]) ∨ (t = fd.typ ∧ v = g)) (hg : ∀ gs, g ≠ .struct gs)
    (hfl : ∀ f, g ≠ .float f) : Fine Γ noDoc (.named n) (.struct [g]) where
  floats p f h := by
    rcases hp _ _ h.toPart with ⟨_, h⟩ | ⟨_, h⟩
    · cases h
    · exact absurd h.symm (hfl f)
  commas e m strict fields gs h he hd' := by
    rcases hp _ _ h.toPart with ⟨rfl, hv⟩ | ⟨_, hv⟩
    · cases he
      rw [hd] at hd'; cases hd'
      intro i j fd fd' g g' hij hi _ hj
      match j with
      | 0 => omega
      | j + 1 => cases hj
    · exact absurd hv.symm (hg _)
  splices e m strict fields gs h he hd' := by
    rcases hp _ _ h.toPart with ⟨rfl, hv⟩ | ⟨_, hv⟩
    · cases he
      rw [hd] at hd'; cases hd'
      intro i l fd' g' jv hi hg' hn'
      match i with
      | 0 => cases hi; exact absurd hn' hn
      | i + 1 => cases hi
    · exact absurd hv.symm (hg _)

theorem single_parts {n : Nat} {fd : FieldDecl} {g : GoVal} (hd : Γ.decl n = some (.struct false [fd])) (hn : ∀ m, ¬ NameOf fd.typ m)
    (hg : (∀ gs, g ≠ .struct gs) ∧ (∀ x, g ≠ .ptr x) ∧ (∀ es sp, g ≠ .slice es sp) ∧ (∀ es, g ≠ .arr es) ∧ ∀ kvs, g ≠ .map kvs) (t : TExpr) (v : GoVal)
    (h : Part Γ (.named n) (.struct [g]) t v) : (t = .named n ∧ v = .struct [g]) ∨ (t = fd.typ ∧ v = g) := by
  induction h with
  | self => exact .inl ⟨rfl, rfl⟩
  | ptr _ ih => rcases ih with ⟨h, _⟩ | ⟨_, h⟩; cases h; exact absurd h.symm (hg.2.1 _)
  | slice _ _ ih => rcases ih with ⟨h, _⟩ | ⟨_, h⟩; cases h; exact absurd h.symm (hg.2.2.1 _ _)
  | array _ _ ih => rcases ih with ⟨h, _⟩ | ⟨_, h⟩; cases h; exact absurd h.symm (hg.2.2.2.1 _)
  | map _ _ ih => rcases ih with ⟨h, _⟩ | ⟨_, h⟩; cases h; exact absurd h.symm (hg.2.2.2.2 _)
  | «alias» _ he hd' ih =>
    rcases ih with ⟨rfl, _⟩ | ⟨rfl, _⟩
    · cases he; rw [hd] at hd'; cases hd'
    · exact absurd he (hn _)
  | field _ he hd' hf hg' ih =>
    rename_i i _ _ _ _ _ _
    rcases ih with ⟨rfl, hv⟩ | ⟨rfl, _⟩
    · cases he
      rw [hd] at hd'; cases hd'; cases hv
      match i with
      | 0 => cases hf; cases hg'; exact .inr ⟨rfl, rfl⟩
      | i + 1 => cases hf
    · exact absurd he (hn _)

set_option maxRecDepth 200000 in
/-- the hypotheses are met for any integer of the field's type … -/
example : ∃ before after, Json (.obj (before ++ [(str "a", .num (intStr (-7)))] ++ after)) (str "{\"a\":-7}") :=
  C28_written_partial (X := NoForeign) (p := .int8) enc_package noDoc_unique (n := 32) (gs := [.int (-7)]) (by decide) rfl
    (typed_struct rfl (.cons (.prim (.int rfl ⟨by decide, by decide⟩)) .nil))
    (fine_single rfl (by decide) (single_parts rfl (fun m h => by cases h) (by simp)) (by simp) (by simp)) ⟨5, rfl⟩ (i := 0) rfl rfl (.self _) (.inl (by decide))

set_option maxRecDepth 200000 in
/-- … any array of bytes, … -/
example : ∃ before text after, B64 text [1, 2, 3, 4] ∧ Json (.obj (before ++ [(str "key", .str text)] ++ after)) (str "{\"key\":\"AQIDBA==\"}") :=
  C29_written_partial (X := NoForeign) enc_package noDoc_unique (n := 29) (gs := [.barr [1, 2, 3, 4]]) (by decide) rfl
    (typed_struct rfl (.cons (.barr rfl) .nil))
    (fine_single rfl (by decide) (single_parts rfl (fun m h => by cases h) (by simp)) (by simp) (by simp)) ⟨5, rfl⟩ (i := 0) rfl
    (.inr ⟨⟨4, .self _⟩, rfl, 1, by simp, by decide⟩)

set_option maxRecDepth 200000 in
/-- … and any UUID -/
example : ∃ before after, Json (.obj (before ++ [(str "id", .str (uuidText (List.replicate 16 255)))] ++ after))
    (str "{\"id\":\"ffffffff-ffff-ffff-ffff-ffffffffffff\"}") :=
  C30_written_partial (X := NoForeign) enc_package noDoc_unique (n := 36) (gs := [.uuid (List.replicate 16 255)]) (by decide) rfl
    (typed_struct rfl (.cons (.uuid rfl) .nil))
    (fine_single rfl (by decide) (single_parts rfl (fun m h => by cases h) (by simp)) (by simp) (by simp)) ⟨5, rfl⟩ (i := 0) rfl rfl rfl

end Examples
end VJ
