import Verif.Props.EncodeExact
import Verif.Props.EncodeFields
import Verif.Props.RoundTripSamples
import Verif.Props.Order
import Verif.Props.Omitempty

/-!
# If the output is JSON, it is the right JSON

Not every value is encoded as JSON (C21 says exactly which are).  Here nothing is assumed of the
value: whenever the text that `MarshalJSON` returns is a JSON document at all, it is the document
that the properties C22, C26, C28–C31, C33 and C42 promise.
-/

namespace VJ
set_option linter.unusedSectionVars false

/-- What is assumed of a package here: besides the conditions on the declarations (`EncPackage`),
that floats are printed as `strconv` prints them and that hand-written encoders write one
document per value, and no whitespace into an empty object. -/
structure Writers [Ext] (Γ : Env) (F : Nat → Option GoVal → JV → Prop) (S : Nat → Prop) : Prop extends EncPackage Γ F S where
  floatTexts : FloatTexts
  oneDoc : ∀ n r a b, F n r a → F n r b → a = b
  compact : CompactForeign Γ S

section
variable [Ext] {Γ : Env} {X : Nat → GoVal → Prop} {S : Nat → Prop} {F : Nat → Option GoVal → JV → Prop}

theorem document_text {jv : JV} {s : Str} (h : Json jv s) : Document jv s := ⟨[], s, [], by simp, ws_nil, ws_nil, h⟩

/-- a value whose encoding is JSON is one that the encoder copes with -/
theorem fine_of_json (hW : Writers Γ F S) {n : Nat} (hn : S n) {v : GoVal} (hv : HasType Γ X (.named n) v) {s : Str}
    (h : Marshals Γ n (some v) (.ok s)) {doc : JV} (hj : Document doc s) : Fine Γ F (.named n) v :=
  (fine_iff hW.floatTexts).2 ((C21_exact hW.floatTexts hW.toEncPackage hW.oneDoc hW.compact hn hv h).1 ⟨doc, hj⟩)

/-- a text without whitespace around it -/
theorem document_json {a b : JV} {s : Str} (ha : Json a s) (hb : Document b s) : b = a := document_unique hb (document_text ha)

/-- **C21.** If what is written is JSON, it is the document the value stands for. -/
theorem C21_if_json (hW : Writers Γ F S) {n : Nat} (hn : S n) {v : GoVal} (hv : HasType Γ X (.named n) v) {s : Str}
    (h : Marshals Γ n (some v) (.ok s)) {doc : JV} (hj : Document doc s) : Enc Γ F (.decl n) v doc := by
  obtain ⟨jv, h1, h2⟩ := encode_document hW.toEncPackage hn hv (fine_of_json hW hn hv h hj) h
  cases document_json h2 hj
  exact h1

/-- **C22.** If what is written for a struct is JSON, it is an object with the members of the
fields, in the order in which they are declared.  A field contributes nothing if it is omitted,
and otherwise one member, under its JSON name (or, if embedded, the members of its own
object), whose value is the document of the field's value. -/
theorem C22_members (hW : Writers Γ F S) {n : Nat} (hn : S n) {strict : Bool} {fields : List FieldDecl}
    (hd : Γ.decl n = some (.struct strict fields)) {gs : List GoVal} (hv : HasType Γ X (.named n) (.struct gs)) {s : Str}
    (h : Marshals Γ n (some (.struct gs)) (.ok s)) {doc : JV} (hj : Document doc s) :
    ∃ ms : List (List (Str × JV)), doc = .obj ms.flatten ∧ ms.length = fields.length ∧
      ∀ (i : Nat) (fd : FieldDecl) (g : GoVal) (m : List (Str × JV)), fields[i]? = some fd → gs[i]? = some g → ms[i]? = some m →
        Enc Γ F (.field fd) g (.obj m) ∧
        ((Omitted Γ fd g ∧ m = []) ∨
         (¬ Omitted Γ fd g ∧ ((∃ d, m = [(fd.tags.jsonName, d)]) ∨
           ∃ k, FieldKind Γ fd.typ (.method k) ∧ fd.tags.jsonName = [] ∧ Enc Γ F (.decl k) g (.obj m)))) := by
  obtain ⟨ms, h1, h2⟩ := C22_members_partial hW.toEncPackage hn hd hv (fine_of_json hW hn hv h hj) h
  exact ⟨ms, document_json h1 hj, h2⟩

/-- **C33, the writing half.** If what is written is JSON, an embedded struct that is not zero
contributes to the object exactly the members of its own object, in their order and in its
place among the fields. -/
theorem C33_spliced (hW : Writers Γ F S) {n : Nat} (hn : S n) {strict : Bool} {fields : List FieldDecl}
    (hd : Γ.decl n = some (.struct strict fields)) {gs : List GoVal} (hv : HasType Γ X (.named n) (.struct gs)) {s : Str}
    (h : Marshals Γ n (some (.struct gs)) (.ok s)) {doc : JV} (hj : Document doc s)
    {i m : Nat} {fd : FieldDecl} {g : GoVal} (hi : fields[i]? = some fd) (hg : gs[i]? = some g) (he : fd.tags.jsonName = [])
    (hm : ByMethod Γ fd.typ m) (hz : IsZeroIs Γ m g false) {s' : Str} (h' : Marshals Γ m (some g) (.ok s')) :
    ∃ before own after, doc = .obj (before ++ own ++ after) ∧ Json (.obj own) s' ∧ own ≠ [] := by
  obtain ⟨x, o, y, h1, h2, h3⟩ := C33_spliced_partial hW.toEncPackage hW.oneDoc hn hd hv (fine_of_json hW hn hv h hj) h hi hg he hm hz h'
  exact ⟨x, o, y, document_json h1 hj, h2, h3⟩

/-- **C23.** If what is written for a struct is JSON, a field with the option `omitempty` has no
member in it if and only if its value is the zero value of its type (for the types and values
of `C23_omitempty_partial`). -/
theorem C23_if_json_partial (hW : Writers Γ F S) (hZ : ZeroPackage Γ X S) (hA : NoArrayTests Γ S)
    {n : Nat} (hn : S n) {strict : Bool} {fields : List FieldDecl} (hd : Γ.decl n = some (.struct strict fields)) {gs : List GoVal}
    (hv : HasType Γ X (.named n) (.struct gs)) {s : Str} (h : Marshals Γ n (some (.struct gs)) (.ok s)) {doc : JV} (hj : Document doc s) :
    ∃ ms : List (List (Str × JV)), doc = .obj ms.flatten ∧ ms.length = fields.length ∧
      ∀ (i : Nat) (fd : FieldDecl) (g : GoVal) (m : List (Str × JV)), fields[i]? = some fd → gs[i]? = some g → ms[i]? = some m →
        fd.tags.omitempty = true → fd.tags.jsonName ≠ [] → (∃ k, FieldKind Γ fd.typ k) → Omissible Γ fd.typ → ¬ Untidy g →
        (m = [] ↔ ZeroOf Γ fd.typ g) ∧ (m ≠ [] → ∃ d, m = [(fd.tags.jsonName, d)]) := by
  obtain ⟨ms, h1, h2⟩ := C23_omitempty_partial hW.toEncPackage hZ hA hn hd hv (fine_of_json hW hn hv h hj) h
  exact ⟨ms, document_json h1 hj, h2⟩

/-- **C26.** If a value is encoded as JSON in one order of its maps, it is encoded as JSON in
every order, and the two documents are the same up to the order of members. -/
theorem C26_same_document (hW : Writers Γ F S) (hB : OrderBlind Γ X F) {n : Nat} (hn : S n) {v v' : GoVal} (hs : Shuffled v v')
    (hv : HasType Γ X (.named n) v) {s s' : Str} (h : Marshals Γ n (some v) (.ok s)) (h' : Marshals Γ n (some v') (.ok s')) {doc : JV}
    (hj : Document doc s) : ∃ doc', Document doc' s' ∧ SameDoc doc doc' := by
  obtain ⟨a, b, h1, h2, h3⟩ := C26_same_document_partial hW.toEncPackage hB hW.oneDoc hn hs hv (fine_of_json hW hn hv h hj) h h'
  cases document_json h1 hj
  exact ⟨b, document_text h2, h3⟩

/-- **C26, each entry once**: the object for a map has one member for each entry, in the order
of the iteration, and no key twice; for a type declared as a map … -/
theorem C26_each_once (hW : Writers Γ F S) {n : Nat} (hn : S n) {e : TExpr} (hd : Γ.decl n = some (.alias (.map e)))
    {kvs : List (Str × GoVal)} (hv : HasType Γ X (.named n) (.map kvs)) {s : Str} (h : Marshals Γ n (some (.map kvs)) (.ok s)) {doc : JV}
    (hj : Document doc s) :
    ∃ ms, doc = .obj ms ∧ ms.map (·.1) = kvs.map (·.1) ∧ (ms.map (·.1)).Nodup ∧
      ∀ (i : Nat) (kv : Str × GoVal) (m : Str × JV), kvs[i]? = some kv → ms[i]? = some m → Enc Γ F (.elem true e) kv.2 m.2 := by
  obtain ⟨ms, h1, h2⟩ := C26_each_once_partial hW.toEncPackage hn hd hv (fine_of_json hW hn hv h hj) h
  exact ⟨ms, document_json h1 hj, h2⟩

/-- … and for a struct field that is a map. -/
theorem C26_map_field (hW : Writers Γ F S) {n : Nat} (hn : S n) {strict : Bool} {fields : List FieldDecl}
    (hd : Γ.decl n = some (.struct strict fields)) {gs : List GoVal} (hv : HasType Γ X (.named n) (.struct gs)) {s : Str}
    (h : Marshals Γ n (some (.struct gs)) (.ok s)) {doc : JV} (hj : Document doc s) {i : Nat} {fd : FieldDecl} {e : TExpr}
    {kvs : List (Str × GoVal)} (hfd : fields[i]? = some fd) (ht : Is Γ fd.typ (.map e)) (hg : gs[i]? = some (.map kvs)) :
    ∃ members ms, doc = .obj members ∧ (fd.tags.jsonName, .obj ms) ∈ members ∧ ms.map (·.1) = kvs.map (·.1) ∧ (ms.map (·.1)).Nodup := by
  obtain ⟨d, ms, h1, h2⟩ := C26_map_field_partial hW.toEncPackage hn hd hv (fine_of_json hW hn hv h hj) h hfd ht hg
  exact ⟨d, ms, document_json h1 hj, h2⟩

/-! ### fields -/

/-- **C28, the writing half.** -/
theorem C28_written (hW : Writers Γ F S) {n : Nat} (hn : S n) {strict : Bool}
    {fields : List FieldDecl} (hd : Γ.decl n = some (.struct strict fields)) {gs : List GoVal} (hv : HasType Γ X (.named n) (.struct gs))
    {s : Str} (h : Marshals Γ n (some (.struct gs)) (.ok s)) {doc : JV} (hj : Document doc s) {i : Nat} {fd : FieldDecl} {p : Prim}
    {x : Int} (hi : fields[i]? = some fd) (hg : gs[i]? = some (.int x)) (hp : IsPrim Γ fd.typ p) (hx : x ≠ 0 ∨ fd.tags.omitempty = false) :
    ∃ before after, doc = .obj (before ++ [(fd.tags.jsonName, .num (intStr x))] ++ after) := by
  obtain ⟨a, b, h1⟩ := C28_written_partial hW.toEncPackage hW.oneDoc hn hd hv (fine_of_json hW hn hv h hj) h hi hg hp hx
  exact ⟨a, b, document_json h1 hj⟩

/-- **C29, the writing half.** -/
theorem C29_written (hW : Writers Γ F S) {n : Nat} (hn : S n) {strict : Bool}
    {fields : List FieldDecl} (hd : Γ.decl n = some (.struct strict fields)) {gs : List GoVal} (hv : HasType Γ X (.named n) (.struct gs))
    {s : Str} (h : Marshals Γ n (some (.struct gs)) (.ok s)) {doc : JV} (hj : Document doc s) {i : Nat} {fd : FieldDecl}
    {b : List UInt8} (hi : fields[i]? = some fd)
    (hb : (Is Γ fd.typ (.slice (.prim .byte)) ∧ gs[i]? = some (.bytes b)) ∨
      ((∃ len, Is Γ fd.typ (.array len (.prim .byte))) ∧ gs[i]? = some (.barr b) ∧ ∃ x ∈ b, x ≠ 0)) :
    ∃ before text after, B64 text b ∧ doc = .obj (before ++ [(fd.tags.jsonName, .str text)] ++ after) := by
  obtain ⟨x, t, y, h0, h1⟩ := C29_written_partial hW.toEncPackage hW.oneDoc hn hd hv (fine_of_json hW hn hv h hj) h hi hb
  exact ⟨x, t, y, h0, document_json h1 hj⟩

/-- **C30, the writing half.** -/
theorem C30_written (hW : Writers Γ F S) {n : Nat} (hn : S n) {strict : Bool}
    {fields : List FieldDecl} (hd : Γ.decl n = some (.struct strict fields)) {gs : List GoVal} (hv : HasType Γ X (.named n) (.struct gs))
    {s : Str} (h : Marshals Γ n (some (.struct gs)) (.ok s)) {doc : JV} (hj : Document doc s) {i : Nat} {fd : FieldDecl}
    {b : List UInt8} (hi : fields[i]? = some fd) (ht : fd.typ = .uuid) (hg : gs[i]? = some (.uuid b)) :
    ∃ before after, doc = .obj (before ++ [(fd.tags.jsonName, .str (uuidText b))] ++ after) := by
  obtain ⟨x, y, h1⟩ := C30_written_partial hW.toEncPackage hW.oneDoc hn hd hv (fine_of_json hW hn hv h hj) h hi ht hg
  exact ⟨x, y, document_json h1 hj⟩

/-- **C42, the writing half.** -/
theorem C42_written (hW : Writers Γ F S) {n : Nat} (hn : S n) {strict : Bool}
    {fields : List FieldDecl} (hd : Γ.decl n = some (.struct strict fields)) {gs : List GoVal} (hv : HasType Γ X (.named n) (.struct gs))
    {s : Str} (h : Marshals Γ n (some (.struct gs)) (.ok s)) {doc : JV} (hj : Document doc s) {i : Nat} {fd : FieldDecl}
    {t : Time} (hi : fields[i]? = some fd) (ht : fd.typ = .time) (hg : gs[i]? = some (.time t)) (hz : t.isZero = false) :
    ∃ before after, doc = .obj (before ++
      [(fd.tags.jsonName, .str (Ext.fmtTime (if fd.tags.layout = [] then str "2006-01-02T15:04:05.999999999Z07:00" else fd.tags.layout) t))] ++
      after) := by
  obtain ⟨x, y, h1⟩ := C42_written_partial hW.toEncPackage hW.oneDoc hn hd hv (fine_of_json hW hn hv h hj) h hi ht hg hz
  exact ⟨x, y, document_json h1 hj⟩

/-! ### and back -/

/-- **C31.** If what is written is JSON, nested at most 300 deep, decoding it into a new receiver
of the same type gives back the value and nothing else (for the types of `TripPackage` and the
values of `Lossless`). -/
theorem C31_if_json_partial (hP : Package Γ X S) (hW : Writers Γ F S) (hR : TripPackage Γ X F S) {n : Nat} (hn : S n) {v : GoVal}
    (hv : HasType Γ X (.named n) v) (hl : Lossless Γ (.named n) v) {s : Str} (h : Marshals Γ n (some v) (.ok s)) {doc : JV}
    (hj : Document doc s) (hdep : DepthLe 300 doc) {z : GoVal} (hz : ZeroIs Γ n z) {e : Option Err} {v' : GoVal} :
    Unmarshals Γ n s z e v' ↔ e = none ∧ v' = v.trim :=
  C31_round_trip_exact_partial hP hW.toEncPackage hR hn hv (fine_of_json hW hn hv h hj) hl h
    (fun _ h' => by cases document_json h' hj; exact hdep) hz

/-- **C28.** If what is written is JSON and decoding it succeeds, into whatever receiver, an
integer field holds the integer it held. -/
theorem C28_round_trip (hP : Package Γ X S) (hW : Writers Γ F S) (hR : TripPackage Γ X F S)
    {n : Nat} (hn : S n) {strict : Bool} {fields : List FieldDecl} (hd : Γ.decl n = some (.struct strict fields)) {gs : List GoVal}
    (hv : HasType Γ X (.named n) (.struct gs)) {s : Str} (h : Marshals Γ n (some (.struct gs)) (.ok s)) {doc : JV} (hj : Document doc s)
    (hdep : DepthLe 300 doc) {i : Nat} {fd : FieldDecl} {p : Prim} {x : Int}
    (hi : fields[i]? = some fd) (hg : gs[i]? = some (.int x)) (hp : IsPrim Γ fd.typ p) (hx : x ≠ 0 ∨ fd.tags.omitempty = false)
    {zs gs' : List GoVal} {z new : GoVal} (hz : zs[i]? = some z) (hnew : gs'[i]? = some new)
    (hu : Unmarshals Γ n s (.struct zs) none (.struct gs')) : new = .int x :=
  C28_round_trip_partial hP hW.toEncPackage hR hW.oneDoc hn hd hv (fine_of_json hW hn hv h hj) h
    (fun _ h' => by cases document_json h' hj; exact hdep) hi hg hp hx hz hnew hu

/-- **C29.** -/
theorem C29_round_trip (hP : Package Γ X S) (hW : Writers Γ F S) (hR : TripPackage Γ X F S)
    {n : Nat} (hn : S n) {strict : Bool} {fields : List FieldDecl} (hd : Γ.decl n = some (.struct strict fields)) {gs : List GoVal}
    (hv : HasType Γ X (.named n) (.struct gs)) {s : Str} (h : Marshals Γ n (some (.struct gs)) (.ok s)) {doc : JV} (hj : Document doc s)
    (hdep : DepthLe 300 doc) {i : Nat} {fd : FieldDecl} {b : List UInt8} {g : GoVal}
    (hi : fields[i]? = some fd) (hg : gs[i]? = some g)
    (hb : (Is Γ fd.typ (.slice (.prim .byte)) ∧ g = .bytes b) ∨
      ((∃ len, Is Γ fd.typ (.array len (.prim .byte))) ∧ g = .barr b ∧ ∃ x ∈ b, x ≠ 0))
    {zs gs' : List GoVal} {z new : GoVal} (hz : zs[i]? = some z) (hnew : gs'[i]? = some new)
    (hu : Unmarshals Γ n s (.struct zs) none (.struct gs')) : new = g :=
  C29_round_trip_partial hP hW.toEncPackage hR hW.oneDoc hn hd hv (fine_of_json hW hn hv h hj) h
    (fun _ h' => by cases document_json h' hj; exact hdep) hi hg hb hz hnew hu

/-- **C30.** -/
theorem C30_round_trip (hP : Package Γ X S) (hW : Writers Γ F S) (hR : TripPackage Γ X F S)
    {n : Nat} (hn : S n) {strict : Bool} {fields : List FieldDecl} (hd : Γ.decl n = some (.struct strict fields)) {gs : List GoVal}
    (hv : HasType Γ X (.named n) (.struct gs)) {s : Str} (h : Marshals Γ n (some (.struct gs)) (.ok s)) {doc : JV} (hj : Document doc s)
    (hdep : DepthLe 300 doc) {i : Nat} {fd : FieldDecl} {b : List UInt8}
    (hi : fields[i]? = some fd) (hg : gs[i]? = some (.uuid b)) (ht : fd.typ = .uuid)
    {zs gs' : List GoVal} {z new : GoVal} (hz : zs[i]? = some z) (hnew : gs'[i]? = some new)
    (hu : Unmarshals Γ n s (.struct zs) none (.struct gs')) : new = .uuid b :=
  C30_round_trip_partial hP hW.toEncPackage hR hW.oneDoc hn hd hv (fine_of_json hW hn hv h hj) h
    (fun _ h' => by cases document_json h' hj; exact hdep) hi hg ht hz hnew hu

/-- **C42.** -/
theorem C42_round_trip (hP : Package Γ X S) (hW : Writers Γ F S) (hR : TripPackage Γ X F S)
    {n : Nat} (hn : S n) {strict : Bool} {fields : List FieldDecl} (hd : Γ.decl n = some (.struct strict fields)) {gs : List GoVal}
    (hv : HasType Γ X (.named n) (.struct gs)) {s : Str} (h : Marshals Γ n (some (.struct gs)) (.ok s)) {doc : JV} (hj : Document doc s)
    (hdep : DepthLe 300 doc) {i : Nat} {fd : FieldDecl} {t : Time}
    (hi : fields[i]? = some fd) (hg : gs[i]? = some (.time t)) (ht : fd.typ = .time) (ht0 : t.isZero = false)
    {zs gs' : List GoVal} {z new : GoVal} (hz : zs[i]? = some z) (hnew : gs'[i]? = some new)
    (hu : Unmarshals Γ n s (.struct zs) none (.struct gs')) :
    ∃ t', new = .time t' ∧ ReadsTime fd.tags.layout
      (Ext.fmtTime (if fd.tags.layout = [] then str "2006-01-02T15:04:05.999999999Z07:00" else fd.tags.layout) t) t' :=
  C42_round_trip_partial hP hW.toEncPackage hR hW.oneDoc hn hd hv (fine_of_json hW hn hv h hj) h
    (fun _ h' => by cases document_json h' hj; exact hdep) hi hg ht ht0 hz hnew hu

end

/-! ### the hypotheses can be met -/

namespace Examples
open Sample
attribute [local instance] Sample.ext

theorem no_ext_compact {S : Nat → Prop} : CompactForeign Γ S := by
  intro n r w s _ hd _ hr
  cases hr

theorem sample_writers : Writers Γ noDoc (· ∈ encNames) :=
  { enc_package with floatTexts := floatTexts, oneDoc := noDoc_unique, compact := no_ext_compact }

theorem trip_writers : Writers Γ noDoc (· ∈ tripNames) :=
  { trip_encPackage with floatTexts := floatTexts, oneDoc := noDoc_unique, compact := no_ext_compact }

theorem doc_json : ∃ jv, Document jv docText := by
  obtain ⟨jv, h, _⟩ := C21_output_is_json_partial enc_package noDoc_unique (by decide) doc_typed doc_fine doc_marshals
  exact ⟨jv, document_text h⟩

theorem trip_json : ∃ jv, Document jv tripText ∧ DepthLe 300 jv := by
  obtain ⟨jv, h, _⟩ := C21_output_is_json_partial trip_encPackage noDoc_unique (by decide) trip_typed trip_fine trip_marshals
  exact ⟨jv, document_text h, trip_depth h⟩

/-- C22: the object has the members of three fields, of which the first is spliced in -/
example : ∃ doc ms, Document doc docText ∧ doc = .obj (List.flatten ms) ∧ ms.length = 3 := by
  obtain ⟨doc, h⟩ := doc_json
  obtain ⟨ms, h1, h2, _⟩ := C22_members sample_writers (n := 3) (by decide) rfl doc_typed doc_marshals h
  exact ⟨doc, ms, h, h1, h2⟩

/-- C33 -/
example : ∃ before own after, Document (.obj (before ++ own ++ after)) docText ∧ Json (.obj own) (str "{\"rev\":7}") := by
  obtain ⟨doc, h⟩ := doc_json
  obtain ⟨x, o, y, rfl, h2, _⟩ := C33_spliced (m := 2) sample_writers (n := 3) (by decide) rfl doc_typed doc_marshals h (i := 0) rfl rfl rfl
    (.struct rfl) ⟨5, rfl⟩ (s' := str "{\"rev\":7}") ⟨5, rfl⟩
  exact ⟨x, o, y, h, h2⟩

set_option maxRecDepth 200000 in
/-- C33 does not speak of an embedded struct that is zero: it contributes nothing, although its
field has no `omitempty` -/
theorem C33_zero_left_out : Marshals Γ 3 (some (.struct [.struct [.int 0], used, .time ⟨3, 0⟩]))
      (.ok (str "{\"owner\":{\"id\":1,\"name\":\"old\",\"note\":\"n\",\"tags\":[\"q\"],\"level\":3,\"-\":\"s3cret\"},\"when\":\"T3\"}")) ∧
    Marshals Γ 2 (some (.struct [.int 0])) (.ok (str "{\"rev\":0}")) := ⟨⟨5, rfl⟩, ⟨5, rfl⟩⟩

/-- C42 -/
example : ∃ before after, Document (.obj (before ++ [(str "when", .str (str "T3"))] ++ after)) docText := by
  obtain ⟨doc, h⟩ := doc_json
  obtain ⟨x, y, rfl⟩ := C42_written sample_writers (n := 3) (by decide) rfl doc_typed doc_marshals h (i := 2) rfl rfl rfl rfl
  exact ⟨x, y, h⟩

/-- C26: what is written in the other order is JSON because what is written in this order is -/
example {doc : JV} (h : Document doc (str "{\"m\":{\"a\":1,\"b\":2}}")) : ∃ doc', Document doc' (str "{\"m\":{\"b\":2,\"a\":1}}") ∧ SameDoc doc doc' :=
  C26_same_document sample_writers noDoc_blind (by decide) ways_shuffled oneWay_typed oneWay_text otherWay_text h

/-- C31 -/
example {e : Option Err} {v' : GoVal} : Unmarshals Γ 50 tripText tripZero e v' ↔ e = none ∧ v' = tripVal.trim := by
  obtain ⟨doc, h, hd⟩ := trip_json
  exact C31_if_json_partial trip_package trip_writers trip_tripPackage (by decide) trip_typed trip_lossless trip_marshals h hd trip_zero

/-- C28, and with it C29, C30: the fields of the sample -/
example {z new : GoVal} {zs gs' : List GoVal} (hz : zs[1]? = some z) (hn : gs'[1]? = some new)
    (h : Unmarshals Γ 50 tripText (.struct zs) none (.struct gs')) : new = .int (-5) := by
  obtain ⟨doc, hj, hd⟩ := trip_json
  exact C28_round_trip (x := -5) trip_package trip_writers trip_tripPackage (n := 50) (by decide) rfl trip_typed trip_marshals hj hd
    (i := 1) rfl rfl (.named (n := 20) (p := .int8) rfl) (.inl (by decide)) hz hn h
example {z new : GoVal} {zs gs' : List GoVal} (hz : zs[5]? = some z) (hn : gs'[5]? = some new)
    (h : Unmarshals Γ 50 tripText (.struct zs) none (.struct gs')) : new = .bytes [1, 2, 255] := by
  obtain ⟨doc, hj, hd⟩ := trip_json
  exact C29_round_trip (b := [1, 2, 255]) trip_package trip_writers trip_tripPackage (n := 50) (by decide) rfl trip_typed
    trip_marshals hj hd (i := 5) rfl rfl (.inl ⟨.named rfl, rfl⟩) hz hn h
example {z new : GoVal} {zs gs' : List GoVal} (hz : zs[4]? = some z) (hn : gs'[4]? = some new)
    (h : Unmarshals Γ 50 tripText (.struct zs) none (.struct gs')) : new = .uuid someID := by
  obtain ⟨doc, hj, hd⟩ := trip_json
  exact C30_round_trip (b := someID) trip_package trip_writers trip_tripPackage (n := 50) (by decide) rfl trip_typed
    trip_marshals hj hd (i := 4) rfl rfl rfl hz hn h

end Examples
end VJ
