import Verif.Proof.EncodeSound
import Verif.Proof.EncodeUnique
import Verif.Props.Determinism
import Verif.Props.Total
import Verif.Props.Zero

/-!
# C21, C22, C24, C25, C33: what encoding writes

`Spec/Encode.lean` says which document a value stands for (`Enc`), which values the generated
code copes with (`Fine`) and what is asked of a package (`EncPackage`).
-/

namespace VJ
set_option linter.unusedSectionVars false

section
variable [Ext] {Γ : Env} {X : Nat → GoVal → Prop} {S : Nat → Prop} {F : Nat → Option GoVal → JV → Prop}

/-- **Encoding writes the document the value stands for**, as JSON text. -/
theorem encode_document (hP : EncPackage Γ F S) {n : Nat} (hn : S n) {v : GoVal} (hv : HasType Γ X (.named n) v)
    (hf : Fine Γ F (.named n) v) {s : Str} (h : Marshals Γ n (some v) (.ok s)) : ∃ jv, Enc Γ F (.decl n) v jv ∧ Json jv s := by
  obtain ⟨e, w, ⟨k, hk⟩, he⟩ := marshals_iff.1 h
  cases e with
  | some e => cases he
  | none =>
    obtain ⟨jv, s', h1, h2, rfl⟩ := (methods_sound (X := X) hP k).val n v W.empty w hn hv hf rfl hk
    cases he
    exact ⟨jv, h1, h2⟩

/-- the same for a nil receiver -/
theorem encode_nil (hP : EncPackage Γ F S) {n : Nat} (hn : S n) {s : Str} (h : Marshals Γ n none (.ok s)) :
    ∃ jv, NilDoc Γ F n jv ∧ Json jv s := by
  obtain ⟨e, w, ⟨k, hk⟩, he⟩ := marshals_iff.1 h
  cases e with
  | some e => cases he
  | none =>
    obtain ⟨jv, s', h1, h2, rfl⟩ := (methods_sound (X := fun _ _ => False) hP k).nil n W.empty w hn rfl hk
    cases he
    exact ⟨jv, h1, h2⟩

/-! ### C21: the output is JSON -/

/-- **C21, partial** (for values without comma trouble, see `Fine`): what `MarshalJSON` returns
is a JSON text, and denotes the document the value stands for and no other. -/
theorem C21_output_is_json_partial (hP : EncPackage Γ F S) (hF : ∀ n r a b, F n r a → F n r b → a = b) {n : Nat} (hn : S n) {v : GoVal}
    (hv : HasType Γ X (.named n) v) (hf : Fine Γ F (.named n) v) {s : Str} (h : Marshals Γ n (some v) (.ok s)) :
    ∃ jv, Json jv s ∧ Enc Γ F (.decl n) v jv ∧ ∀ jv', Enc Γ F (.decl n) v jv' → jv' = jv := by
  obtain ⟨jv, h1, h2⟩ := encode_document hP hn hv hf h
  exact ⟨jv, h2, h1, fun _ h => enc_unique hF h h1⟩

/-- **C21 for nil receivers**: always JSON. -/
theorem C21_nil_receiver (hP : EncPackage Γ F S) {n : Nat} (hn : S n) {s : Str} (h : Marshals Γ n none (.ok s)) : ∃ jv, Json jv s := by
  obtain ⟨jv, _, h⟩ := encode_nil hP hn h
  exact ⟨jv, h⟩

/-- In the types of the package every pointer field (but for pointers to times) has the option
`omitempty`, and no struct with its own method is embedded. -/
def NoTrouble (Γ : Env) (S : Nat → Prop) : Prop :=
  ∀ n strict fields fd k, S n → Γ.decl n = some (.struct strict fields) → fd ∈ fields → FieldKind Γ fd.typ k →
    ((k = .ptr ∨ k = .ptr2 ∨ ∃ m, k = .methodPtr m) → fd.tags.omitempty = true) ∧ ((∃ m, k = .method m) → fd.tags.jsonName ≠ [])

theorem part_good (hP : EncPackage Γ F S) {T t : TExpr} {V v : GoVal} (hT : EGood Γ S T) (h : Part Γ T V t v) : EGood Γ S t := by
  induction h with
  | self => exact hT
  | ptr _ ih => exact ih.star
  | slice _ _ ih => exact ih.slice
  | array _ _ ih => exact ih.array
  | map _ _ ih => exact ih.map
  | «alias» _ he hd ih => exact hP.«alias» (ih.name he) hd
  | field _ he hd hf _ ih => exact hP.field (ih.name he) hd (List.mem_of_getElem? hf)

/-- **C21 for packages without trouble, partial** (pointer fields all with `omitempty`, no
embedded structs with methods; pointers to times may be anything): whatever the value, if the
floats in it that are written are finite then what `MarshalJSON` returns is JSON. -/
theorem C21_no_trouble_partial (hP : EncPackage Γ F S) (hT : NoTrouble Γ S) {n : Nat} (hn : S n) {d : Decl} (hd : Γ.decl n = some d) {v : GoVal}
    (hv : HasType Γ X (.named n) v) (hfl : ∀ p f, Written Γ (.named n) v (.prim p) (.float f) → NumText (Ext.fmtFloat f))
    {s : Str} (h : Marshals Γ n (some v) (.ok s)) : ∃ jv, Json jv s := by
  have hg : EGood Γ S (.named n) := ⟨⟨by simp [TExpr.names, hn], rfl⟩, by simp [TExpr.sels]⟩
  refine (encode_document hP hn hv ⟨hfl, ?_, ?_⟩ h).imp fun _ h => h.2
  · intro e m strict fields gs hp he hd i j fd fd' g g' hij hfi hgi hfj hgj hno _
    refine ⟨i, fd, g, hij, hfi, hgi, hno, ?_⟩
    rintro ⟨ho, k, hk, _, hk'⟩
    have := (hT m strict fields fd k ((part_good hP hg hp.toPart).name he) hd (List.mem_of_getElem? hfi) hk).1 hk'
    rw [ho] at this; cases this
  · intro e m strict fields gs hp he hd i l fd g jv hfi hgi hn' hby hz henc
    exact absurd hn' ((hT m strict fields fd _ ((part_good hP hg hp.toPart).name he) hd (List.mem_of_getElem? hfi) (.method hby)).2 ⟨l, rfl⟩)

/-! ### C22: the members of the object -/

/-- a field that is not embedded contributes one member, under its name, or none -/
theorem field_members {fd : FieldDecl} {g : GoVal} {m : List (Str × JV)} (h : Enc Γ F (.field fd) g (.obj m)) :
    (Omitted Γ fd g ∧ m = []) ∨
    (¬ Omitted Γ fd g ∧ ((∃ d, m = [(fd.tags.jsonName, d)]) ∨
      ∃ n, FieldKind Γ fd.typ (.method n) ∧ fd.tags.jsonName = [] ∧ Enc Γ F (.decl n) g (.obj m))) := by
  have hr := enc_cases h
  obtain ⟨k, hk, ⟨ho, h1⟩ | ⟨hno, h1⟩⟩ := hr
  · cases h1; exact .inl ⟨ho, rfl⟩
  · refine .inr ⟨hno, ?_⟩
    rcases h1 with ⟨_, _, d, _, h1⟩ | h1
    · cases h1; exact .inl ⟨d, rfl⟩
    · cases k with
      | scalar => obtain ⟨_, d, _, h1⟩ := h1; cases h1; exact .inl ⟨d, rfl⟩
      | ptr => obtain ⟨_, d, _, _, h1⟩ := h1; cases h1; exact .inl ⟨d, rfl⟩
      | ptr2 => obtain ⟨_, d, _, _, h1⟩ := h1; cases h1; exact .inl ⟨d, rfl⟩
      | time => obtain ⟨_, _, _, h1⟩ := h1; cases h1; exact .inl ⟨_, rfl⟩
      | timePtr => obtain ⟨_, _, h1⟩ := h1; cases h1; exact .inl ⟨_, rfl⟩
      | uuid => obtain ⟨_, _, h1⟩ := h1; cases h1; exact .inl ⟨_, rfl⟩
      | uuidPtr => obtain ⟨_, _, h1⟩ := h1; cases h1; exact .inl ⟨_, rfl⟩
      | method n =>
        rcases h1 with ⟨_, d, _, h1⟩ | ⟨h1, h2⟩
        · cases h1; exact .inl ⟨d, rfl⟩
        · exact .inr ⟨n, hk, h1, h2.1⟩
      | methodPtr n => obtain ⟨_, d, _, _, h1⟩ := h1; cases h1; exact .inl ⟨d, rfl⟩
      | map e => obtain ⟨_, _, _, _, _, h1⟩ := h1; cases h1; exact .inl ⟨_, rfl⟩
      | list e => obtain ⟨_, _, _, _, _, h1⟩ := h1; cases h1; exact .inl ⟨_, rfl⟩
      | bytes => obtain ⟨_, _, h1⟩ := h1; cases h1; exact .inl ⟨_, rfl⟩
      | fixedBytes => obtain ⟨_, _, _, h1⟩ := h1; cases h1; exact .inl ⟨_, rfl⟩

/-- **C22, partial** (see `Fine`): the JSON object written for a struct has the members of its
fields, in the order in which they are declared.  A field contributes nothing if it is omitted,
and otherwise one member, under its JSON name (or, if embedded, the members of its own
object), whose value is the document of the field's value. -/
theorem C22_members_partial (hP : EncPackage Γ F S) {n : Nat} (hn : S n) {strict : Bool} {fields : List FieldDecl}
    (hd : Γ.decl n = some (.struct strict fields)) {gs : List GoVal} (hv : HasType Γ X (.named n) (.struct gs))
    (hf : Fine Γ F (.named n) (.struct gs)) {s : Str} (h : Marshals Γ n (some (.struct gs)) (.ok s)) :
    ∃ ms : List (List (Str × JV)), Json (.obj ms.flatten) s ∧ ms.length = fields.length ∧
      ∀ (i : Nat) (fd : FieldDecl) (g : GoVal) (m : List (Str × JV)), fields[i]? = some fd → gs[i]? = some g → ms[i]? = some m →
        Enc Γ F (.field fd) g (.obj m) ∧
        ((Omitted Γ fd g ∧ m = []) ∨
         (¬ Omitted Γ fd g ∧ ((∃ d, m = [(fd.tags.jsonName, d)]) ∨
           ∃ k, FieldKind Γ fd.typ (.method k) ∧ fd.tags.jsonName = [] ∧ Enc Γ F (.decl k) g (.obj m)))) := by
  obtain ⟨jv, h1, h2⟩ := encode_document hP hn hv hf h
  have := enc_declRes h1
  unfold DeclRes at this
  rw [hd] at this
  obtain ⟨gs', ms, hgs, rfl, _, hl, hms⟩ := this
  cases hgs
  exact ⟨ms, h2, hl, fun i fd g m h1 h2 h3 => ⟨hms i fd g m h1 h2 h3, field_members (hms i fd g m h1 h2 h3)⟩⟩

/-! ### C33: embedded structs -/

theorem flatten_split {α : Type} : ∀ (ms : List (List α)) (i : Nat) (h : i < ms.length),
    ms.flatten = (ms.take i).flatten ++ ms[i] ++ (ms.drop (i + 1)).flatten
  | m :: ms, 0, _ => by simp
  | m :: ms, i + 1, h => by simp [flatten_split ms i (by simpa using h)]

/-- **C33, the writing half, partial** (see `Fine`): an embedded struct that is not zero
contributes to the object exactly the members of its own object, in their order and in its
place among the fields. -/
theorem C33_spliced_partial (hP : EncPackage Γ F S) (hF : ∀ n r a b, F n r a → F n r b → a = b) {n : Nat} (hn : S n) {strict : Bool}
    {fields : List FieldDecl} (hd : Γ.decl n = some (.struct strict fields)) {gs : List GoVal} (hv : HasType Γ X (.named n) (.struct gs))
    (hf : Fine Γ F (.named n) (.struct gs)) {s : Str} (h : Marshals Γ n (some (.struct gs)) (.ok s))
    {i m : Nat} {fd : FieldDecl} {g : GoVal} (hi : fields[i]? = some fd) (hg : gs[i]? = some g) (he : fd.tags.jsonName = [])
    (hm : ByMethod Γ fd.typ m) (hz : IsZeroIs Γ m g false) {s' : Str} (h' : Marshals Γ m (some g) (.ok s')) :
    ∃ before own after, Json (.obj (before ++ own ++ after)) s ∧ Json (.obj own) s' ∧ own ≠ [] := by
  have hnm : NameOf (.named n) n := .named n
  obtain ⟨ms, hj, hl, hms⟩ := C22_members_partial hP hn hd hv hf h
  have hlen : i < ms.length := by rw [hl]; exact (List.getElem?_eq_some_iff.1 hi).1
  have hmi := List.getElem?_eq_getElem hlen
  obtain ⟨henc, hrest⟩ := hms i fd g _ hi hg hmi
  have hgood : EGood Γ S fd.typ := hP.field hn hd (List.mem_of_getElem? hi)
  obtain ⟨gs', hgs, _, hall⟩ := hv.of_struct hnm hd
  cases hgs
  have htyped := hm.typed (hall i fd g hi hg)
  have hnot : ¬ Omitted Γ fd g := not_omitted (.method hm) fun h => by
    cases h with
    | method h => cases isZero_unique h hz
  have hfine := hm.fine (hf.part (.field .self hnm hd hi hg hnot))
  obtain ⟨jv', h1, h2⟩ := encode_document hP (hm.inS hP.toTypeSet hgood) htyped hfine h'
  rcases hrest with ⟨h, _⟩ | ⟨_, hrest⟩
  · exact absurd h hnot
  · obtain ⟨kv, kvs, rfl⟩ := hf.splices (.named n) n strict fields gs .self hnm hd i m fd g jv' hi hg he hm hz h1
    have hown : Enc Γ F (.field fd) g (.obj (kv :: kvs)) := .spliced (.method hm) he hz h1
    have := enc_unique hF henc hown
    refine ⟨(ms.take i).flatten, ms[i], (ms.drop (i + 1)).flatten, ?_, ?_, ?_⟩
    · rwa [flatten_split ms i hlen] at hj
    · rw [this]; exact h2
    · simp only [JV.obj.injEq] at this; rw [this]; simp

/-! ### C24: nil -/

theorem json_null {s : Str} (h : Json .null s) : s = str "null" := by cases h; rfl

/-- **C24, receivers, partial** (not for structs without fields): `MarshalJSON` on a nil pointer
returns `null`. -/
theorem C24_nil_receiver_partial (hP : EncPackage Γ F S) {n : Nat} (hn : S n) {d : Decl} (hd : Γ.decl n = some d)
    (hs : ∀ strict, d ≠ .struct strict []) {s : Str} (h : Marshals Γ n none (.ok s)) : s = str "null" := by
  obtain ⟨jv, h1, h2⟩ := encode_nil hP hn h
  cases h1 with
  | noFields hd' => rw [hd] at hd'; cases hd'; exact absurd rfl (hs _)
  | null => exact json_null h2
  | foreign hd' => rw [hd] at hd'; cases hd'

/-- **C24, named collections**: a nil slice or map of a declared type is `null`. -/
theorem C24_named_nil (hP : EncPackage Γ F S) (hF : ∀ n r a b, F n r a → F n r b → a = b) {n : Nat} (hn : S n) {u : TExpr}
    (hd : Γ.decl n = some (.«alias» u)) (hu : IsCollection u) {s : Str} (h : Marshals Γ n (some .nil) (.ok s)) : s = str "null" := by
  have hne : ∀ T t v, Part Γ T .nil t v → v = .nil := by
    intro T t v h
    induction h with
    | self => rfl
    | «alias» _ _ _ ih => exact ih
    | ptr _ ih => cases ih
    | slice _ _ ih => cases ih
    | array _ _ ih => cases ih
    | map _ _ ih => cases ih
    | field _ _ _ _ _ ih => cases ih
  have hv : HasType Γ (fun _ _ => False) (.named n) .nil := by
    refine .«alias» (.named n) hd ?_
    rcases hu with ⟨e, rfl⟩ | ⟨e, rfl⟩
    · exact .nilSlice e
    · exact .nilMap e
  obtain ⟨jv, h1, h2⟩ := encode_document hP hn hv ⟨fun p f h => (by cases hne _ _ _ h.toPart), fun e n st fs gs h => (by cases hne _ _ _ h.toPart),
    fun e n st fs gs h => (by cases hne _ _ _ h.toPart)⟩ h
  cases enc_unique hF h1 (.namedNil hd hu)
  exact json_null h2

/-- **C24, fields, partial** (not for pointers to times and UUIDs): a nil pointer, slice or map
in a field that is written is written as `null`, under the name of the field. -/
theorem C24_nil_field_partial {fd : FieldDecl} {k : EKind} (hk : FieldKind Γ fd.typ k)
    (hs : k = .ptr ∨ k = .ptr2 ∨ (∃ n, k = .methodPtr n) ∨ (∃ e, k = .map e) ∨ (∃ e, k = .list e) ∨ k = .bytes)
    (ho : fd.tags.omitempty = false) (hF : ∀ n r a b, F n r a → F n r b → a = b) {m : List (Str × JV)}
    (h : Enc Γ F (.field fd) .nil (.obj m)) : m = [(fd.tags.jsonName, .null)] := by
  have : Enc Γ F (.field fd) .nil (.obj [(fd.tags.jsonName, .null)]) := by
    refine .empty hk ?_ ho (.null _ ?_)
    · rcases hs with rfl | rfl | ⟨n, rfl⟩ | ⟨e, rfl⟩ | ⟨e, rfl⟩ | rfl <;> constructor
    · rcases hs with rfl | rfl | ⟨n, rfl⟩ | ⟨e, rfl⟩ | ⟨e, rfl⟩ | rfl <;> simp
  have := enc_unique hF h this
  cases this; rfl

/-- **C24, elements, partial** (not for pointers to structs without fields, types of other
packages and nil slices): a nil pointer in a slice, array or map is `null`. -/
theorem C24_nil_element_partial {o : Bool} {y : TExpr} (hF : ∀ n r a b, F n r a → F n r b → a = b)
    (hy : (∃ p, IsPrim Γ y p) ∨ ((∀ p, ¬ IsPrim Γ y p) ∧ ∃ n d, NameOf y n ∧ Γ.decl n = some d ∧ ∀ strict, d ≠ .struct strict []))
    {jv : JV} (h : Enc Γ F (.elem o (.star y)) .nil jv) : jv = .null := by
  rcases hy with ⟨p, hy⟩ | ⟨hp, n, d, hy, hd, hs⟩
  · exact enc_unique hF h (.nilScalar (.self _) hy)
  · exact enc_unique hF h (.nilPtr hy hp (.null hd hs))

/-! ### C25: encoding appends -/

/-- **C25**: `MarshalTo` called on a writer that holds text already does the same as on an
empty one: same error, and the same text is appended to what is there. -/
theorem C25_appends (hF : ForeignTame Γ) {n : Nat} {r : Option GoVal} {e : Option EErr} {w : W} {text : Str} {err : Option EErr}
    (before : Str) (h : MarshalsTo Γ n r ⟨[], none⟩ e ⟨text, err⟩) : w = ⟨before, none⟩ →
    MarshalsTo Γ n r w e ⟨before ++ text, err⟩ := by
  rintro rfl
  obtain ⟨k, h⟩ := h
  refine ⟨k, ?_⟩
  have := (methods_tame hF k n r).frame before ⟨[], none⟩
  rw [h] at this
  simpa [W.after, Out.after] using this

/-- **C25, the other way round**: whatever `MarshalTo` leaves in a writer that held text
before begins with that text, and the rest is what it writes into an empty one. -/
theorem C25_keeps (hF : ForeignTame Γ) {n : Nat} {r : Option GoVal} {e : Option EErr} {w' : W} {before : Str}
    (h : MarshalsTo Γ n r ⟨before, none⟩ e w') :
    ∃ text, w'.buf = before ++ text ∧ MarshalsTo Γ n r ⟨[], none⟩ e ⟨text, w'.err⟩ := by
  obtain ⟨k, h⟩ := h
  have := (methods_tame hF k n r).frame before ⟨[], none⟩
  simp only [W.after, List.append_nil] at this
  rw [h] at this
  cases h0 : (Γ.methods k n).marshalTo r ⟨[], none⟩ with
  | ok p =>
    obtain ⟨e0, w0⟩ := p
    rw [h0] at this
    simp only [Out.after, Out.ok.injEq, Prod.mk.injEq] at this
    obtain ⟨rfl, rfl⟩ := this
    exact ⟨w0.buf, rfl, k, h0⟩
  | panic => rw [h0] at this; cases this
  | loop => rw [h0] at this; cases this
  | unsupp => rw [h0] at this; cases this

/-- **C25, `MarshalJSON`** returns what `MarshalTo` appends. -/
theorem C25_marshalJSON {n : Nat} {r : Option GoVal} {before text : Str} (hF : ForeignTame Γ) :
    Marshals Γ n r (.ok text) ↔ MarshalsTo Γ n r ⟨before, none⟩ none ⟨before ++ text, none⟩ := by
  constructor
  · intro h
    obtain ⟨e, w, h1, h2⟩ := marshals_iff.1 h
    cases e with
    | some e => cases h2
    | none =>
      obtain ⟨buf, err⟩ := w
      cases err with
      | some => cases h2
      | none => cases h2; exact C25_appends hF before h1 rfl
  · intro h
    obtain ⟨t, h1, h2⟩ := C25_keeps hF h
    have : text = t := List.append_cancel_left h1
    subst this
    exact marshals_iff.2 ⟨none, _, h2, rfl⟩

end
end VJ
