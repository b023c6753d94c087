import Verif.Proof.RoundTrip
import Verif.Props.Determinism

/-!
# The round trip, by induction on the encoding
-/

namespace VJ
set_option linter.unusedSectionVars false
set_option linter.unusedSimpArgs false

variable {Γ : Env} {X : Nat → GoVal → Prop} {S : Nat → Prop} {F : Nat → Option GoVal → JV → Prop} {T : TExpr} {V : GoVal} [Ext]

theorem noPtrAlias (hT : Trip Γ X F S T V) {t y : TExpr} (hg : Good S t) (h : Is Γ t (.star y)) : t = .star y := by
  cases h with
  | self => rfl
  | named hd => exact absurd rfl ((hT.shapes.alias _ _ (hg.name (.named _)) hd).2.1 y)

/-! ### elements -/

theorem uuid_parse {b : List UInt8} (h : b.length = 16) : ReadsUUID (uuidText b) b := .text (uuidText_text h).1

theorem typedUUID_length {v : List UInt8} (h : HasType Γ X .uuid (.uuid v)) : v.length = 16 := by
  cases h with
  | uuid h => exact h
  | «alias» he | foreign he => cases he

theorem barr_length {n : Nat} {b : List UInt8} (h : HasType Γ X (.array n (.prim .byte)) (.barr b)) : b.length = n := by
  cases h with
  | barr h => exact h
  | «alias» he | foreign he => cases he

/-- by the induction hypothesis for a declared type, for an element or pointee -/
theorem rt_nil_elem (hT : Trip Γ X F S T V) {t : TExpr} {n : Nat} {v : GoVal} (ht : NameOf t n) (h : ElementIn Γ T V t v) :
    v = .nil → Is Γ t (.slice (.prim .byte)) ∨ Γ.decl n = none := by
  rintro rfl
  rcases hT.lossless.nilElements t h with ⟨y, rfl⟩ | h | ⟨m, hm, h⟩
  · cases ht
  · exact .inl h
  · exact .inr (by rw [ht.inj hm]; exact h)

theorem alias_elem (hT : Trip Γ X F S T V) {n : Nat} {u e : TExpr} (hn : S n) (hd : Γ.decl n = some (.alias u)) (hb : e ≠ .prim .byte)
    (hu : u = .slice e ∨ ∃ len, u = .array len e) : Shape Γ e ∧ ¬ Stored Γ e ∧ ∀ y, e ≠ .star y := by
  obtain ⟨h1, _, h2⟩ := hT.shapes.alias n u hn hd
  refine ⟨?_, h2 e hu hb⟩
  rcases hu with rfl | ⟨len, rfl⟩
  · rcases h1 with h1 | h1
    · exact absurd h1 hb
    · exact h1
  · rcases h1 with h1 | h1
    · exact absurd h1 hb
    · exact h1.2

theorem list_cases {t e : TExpr} (h : ListOf Γ t e) : e ≠ .prim .byte ∧ ∃ u, Is Γ t u ∧ (u = .slice e ∨ ∃ len, u = .array len e) := by
  obtain ⟨hb, h | ⟨len, h⟩⟩ := h
  · exact ⟨hb, _, h, .inl rfl⟩
  · exact ⟨hb, _, h, .inr ⟨len, rfl⟩⟩

theorem list_shape (hT : Trip Γ X F S T V) {t u e : TExpr} (hg : Good S t) (hs : Shape Γ t) (hi : Is Γ t u) (hb : e ≠ .prim .byte)
    (hu : u = .slice e ∨ ∃ len, u = .array len e) : Shape Γ e ∧ ∀ len, u = .array len e → ∀ y, e ≠ .star y := by
  have h := hT.shapes.is hg hs hi
  rcases hu with rfl | ⟨len, rfl⟩
  · rcases h with h | h
    · exact absurd h hb
    · exact ⟨h, by simp⟩
  · rcases h with h | h
    · exact absurd h hb
    · exact ⟨h.2, fun _ _ => h.1⟩

theorem list_good {u e : TExpr} (hg : EGood Γ S u) (hu : u = .slice e ∨ ∃ len, u = .array len e) : EGood Γ S e := by
  rcases hu with rfl | ⟨len, rfl⟩
  · exact hg.slice
  · exact hg.array

theorem rt_elem_list (hT : Trip Γ X F S T V) {t e : TExpr} {v : GoVal} {es : List GoVal} {docs : List JV} {o o' : Bool} (ht : ListOf Γ t e) (hv : Listing v es)
    (hl : docs.length = es.length)
    (ih : ∀ (i : Nat) (x : GoVal) (d : JV), es[i]? = some x → docs[i]? = some d → RT Γ X S T V (.elem o e) x d) : RT Γ X S T V (.elem o' t) v (.arr docs) := by
  intro he hty hg hs
  obtain ⟨hb, u, hi, hu⟩ := list_cases ht
  have hsh := list_shape hT hg.good hs hi hb hu
  have hge := list_good (hg.is hT.enc.toTypeSet hi) hu
  have hel := list_elems hb hu hv (he.part.is hi) (hty.of_is hi) hge hsh.1 ih
  exact .inr ⟨fun _ => by simp, (list_reads hT hi hb hu hv hty hge hsh.2 hl hel).2⟩

theorem rt_namedList (hT : Trip Γ X F S T V) {n : Nat} {u e : TExpr} {v : GoVal} {es : List GoVal} {docs : List JV} (hd : Γ.decl n = some (.alias u))
    (hb : e ≠ .prim .byte) (hu : u = .slice e ∨ ∃ len, u = .array len e) (hv : Listing v es) (hl : docs.length = es.length)
    (ih : ∀ (i : Nat) (x : GoVal) (d : JV), es[i]? = some x → docs[i]? = some d → RT Γ X S T V (.elem true e) x d) :
    RT Γ X S T V (.decl n) v (.arr docs) := by
  have h1 : (∀ p, u ≠ .prim p) ∧ ∀ m, ¬ NameOf u m := by
    rcases hu with rfl | ⟨len, rfl⟩ <;> exact ⟨by simp, by rintro m ⟨⟩⟩
  refine rt_alias hT hd h1.1 h1.2 (by simp) ?_ ?_
  · intro hn hp hty hg old _
    obtain ⟨hs1, hs2, hs3⟩ := alias_elem hT hn hd hb hu
    have hel := list_elems hb hu hv hp hty (list_good hg hu) hs1 ih
    rcases hu with rfl | ⟨len, rfl⟩
    · rcases hty.slice_cases hb with rfl | ⟨es', sp, rfl, _, _⟩
      · cases hv
      · cases hv
        rw [trim_slice]
        exact .slice hb (by simp [hl]) fun i a w hd hw => elem_new hs2 hs3 hel hd hw
    · obtain ⟨es', rfl, hlen, _⟩ := hty.array_cases hb
      cases hv
      rw [trim_arr]
      exact .array hb (by omega) (by simp [hlen]) fun i a w hd hw => elem_new hs2 hs3 hel hd hw
  · intro hn hp hty hg hty' _
    obtain ⟨hs1, hs2, hs3⟩ := alias_elem hT hn hd hb hu
    have hel := list_elems hb hu hv hp hty (list_good hg hu) hs1 ih
    exact (list_reads hT (.named hd) hb hu hv hty' (list_good hg hu) (fun _ _ => hs3) hl hel).2

theorem rt_namedMap (hT : Trip Γ X F S T V) {n : Nat} {e : TExpr} {kvs : List (Str × GoVal)} {docs : List JV} (hd : Γ.decl n = some (.alias (.map e)))
    (hl : docs.length = kvs.length)
    (ih : ∀ (i : Nat) (kv : Str × GoVal) (d : JV), kvs[i]? = some kv → docs[i]? = some d → RT Γ X S T V (.elem true e) kv.2 d) :
    RT Γ X S T V (.decl n) (.map kvs) (.obj ((kvs.map (·.1)).zip docs)) := by
  refine rt_alias hT hd (by simp) (by rintro m ⟨⟩) (by simp) ?_ ?_
  · intro hn hp hty hg old _
    have hsh := (hT.shapes.alias n _ hn hd).1
    have hel := map_elems hp hty hg.map hsh.1 ih
    exact map_named hel.2 hl hsh.2 hel.1
  · intro hn hp hty hg hty' _
    have hsh := (hT.shapes.alias n _ hn hd).1
    have hel := map_elems hp hty hg.map hsh.1 ih
    refine ⟨fun z hz => ?_, fun h => absurd (.inr ⟨e, .named hd⟩) h⟩
    have := (zeroOf_nil (.inr (.inr ⟨e, rfl⟩))).1 ((zeroOf_is (.named hd)).1 hz)
    subst this
    exact map_reads (.named hd) hel.2 hl hsh.2 (.inl rfl) hel.1

theorem is_noCalls {t u : TExpr} (h : Is Γ t u) (hu : ∀ p, u ≠ .prim p) (hu2 : ∀ p, u ≠ .named p) (hu3 : ∀ p, u ≠ .sel p) (hs : u ≠ .structT) :
    ∀ n, ¬ Calls Γ t n := is_calls h hu hu2 hu3 hs

theorem rt_namedTime (hT : Trip Γ X F S T V) {n : Nat} {tm : Time} {s : Str} (hd : Γ.decl n = some (.alias .time)) (h : Ext.timeText tm = some s) :
    RT Γ X S T V (.decl n) (.time tm) (.str s) := by
  refine rt_alias hT hd (by simp) (by rintro m ⟨⟩) (by simp) ?_ ?_
  · intro hn hp _ _ old _
    rw [trim_time]
    exact .other rfl (by rintro m ⟨⟩) (.time (.self _) ((hT.lossless.times tm hp).2 s h))
  · intro hn hp _ _ _ _
    refine .of_always (is_calls (.named hd) (by simp) (by simp) (by simp) (by simp)) fun L hL old => ?_
    rcases hL with rfl | hL
    · rw [trim_time]
      exact .time (.named hd) ((hT.lossless.times tm hp).2 s h)
    · exact absurd (.named hd) hL

theorem rt_namedUUID (hT : Trip Γ X F S T V) {n : Nat} (b : List UInt8) (hd : Γ.decl n = some (.alias .uuid)) :
    RT Γ X S T V (.decl n) (.uuid b) (.str (uuidText b)) := by
  refine rt_alias hT hd (by simp) (by rintro m ⟨⟩) (by simp) ?_ ?_
  · intro hn hp hty _ old _
    rw [trim_uuid]
    exact .other rfl (by rintro m ⟨⟩) (.uuid (.self _) (uuid_parse (typedUUID_length hty)))
  · intro hn hp hty _ _ _
    refine .of_always (is_calls (.named hd) (by simp) (by simp) (by simp) (by simp)) fun L hL old => ?_
    rw [trim_uuid]
    exact .uuid (.named hd) (uuid_parse (typedUUID_length hty))

theorem rt_namedNil (hT : Trip Γ X F S T V) {n : Nat} {u : TExpr} (hd : Γ.decl n = some (.alias u)) (hu : IsCollection u) :
    RT Γ X S T V (.decl n) .nil .null := by
  have h1 : (∀ p, u ≠ .prim p) ∧ (∀ m, ¬ NameOf u m) ∧ u.isCollection = true := by
    rcases hu with ⟨e, rfl⟩ | ⟨e, rfl⟩ <;> exact ⟨by simp, (by rintro m ⟨⟩), rfl⟩
  refine rt_alias hT hd h1.1 h1.2.1 (by simp) ?_ ?_
  · intro _ _ _ _ old hold
    have := (zeroOf_nil (t := u) (by rcases hu with h | h; exacts [.inr (.inl h), .inr (.inr h)])).1 hold
    subst this
    rw [trim_nil]
    exact .null h1.2.2
  · intro _ _ _ _ _ h
    have := h rfl
    subst this
    exact .of_always (is_calls (.named hd) (by simp) (by simp) (by simp) (by simp)) fun L hL old => .bytesNull (.named hd)

theorem rt_namedBytes (hT : Trip Γ X F S T V) {n : Nat} (b : List UInt8) (hd : Γ.decl n = some (.alias (.slice (.prim .byte)))) :
    RT Γ X S T V (.decl n) (.bytes b) (.str (b64Encode b)) := by
  refine rt_alias hT hd (by simp) (by rintro m ⟨⟩) (by simp) ?_ ?_
  · intro _ _ _ _ old _
    rw [trim_bytes]
    exact .bytes (base64Text_encode b)
  · intro _ _ _ _ _ _
    refine .of_always (is_calls (.named hd) (by simp) (by simp) (by simp) (by simp)) fun L hL old => ?_
    rw [trim_bytes]
    exact .bytes (.named hd) (base64Text_encode b)

theorem rt_namedFixed (hT : Trip Γ X F S T V) {n len : Nat} (b : List UInt8) (hd : Γ.decl n = some (.alias (.array len (.prim .byte)))) :
    RT Γ X S T V (.decl n) (.barr b) (.str (b64Encode b)) := by
  refine rt_alias hT hd (by simp) (by rintro m ⟨⟩) (by simp) ?_ ?_
  · intro _ _ hty _ old _
    rw [trim_barr]
    exact .fixedBytes (base64Text_encode b) (barr_length hty)
  · intro _ _ hty _ _ _
    refine .of_always (is_calls (.named hd) (by simp) (by simp) (by simp) (by simp)) fun L hL old => ?_
    rw [trim_barr]
    exact .fixedBytes (.named hd) (base64Text_encode b) (barr_length hty)

/-! ### fields -/

/-- the field reads its own member -/
theorem field_member (hT : Trip Γ X F S T V) {fd : FieldDecl} {jv : JV} {d : List (Str × JV)} {z new : GoVal} (hf : FieldOf Γ S fd) (hn : fd.tags.jsonName ≠ [])
    (hat : ∀ key, FieldName Γ fd key → membersAt key d = membersAt key [(fd.tags.jsonName, jv)]) (hnn : fd.typ.nullLike = true → jv ≠ .null)
    (hd : Decodes Γ fd.tags.layout fd.typ jv z new) (hm : NotTooLarge Γ fd.typ jv) : FieldResult Γ fd (.obj d) z new := by
  obtain ⟨n, strict, fields, hs, hdn, hmem⟩ := hf
  refine .decoded (hT.trip.named n strict fields fd hs hdn hmem).1 (.inr ⟨hn, get_some ?_⟩) hnn hd hm
  rw [hat _ (.inl ⟨hn, rfl⟩)]
  simp [membersAt]

theorem notTooLarge_str {t : TExpr} {jv : JV} (h : ∀ r, jv ≠ .num r) : NotTooLarge Γ t jv :=
  fun _ _ _ hr => absurd hr (h _)

theorem FieldOf.good (hT : Trip Γ X F S T V) {fd : FieldDecl} (hf : FieldOf Γ S fd) : EGood Γ S fd.typ := by
  obtain ⟨n, strict, fields, hs, hd, hm⟩ := hf
  exact hT.enc.field hs hd hm

theorem FieldOf.shape (hT : Trip Γ X F S T V) {fd : FieldDecl} (hf : FieldOf Γ S fd) :
    Shape Γ fd.typ ∧ ∀ e, Is Γ fd.typ (.map e) → ¬ Is Γ (pointee e) .time := by
  obtain ⟨n, strict, fields, hs, hd, hm⟩ := hf
  exact hT.shapes.field n strict fields fd hs hd hm

/-- the field keeps its zero value because it is absent or `null` -/
theorem field_kept (hT : Trip Γ X F S T V) {fd : FieldDecl} {d : List (Str × JV)} {z : GoVal} (hf : FieldOf Γ S fd)
    (hm : Missing fd (.obj d)) (ho : fd.tags.omitempty = true ∨ fd.typ.nullLike = true) : FieldResult Γ fd (.obj d) z z := by
  obtain ⟨n, strict, fields, hs, hdn, hmem⟩ := hf
  have hal := hT.trip.always n strict fields fd hs hdn hmem
  have hno : ¬ (fd.tags.dflt ≠ [] ∨ fd.tags.required = true) := by
    intro h
    obtain ⟨h1, h2, _⟩ := hal h
    rcases ho with h | h
    · rw [h1] at h; cases h
    · rw [h2] at h; cases h
  refine .kept (hT.trip.named n strict fields fd hs hdn hmem).1 hm ?_ ?_
  · by_cases h : fd.tags.dflt = []
    · exact h
    · exact absurd (.inl h) hno
  · cases h : fd.tags.required
    · rfl
    · exact absurd (.inr h) hno

/-- the struct a nameless field embeds -/
theorem embedded_struct (hT : Trip Γ X F S T V) {fd : FieldDecl} (hf : FieldOf Γ S fd) (hn : fd.tags.jsonName = []) :
    ∃ m fields, fd.typ = .named m ∧ Γ.decl m = some (.struct false fields) ∧ S m ∧ Embedded Γ S m ∧ fd.tags.jsonName ≠ str "-" := by
  obtain ⟨n, strict, fields, hs, hd, hm⟩ := hf
  have h := hT.trip.named n strict fields fd hs hd hm
  obtain ⟨m, fields', ht, hd'⟩ := h.2 hn
  exact ⟨m, fields', ht, hd', (hT.pkg.field hs hd hm).names m (by rw [ht]; simp [TExpr.names]), ⟨n, strict, fields, fd, hs, hd, hm, hn, ht⟩, h.1⟩

theorem rt_omitted (hT : Trip Γ X F S T V) {fd : FieldDecl} {v : GoVal} (h : Omitted Γ fd v) : RT Γ X S T V (.field fd) v (.obj []) := by
  intro hin hty hf m d hm hne hat z hz
  cases hm
  have hzv := hT.lossless.omits fd v hin h
  have := zeroOf_unique hz hzv
  subst this
  rw [trim_zeroOf hT.trip hT.pkg (hf.good hT).good hz]
  by_cases hn : fd.tags.jsonName = []
  · obtain ⟨m, fields, ht, hd, hS, hemb, hdash⟩ := embedded_struct hT hf hn
    rw [ht] at hz
    have := zero_skips hT.pkg hT.trip hS hd hemb hne (fun key hkey => by
      rw [hat key (.inr ⟨hn, m, ht, hkey⟩)]; rfl) ((zeroOf_name (.named _)).1 hz)
    refine .decoded hdash (.inl ⟨hn, rfl⟩) (by simp) ?_ (notTooLarge_str (by simp))
    rw [ht]
    exact .call (.struct hd) this
  · refine field_kept hT hf (.inl ⟨hn, get_none ?_⟩) ?_
    · rw [hat _ (.inl ⟨hn, rfl⟩)]; rfl
    · obtain ⟨k, _, _, h | ⟨_, h⟩⟩ := h
      · exact .inl h
      · exact absurd h hn

theorem rt_scalar (hT : Trip Γ X F S T V) {fd : FieldDecl} {v : GoVal} {jv : JV} (hk : FieldKind Γ fd.typ .scalar) (h : ScalarDoc v jv) :
    RT Γ X S T V (.field fd) v (.obj [(fd.tags.jsonName, jv)]) := by
  intro hin hty hf m d hm hne hat z hz
  cases hm
  have hn := fieldKind_named hT.trip hf hk (by simp)
  have hg := hf.good hT
  have hs := (hf.shape hT).1
  have hpart := hin.part
  refine field_member hT hf hn hat (fun _ => scalarDoc_null h) ?_ ?_
  · generalize fd.typ = t at *
    cases hk with
    | scalar hp => exact .prim (.base hp) (scalar_dec hT (.base hp) hpart hty (hT.shapes.isPrim hg.good hs hp) h)
  · generalize fd.typ = t at *
    cases hk with
    | scalar hp =>
      rename_i p
      have hpt : pointee t = t := isPrim_pointee hp
      refine notTooLarge_doc (fun p' hp' => ?_) h fun p' f hp' hf => ?_
      · rw [hpt] at hp'; exact hty.of_isPrim hp'
      · rw [hpt] at hp'
        subst hf
        have := hT.lossless.floats p' f (hpart.isPrim hp')
        exact ⟨this.1, fun h => (this.2.2 h).2⟩

/-- a number `0` is read as zero -/
theorem rt_zeroFloat (hT : Trip Γ X F S T V) {fd : FieldDecl} {f : F64} (hk : FieldKind Γ fd.typ .scalar) (h0 : f.isZero = true) :
    RT Γ X S T V (.field fd) (.float f) (.obj [(fd.tags.jsonName, .num (str "0"))]) := by
  intro hin hty hf m d hm hne hat z hz
  cases hm
  have hn := fieldKind_named hT.trip hf hk (by simp)
  have hpart := hin.part
  rw [trim_float]
  refine field_member hT hf hn hat (fun _ => by simp) ?_ ?_
  · generalize fd.typ = t at *
    cases hk with
    | scalar hp =>
      rename_i p
      have hfl := hT.lossless.floats p f (hpart.isPrim hp)
      have hf0 := hfl.2.1 h0
      have hpt := hty.of_isPrim hp
      refine .prim (.base hp) ?_
      subst hf0
      cases hpt with
      | float64 => exact .float64 hT.trip.zeroText
      | float32 =>
        have := PrimDec.float32 hT.trip.zeroText
        rwa [((hfl.2.2) rfl).1] at this
  · generalize fd.typ = t at *
    cases hk with
    | scalar hp =>
      have hpt : pointee t = t := isPrim_pointee hp
      intro p raw hp' hraw
      cases hraw
      rw [hpt] at hp'
      have hfl := hT.lossless.floats p f (hpart.isPrim hp')
      have hf0 := hfl.2.1 h0
      refine ⟨fun hi => ?_, fun h32 g hg => ?_⟩
      · have := hty.of_isPrim hp'
        cases this <;> cases hi
      · rw [hT.trip.zeroText] at hg
        cases hg
        rw [← hf0]
        exact (hfl.2.2 h32).2

theorem rt_ptr (hT : Trip Γ X F S T V) {fd : FieldDecl} {v : GoVal} {jv : JV} (hk : FieldKind Γ fd.typ .ptr) (h : ScalarDoc v jv) :
    RT Γ X S T V (.field fd) (.ptr v) (.obj [(fd.tags.jsonName, jv)]) := by
  intro hin hty hf m d hm hne hat z hz
  cases hm
  have hn := fieldKind_named hT.trip hf hk (by simp)
  have hg := (hf.good hT).good
  have hs := (hf.shape hT).1
  have hpart := hin.part
  have hkk : ∃ t p, fd.typ = .star t ∧ IsPrim Γ t p := by
    generalize fd.typ = t at *
    cases hk with
    | ptr h => exact ⟨_, _, rfl, h⟩
    | namedPtr h => exact absurd rfl ((hT.shapes.alias _ _ (hg.name (.named _)) h).2.1 _)
  obtain ⟨t, p, ht, hp⟩ := hkk
  rw [ht] at hty hg hs hpart
  have hty' : HasType Γ X t v := by
    rcases hty.star_cases with h | ⟨w, h, hw⟩
    · cases h
    · cases h; exact hw
  refine field_member hT hf hn hat (fun _ => scalarDoc_null h) ?_ ?_
  · rw [ht, trim_ptr]
    have hdec := scalar_dec hT (.base hp) (.ptr hpart) hty' (hT.shapes.isPrim hg.star hs.2 hp) h
    exact .ptr (.other (primName_noCalls (.base hp)) fun old => .prim (.base hp) hdec)
  · rw [ht]
    refine notTooLarge_doc (fun p' hp' => hty'.of_isPrim hp') h fun p' f hp' hf => ?_
    subst hf
    have := hT.lossless.floats p' f ((Part.ptr hpart).isPrim hp')
    exact ⟨this.1, fun h => (this.2.2 h).2⟩

theorem rt_ptr2 (hT : Trip Γ X F S T V) {fd : FieldDecl} {v : GoVal} {jv : JV} (hk : FieldKind Γ fd.typ .ptr2) (h : ScalarDoc v jv) :
    RT Γ X S T V (.field fd) (.ptr (.ptr v)) (.obj [(fd.tags.jsonName, jv)]) := by
  intro hin hty hf m d hm hne hat z hz
  cases hm
  have hn := fieldKind_named hT.trip hf hk (by simp)
  have hg := (hf.good hT).good
  have hs := (hf.shape hT).1
  have hpart := hin.part
  have hkk : ∃ p, fd.typ = .star (.star (.prim p)) := by
    generalize fd.typ = t at *
    cases hk with
    | ptr2 h => rw [noPtrAlias hT hg.star h]; exact ⟨_, rfl⟩
  obtain ⟨p, ht⟩ := hkk
  rw [ht] at hty hg hs hpart
  have hty' : HasType Γ X (.prim p) v := by
    rcases hty.star_cases with h | ⟨w, h, hw⟩
    · cases h
    · cases h
      rcases hw.star_cases with h | ⟨w, h, hw⟩
      · cases h
      · cases h; exact hw
  refine field_member hT hf hn hat (fun _ => scalarDoc_null h) ?_ ?_
  · rw [ht, trim_ptr, trim_ptr]
    have hdec := scalar_dec hT (.base (.self p)) (.ptr (.ptr hpart)) hty' hs.2.2 h
    exact .ptr (.other (by rintro k ⟨⟩) fun old => .ptr (.other (by rintro k ⟨⟩) fun old => .prim (.base (.self p)) hdec))
  · rw [ht]
    exact notTooLarge_other (by rintro p ⟨⟩)

/-- a type with a method, as field or behind a pointer -/
theorem byMethod_reads (hT : Trip Γ X F S T V) {t : TExpr} {n : Nat} {jv : JV} {v : GoVal} (hb : ByMethod Γ t n) (hg : EGood Γ S t)
    (hp : Part Γ T V t v) (hv : HasType Γ X t v) (ih : RT Γ X S T V (.decl n) v jv) :
    (∀ L z, ZeroOf Γ t z → Decodes Γ L t jv z v.trim) ∧ (∀ L, DecodesNew Γ L t jv v.trim) ∧ (v ≠ .nil → jv ≠ .null) := by
  cases hb with
  | struct hd =>
    obtain ⟨iA, _, _, iD⟩ := ih _ (.named n) hp hv (hg.name (.named n))
    have hnil : NilOK Γ n v := by
      obtain ⟨gs, rfl, _⟩ := hv.of_struct (.named n) hd
      intro h; cases h
    have := calls_reads hT (.struct hd) hg hp hv fun z hz => iA z jv hnil hz (.inl rfl)
    exact ⟨this.1, this.2, iD⟩
  | sel hd =>
    obtain ⟨iA, _, _, iD⟩ := ih _ (.sel n) hp hv (hg.name (.sel n))
    have := calls_reads hT (.sel (by intro p h; cases h with | sel h => rw [hd] at h; cases h)) hg hp hv fun z hz => iA z jv (fun _ => .inl hd) hz (.inl rfl)
    exact ⟨this.1, this.2, iD⟩
  | @named k _ hd =>
    have hk := hg.name (.named k)
    have hg' := hT.enc.alias hk hd
    have hdn := hg'.sel
    have hp' := Part.alias hp (.named k) hd
    have hv' := hv.of_alias (.named k) hd
    have hnp : ∀ p, ¬ IsPrim Γ (.sel n) p := by intro p h; cases h with | sel h => rw [hdn] at h; cases h
    obtain ⟨_, iB, _, iD⟩ := ih _ (.sel n) hp' hv' (hg'.name (.sel n))
    have hR := iB hg' hnp fun _ => .inr hdn
    have hc : Calls Γ (.sel n) n := .sel hnp
    have hA : ∀ z, ZeroIs Γ k z → Fills Γ k jv z none v.trim := fun z hz =>
      fills_named hT hk hd hz fun _ _ => .fresh hc (hR.2 (calls_not_stored hc) [] (.inl rfl))
    have := calls_reads hT (.name hd (.sel n) hnp) hg hp hv hA
    exact ⟨this.1, this.2, iD⟩

theorem byMethod_noPrim {t : TExpr} {n : Nat} (h : ByMethod Γ t n) (p : Prim) : ¬ IsPrim Γ t p := by
  intro hp
  cases h with
  | struct hd => cases hp with | named h => rw [hd] at h; cases h
  | sel hd => cases hp with | sel h => rw [hd] at h; cases h
  | named hd => cases hp with | named h => rw [hd] at h; cases h

theorem byMethod_pointee {t : TExpr} {n : Nat} (h : ByMethod Γ t n) : pointee t = t := by cases h <;> rfl

theorem rt_method (hT : Trip Γ X F S T V) {fd : FieldDecl} {n : Nat} {v : GoVal} {jv : JV} (hk : FieldKind Γ fd.typ (.method n)) (hn : fd.tags.jsonName ≠ [])
    (ih : RT Γ X S T V (.decl n) v jv) : RT Γ X S T V (.field fd) v (.obj [(fd.tags.jsonName, jv)]) := by
  intro hin hty hf m d hm hne hat z hz
  cases hm
  have hg := hf.good hT
  have hpart := hin.part
  have hb : ByMethod Γ fd.typ n := by
    generalize fd.typ = t at *
    cases hk with
    | method h => exact h
  have hr := byMethod_reads hT hb hg hpart hty ih
  refine field_member hT hf hn hat (fun h => ?_) (hr.1 _ z hz) (notTooLarge_other ?_)
  · generalize fd.typ = t at *
    cases hb <;> cases h
  · rw [byMethod_pointee hb]; exact byMethod_noPrim hb

theorem rt_methodPtr (hT : Trip Γ X F S T V) {fd : FieldDecl} {n : Nat} {v : GoVal} {jv : JV} (hk : FieldKind Γ fd.typ (.methodPtr n))
    (ih : RT Γ X S T V (.decl n) v jv) : RT Γ X S T V (.field fd) (.ptr v) (.obj [(fd.tags.jsonName, jv)]) := by
  intro hin hty hf m d hm hne hat z hz
  cases hm
  have hn := fieldKind_named hT.trip hf hk (by simp)
  have hg := hf.good hT
  have hpart := hin.part
  have hb : ∃ t, fd.typ = .star t ∧ ByMethod Γ t n := by
    generalize fd.typ = t at *
    cases hk with
    | methodPtr h => exact ⟨_, rfl, h⟩
  obtain ⟨t, ht, hb⟩ := hb
  rw [ht] at hg hpart hty
  have hty' : HasType Γ X t v := by
    rcases hty.star_cases with h | ⟨w, h, hw⟩
    · cases h
    · cases h; exact hw
  have hr := byMethod_reads hT hb hg.star (.ptr hpart) hty' ih
  have hnn : v ≠ .nil := by rintro rfl; exact hT.lossless.nilPtrs t hpart
  refine field_member hT hf hn hat (fun _ => hr.2.2 hnn) ?_ (notTooLarge_other ?_)
  · rw [ht, trim_ptr]; exact .ptr (hr.2.1 _)
  · rw [ht]; exact byMethod_noPrim hb

theorem rt_spliced (hT : Trip Γ X F S T V) {fd : FieldDecl} {n : Nat} {v : GoVal} {kvs : List (Str × JV)} (hk : FieldKind Γ fd.typ (.method n))
    (hn : fd.tags.jsonName = []) (ih : RT Γ X S T V (.decl n) v (.obj kvs)) : RT Γ X S T V (.field fd) v (.obj kvs) := by
  intro hin hty hf m d hm hne hat z hz
  cases hm
  have hpart := hin.part
  obtain ⟨m, fields, ht, hd, hS, hemb, hdash⟩ := embedded_struct hT hf hn
  rw [ht] at hk hty hpart hz
  have hnm : n = m := by
    cases hk with
    | method h =>
      cases h with
      | struct => rfl
      | named h => rw [hd] at h; cases h
  subst hnm
  obtain ⟨iA, _⟩ := ih _ (.named n) hpart hty hS
  have hnil : NilOK Γ n v := by
    obtain ⟨gs, rfl, _⟩ := hty.of_struct (.named n) hd
    intro h; cases h
  have := iA z (.obj d) hnil ((zeroOf_name (.named _)).1 hz) (.inr ⟨⟨fields, hd⟩, _, d, rfl, rfl, hne, fun key hkey => hat key (.inr ⟨hn, n, ht, hkey⟩)⟩)
  refine .decoded hdash (.inl ⟨hn, rfl⟩) (by simp) ?_ (notTooLarge_str (by simp))
  rw [ht]
  exact .call (.struct hd) this

theorem is_noPrim {t u : TExpr} (h : Is Γ t u) (hu : ∀ p, u ≠ .prim p) (hu2 : ∀ m, u ≠ .named m) (hu3 : ∀ m, u ≠ .sel m) (p : Prim) : ¬ IsPrim Γ t p := by
  intro hp
  have := primName_final (.base hp)
  rw [is_resolve h hu hu2 hu3] at this
  exact hu p this

theorem rt_mapField (hT : Trip Γ X F S T V) {fd : FieldDecl} {e : TExpr} {kvs : List (Str × GoVal)} {docs : List JV} (hk : FieldKind Γ fd.typ (.map e))
    (hl : docs.length = kvs.length)
    (ih : ∀ (i : Nat) (kv : Str × GoVal) (d : JV), kvs[i]? = some kv → docs[i]? = some d → RT Γ X S T V (.elem true e) kv.2 d) :
    RT Γ X S T V (.field fd) (.map kvs) (.obj [(fd.tags.jsonName, .obj ((kvs.map (·.1)).zip docs))]) := by
  intro hin hty hf m d hm hne hat z hz
  cases hm
  have hn := fieldKind_named hT.trip hf hk (by simp)
  have hg := hf.good hT
  have hs := hf.shape hT
  have hi : Is Γ fd.typ (.map e) := by
    generalize fd.typ = t at *
    cases hk with
    | map h => exact h
  have hsh := hT.shapes.is hg.good hs.1 hi
  have hel := map_elems (hin.part.is hi) (hty.of_is hi) (hg.is hT.enc.toTypeSet hi).map hsh.1 ih
  refine field_member hT hf hn hat (fun _ => by simp) ?_ (notTooLarge_str (by simp))
  have := (zeroOf_nil (.inr (.inr ⟨e, rfl⟩))).1 ((zeroOf_is hi).1 hz)
  subst this
  exact map_reads hi hel.2 hl hsh.2 (.inr (hs.2 e hi)) hel.1

theorem rt_listField (hT : Trip Γ X F S T V) {fd : FieldDecl} {e : TExpr} {v : GoVal} {es : List GoVal} {docs : List JV} (hk : FieldKind Γ fd.typ (.list e))
    (hv : Listing v es) (hl : docs.length = es.length)
    (ih : ∀ (i : Nat) (x : GoVal) (d : JV), es[i]? = some x → docs[i]? = some d → RT Γ X S T V (.elem true e) x d) :
    RT Γ X S T V (.field fd) v (.obj [(fd.tags.jsonName, .arr docs)]) := by
  intro hin hty hf m d hm hne hat z hz
  cases hm
  have hn := fieldKind_named hT.trip hf hk (by simp)
  have hg := hf.good hT
  have hs := hf.shape hT
  have hlo : ListOf Γ fd.typ e := by
    generalize fd.typ = t at *
    cases hk with
    | slice h hb => exact ⟨hb, .inl h⟩
    | array h hb => exact ⟨hb, .inr ⟨_, h⟩⟩
  obtain ⟨hb, u, hi, hu⟩ := list_cases hlo
  have hsh := list_shape hT hg.good hs.1 hi hb hu
  have hge := list_good (hg.is hT.enc.toTypeSet hi) hu
  have hel := list_elems hb hu hv (hin.part.is hi) (hty.of_is hi) hge hsh.1 ih
  exact field_member hT hf hn hat (fun _ => by simp) ((list_reads hT hi hb hu hv hty hge hsh.2 hl hel).1 _ z hz) (notTooLarge_str (by simp))

theorem rt_simple (hT : Trip Γ X F S T V) {fd : FieldDecl} {k : EKind} {v : GoVal} {jv : JV} (hk : FieldKind Γ fd.typ k) (hkn : ∀ n, k ≠ .method n)
    (hj : ∀ r, jv ≠ .num r) (hj2 : jv ≠ .null) (h : EGood Γ S fd.typ → FieldIn Γ T V fd v → HasType Γ X fd.typ v → ∀ z, ZeroOf Γ fd.typ z → Decodes Γ fd.tags.layout fd.typ jv z v.trim) :
    RT Γ X S T V (.field fd) v (.obj [(fd.tags.jsonName, jv)]) := by
  intro hin hty hf m d hm hne hat z hz
  cases hm
  have hn := fieldKind_named hT.trip hf hk hkn
  exact field_member hT hf hn hat (fun _ => hj2) (h (hf.good hT) hin hty z hz) (notTooLarge_str hj)

/-- an empty value written as `null` -/
theorem rt_null (hT : Trip Γ X F S T V) {fd : FieldDecl} {k : EKind} {v : GoVal} (hk : FieldKind Γ fd.typ k) (hv : IsEmpty Γ k v)
    (ho : fd.tags.omitempty = false) (hkk : k ≠ .scalar ∧ k ≠ .time ∧ k ≠ .timePtr ∧ ∀ n, k ≠ .method n) :
    RT Γ X S T V (.field fd) v (.obj [(fd.tags.jsonName, .null)]) := by
  intro hin hty hf m d hm hne hat z hz
  cases hm
  have hn := fieldKind_named hT.trip hf hk hkk.2.2.2
  have hg := hf.good hT
  have hlook : Looks fd.tags.jsonName (.obj d) .null := .inr ⟨hn, get_some (by rw [hat _ (.inl ⟨hn, rfl⟩)]; simp [membersAt])⟩
  -- the zero value is the value
  have hnil : ∀ {u : TExpr}, Is Γ fd.typ u → ((∃ w, u = .star w) ∨ (∃ w, u = .slice w) ∨ ∃ w, u = .map w) → z = .nil :=
    fun hi h => (zeroOf_nil h).1 ((zeroOf_is hi).1 hz)
  have hkept : fd.typ.nullLike = true → z = v.trim → FieldResult Γ fd (.obj d) z v.trim := by
    intro hnl hzv
    rw [← hzv]
    exact field_kept hT hf (.inr ⟨hnl, hlook⟩) (.inr hnl)
  have hcoll : ∀ u, (∃ e, u = .slice e ∧ e ≠ .prim .byte) ∨ (∃ e, u = .map e) → Is Γ fd.typ u → v = .nil → FieldResult Γ fd (.obj d) z v.trim := by
    intro u hu hi hv0
    subst hv0
    have hzn : z = .nil := hnil hi (by
      rcases hu with ⟨e, rfl, _⟩ | ⟨e, rfl⟩
      · exact .inr (.inl ⟨e, rfl⟩)
      · exact .inr (.inr ⟨e, rfl⟩))
    rcases hT.lossless.nilFields fd hin with h | h | h
    · exact hkept h (by rw [hzn, trim_nil])
    · rw [ho] at h; cases h
    · exfalso
      rcases hu with ⟨e, rfl, hb⟩ | ⟨e, rfl⟩
      · have := is_unique h hi (by simp) (by simp) (by simp) (by simp) (by simp) (by simp)
        cases this; exact hb rfl
      · cases is_unique h hi (by simp) (by simp) (by simp) (by simp) (by simp) (by simp)
  have hptr : ∀ {w : TExpr}, fd.typ = .star w → v = .nil → FieldResult Γ fd (.obj d) z v.trim := by
    intro w hw hv0
    refine hkept (by rw [hw]; rfl) ?_
    rw [hnil (u := .star w) (by rw [hw]; exact .self _) (.inl ⟨w, rfl⟩), hv0, trim_nil]
  have hmem : fd.typ.nullLike = false → Decodes Γ fd.tags.layout fd.typ .null z v.trim → FieldResult Γ fd (.obj d) z v.trim :=
    fun hnl h => field_member hT hf hn hat (fun h => by rw [hnl] at h; cases h) h (notTooLarge_str (by simp))
  cases hv with
  | scalar => exact absurd rfl hkk.1
  | time => exact absurd rfl hkk.2.1
  | timePtr => exact absurd rfl hkk.2.2.1
  | method => exact absurd rfl (hkk.2.2.2 _)
  | ptr =>
    have : ∃ w, fd.typ = .star w := by
      generalize fd.typ = t at *
      cases hk with
      | ptr => exact ⟨_, rfl⟩
      | namedPtr h => exact absurd rfl ((hT.shapes.alias _ _ (hg.name (.named _)) h).2.1 _)
    obtain ⟨w, hw⟩ := this
    exact hptr hw rfl
  | ptr2 =>
    have : ∃ w, fd.typ = .star w := by
      generalize fd.typ = t at *
      cases hk with
      | ptr2 => exact ⟨_, rfl⟩
    obtain ⟨w, hw⟩ := this
    exact hptr hw rfl
  | ptr2' =>
    exfalso
    have hpart := hin.part
    have : ∃ w, fd.typ = .star w := by
      generalize fd.typ = t at *
      cases hk with
      | ptr2 => exact ⟨_, rfl⟩
    obtain ⟨w, hw⟩ := this
    rw [hw] at hpart
    exact hT.lossless.nilPtrs w hpart
  | methodPtr =>
    have : ∃ w, fd.typ = .star w := by
      generalize fd.typ = t at *
      cases hk with
      | methodPtr => exact ⟨_, rfl⟩
    obtain ⟨w, hw⟩ := this
    exact hptr hw rfl
  | @map e =>
    have hi : Is Γ fd.typ (.map e) := by
      generalize fd.typ = t at *
      cases hk with
      | map h => exact h
    exact hcoll _ (.inr ⟨e, rfl⟩) hi rfl
  | @list e =>
    have hi : (Is Γ fd.typ (.slice e) ∧ e ≠ .prim .byte) ∨ ∃ len, Is Γ fd.typ (.array len e) ∧ e ≠ .prim .byte := by
      generalize fd.typ = t at *
      cases hk with
      | slice h hb => exact .inl ⟨h, hb⟩
      | array h hb => exact .inr ⟨_, h, hb⟩
    rcases hi with ⟨hi, hb⟩ | ⟨len, hi, hb⟩
    · exact hcoll _ (.inl ⟨e, rfl, hb⟩) hi rfl
    · obtain ⟨es, h, _⟩ := (hty.of_is hi).array_cases hb
      cases h
  | bytes =>
    have hi : Is Γ fd.typ (.slice (.prim .byte)) := by
      generalize fd.typ = t at *
      cases hk with
      | bytes h => exact h
    cases hnl : fd.typ.nullLike with
    | true => exact hkept hnl (by rw [hnil hi (.inr (.inl ⟨_, rfl⟩)), trim_nil])
    | false => exact hmem hnl (by rw [trim_nil]; exact .bytesNull hi)
  | @fixedBytes b hb =>
    have hi : ∃ len, Is Γ fd.typ (.array len (.prim .byte)) := by
      generalize fd.typ = t at *
      cases hk with
      | fixedBytes h => exact ⟨_, h⟩
    obtain ⟨len, hi⟩ := hi
    have hlen := barr_length (hty.of_is hi)
    have hbz : b = List.replicate len 0 := by
      rw [← hlen]; exact List.eq_replicate_iff.2 ⟨rfl, hb⟩
    have hz0 : z = .barr (List.replicate len 0) := by
      refine zeroOf_unique ((zeroOf_is hi).1 hz) ⟨0, ?_⟩
      simp [zeroT, TExpr.isByte]
    cases hnl : fd.typ.nullLike with
    | true => exact hkept hnl (by rw [trim_barr, hz0, hbz])
    | false => exact hmem hnl (by rw [trim_barr, hbz]; exact .fixedBytesNull hi)

/-- **Everything encoding writes is read back.** -/
theorem round_trip (hT : Trip Γ X F S T V) {pl : Place} {v : GoVal} {jv : JV} (h : Enc Γ F pl v jv) : RT Γ X S T V pl v jv := by
  induction h with
  | scalar ht h =>
    intro he hty hg hs
    exact .inr ⟨fun _ => scalarDoc_null h, .of_prim ht (scalar_dec hT ht he.part hty (hT.shapes.primName hT.pkg hg.good hs ht) h)⟩
  | time tm =>
    intro he hty hg hs
    refine .inr ⟨fun _ => by simp, .of_always (by rintro n ⟨⟩) fun L hL old => ?_⟩
    rcases hL with rfl | hL
    · rw [trim_time]
      exact .time (.self _) (readsNano (hT.lossless.times tm he.part).1)
    · exact absurd (.self _) hL
  | nilScalar ht hy =>
    intro he hty hg hs
    exact .inl ⟨⟨_, noPtrAlias hT hg.good ht⟩, rfl, rfl⟩
  | ptrScalar ht hy h =>
    intro he hty hg hs
    have := noPtrAlias hT hg.good ht
    subst this
    have hpart := Part.ptr he.part
    rcases hty.star_cases with h' | ⟨w, h', hw⟩
    · cases h'
    · cases h'
      refine .inr ⟨fun _ => scalarDoc_null h, .of_ptr (isPrim_pointee hy) hs.1 (.of_prim (.base hy) ?_)⟩
      exact scalar_dec hT (.base hy) hpart hw (hT.shapes.isPrim hg.star.good hs.2 hy) h
  | @nilPtr o y n jv hy hp h =>
    intro he hty hg hs
    refine .inl ⟨⟨_, rfl⟩, rfl, ?_⟩
    cases h with
    | noFields hd => exact absurd hd (hT.lossless.nilEmpty y n _ he hy)
    | null => rfl
    | foreign hd h => exact hT.trip.foreignNil n _ (hg.star.name hy) hd h
  | @ptr o y n v jv hy hp h ih =>
    intro he hty hg hs
    have hpart := he.part
    have hnn : v ≠ .nil := by rintro rfl; exact hT.lossless.nilPtrs y hpart
    rcases hty.star_cases with h' | ⟨w, h', hw⟩
    · cases h'
    · cases h'
      obtain ⟨_, iB, _, iD⟩ := ih y hy (.ptr hpart) hw (hg.star.name hy)
      exact .inr ⟨fun _ => iD hnn, .of_ptr (nameOf_pointee hy) hs.1 (iB hg.star hp fun h => absurd h hnn)⟩
  | @nilList t e ht =>
    intro he hty hg hs
    exfalso
    obtain ⟨hb, u, hi, hu⟩ := list_cases ht
    rcases hT.lossless.nilElements t he with ⟨y, rfl⟩ | h | ⟨n, hn, h⟩
    · rcases hu with rfl | ⟨len, rfl⟩ <;> cases hi
    · rcases hu with rfl | ⟨len, rfl⟩
      · have := is_unique h hi (by simp) (by simp) (by simp) (by simp) (by simp) (by simp)
        cases this; exact hb rfl
      · cases is_unique h hi (by simp) (by simp) (by simp) (by simp) (by simp) (by simp)
    · cases hi with
      | self => rcases hu with rfl | ⟨len, rfl⟩ <;> cases hn
      | named hd => cases hn; rw [hd] at h; cases h
  | list ht hv hl h ih => exact rt_elem_list hT ht hv hl ih
  | name ht hp hl h ih =>
    intro he hty hg hs
    obtain ⟨_, iB, _, iD⟩ := ih _ ht he.part hty (hg.name ht)
    exact .inr ⟨fun h => (by cases ht <;> cases h), iB hg hp (rt_nil_elem hT ht he)⟩
  | foreign hd h => exact rt_foreign hT hd h
  | struct hd hl hm h ih => exact rt_struct hT hd hl hm h ih
  | namedScalar hd h => exact rt_namedScalar hT hd h
  | namedTime hd h => exact rt_namedTime hT hd h
  | namedUUID b hd => exact rt_namedUUID hT b hd
  | namedNil hd hu => exact rt_namedNil hT hd hu
  | namedBytes b hd => exact rt_namedBytes hT b hd
  | namedFixed b hd => exact rt_namedFixed hT b hd
  | namedList hd hb hu hv hl h ih => exact rt_namedList hT hd hb hu hv hl ih
  | namedMap hd hl h ih => exact rt_namedMap hT hd hl ih
  | namedName hd hu h ih => exact rt_namedName hT hd hu ih
  | omitted h => exact rt_omitted hT h
  | @empty fd k v jv hk hv ho h =>
    cases h with
    | float f =>
      cases hv with
      | scalar h => cases h with | float h => exact rt_zeroFloat hT hk h
    | scalar _ h => exact rt_scalar hT hk h
    | time =>
      cases hv with
      | @time tm h0 =>
        refine rt_simple hT hk (by simp) (by simp) (by simp) fun hg hin _ z _ => ?_
        have ht : fd.typ = .time := by
          generalize fd.typ = t at *
          cases hk; rfl
        obtain ⟨h1, h2⟩ := (hT.lossless.timeFields fd tm (.inl hin) (by rw [ht]; rfl)).2 h0
        rw [trim_time, ht]
        subst h1
        exact .time (.self _) h2
    | timePtr =>
      cases hv
      intro hin hty hf
      have ht : fd.typ = .star .time := by
        have hg := hf.good hT
        generalize fd.typ = t at *
        cases hk with
        | timePtr h => exact noPtrAlias hT hg.good h
      have := hT.lossless.nilTimes fd hin ht
      rw [ho] at this; cases this
    | null _ h => exact rt_null hT hk hv ho h
  | scalarField hk hv h => exact rt_scalar hT hk h
  | ptrField hk h => exact rt_ptr hT hk h
  | ptr2Field hk h => exact rt_ptr2 hT hk h
  | @timeField fd tm hk hz =>
    refine rt_simple hT hk (by simp) (by simp) (by simp) fun hg hin _ z _ => ?_
    have ht : fd.typ = .time := by
      generalize fd.typ = t at *
      cases hk; rfl
    have h1 := (hT.lossless.timeFields fd tm (.inl hin) (by rw [ht]; rfl)).1
    rw [trim_time, ht]
    exact .time (.self _) h1
  | @timePtrField fd tm hk =>
    refine rt_simple hT hk (by simp) (by simp) (by simp) fun hg hin _ z _ => ?_
    have ht : fd.typ = .star .time := by
      generalize fd.typ = t at *
      cases hk with
      | timePtr h => exact noPtrAlias hT hg.good h
    have h1 := (hT.lossless.timeFields fd tm (.inr hin) (by rw [ht]; rfl)).1
    rw [trim_ptr, trim_time, ht]
    exact .ptr (.other (by rintro n ⟨⟩) fun old => .time (.self _) h1)
  | @uuidField fd b hk =>
    refine rt_simple hT hk (by simp) (by simp) (by simp) fun hg hin hty z _ => ?_
    have ht : fd.typ = .uuid := by
      generalize fd.typ = t at *
      cases hk; rfl
    rw [ht] at hty
    rw [trim_uuid, ht]
    exact .uuid (.self _) (uuid_parse (typedUUID_length hty))
  | @uuidPtrField fd b hk =>
    refine rt_simple hT hk (by simp) (by simp) (by simp) fun hg hin hty z _ => ?_
    have ht : fd.typ = .star .uuid := by
      generalize fd.typ = t at *
      cases hk; rfl
    rw [ht] at hty
    rw [trim_ptr, trim_uuid, ht]
    rcases hty.star_cases with h | ⟨w, h, hw⟩
    · cases h
    · cases h
      exact .ptr (.other (by rintro n ⟨⟩) fun old => .uuid (.self _) (uuid_parse (typedUUID_length hw)))
  | methodField hk hn ho h ih => exact rt_method hT hk hn ih
  | methodPtrField hk h ih => exact rt_methodPtr hT hk ih
  | spliced hk hn hz h ih => exact rt_spliced hT hk hn ih
  | mapField hk hl h ih => exact rt_mapField hT hk hl ih
  | listField hk hv hl h ih => exact rt_listField hT hk hv hl ih
  | @bytesField fd b hk =>
    refine rt_simple hT hk (by simp) (by simp) (by simp) fun hg hin hty z _ => ?_
    have hi : Is Γ fd.typ (.slice (.prim .byte)) := by
      generalize fd.typ = t at *
      cases hk with
      | bytes h => exact h
    rw [trim_bytes]
    exact .bytes hi (base64Text_encode b)
  | @fixedField fd b hk hb =>
    refine rt_simple hT hk (by simp) (by simp) (by simp) fun hg hin hty z _ => ?_
    have hi : ∃ len, Is Γ fd.typ (.array len (.prim .byte)) := by
      generalize fd.typ = t at *
      cases hk with
      | fixedBytes h => exact ⟨_, h⟩
    obtain ⟨len, hi⟩ := hi
    rw [trim_barr]
    exact .fixedBytes hi (base64Text_encode b) (barr_length (hty.of_is hi))

end VJ
