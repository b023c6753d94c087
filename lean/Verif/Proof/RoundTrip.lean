import Verif.Proof.TripKeys
import Verif.Proof.EncodeUnique
import Verif.Props.Omitempty

/-!
# Decoding what was encoded
-/

namespace VJ
set_option linter.unusedSectionVars false
set_option linter.unusedSimpArgs false

variable {Γ : Env} {X : Nat → GoVal → Prop} {S : Nat → Prop} {F : Nat → Option GoVal → JV → Prop} {T : TExpr} {V : GoVal} [Ext]

/-- everything that is assumed -/
structure Trip (Γ : Env) (X : Nat → GoVal → Prop) (F : Nat → Option GoVal → JV → Prop) (S : Nat → Prop) (T : TExpr) (V : GoVal) : Prop where
  pkg : Package Γ X S
  enc : EncPackage Γ F S
  trip : TripPackage Γ X F S
  shapes : Shapes Γ S
  lossless : Lossless Γ T V

/-- the document is read back as the value -/
def Reads (Γ : Env) (t : TExpr) (jv : JV) (v : GoVal) : Prop :=
  (∀ z, ZeroOf Γ t z → Decodes Γ [] t jv z v.trim) ∧
  (¬ Stored Γ t → ∀ L, (L = [] ∨ ¬ Is Γ (pointee t) .time) → DecodesNew Γ L t jv v.trim)

theorem Reads.of_always {t : TExpr} {jv : JV} {v : GoVal} (hc : ∀ n, ¬ Calls Γ t n)
    (h : ∀ L, (L = [] ∨ ¬ Is Γ (pointee t) .time) → ∀ old, Decodes Γ L t jv old v.trim) : Reads Γ t jv v :=
  ⟨fun z _ => h [] (.inl rfl) z, fun _ L hL => .other hc (h L hL)⟩

theorem Reads.of_prim {t : TExpr} {p : Prim} {jv : JV} {v : GoVal} (ht : PrimName Γ t p) (h : PrimDec p jv v.trim) : Reads Γ t jv v :=
  .of_always (primName_noCalls ht) fun _ _ _ => .prim ht h

theorem Reads.of_ptr {y : TExpr} {jv : JV} {w : GoVal} (hy : pointee y = y) (hs : ¬ Stored Γ y) (h : Reads Γ y jv w) : Reads Γ (.star y) jv (.ptr w) := by
  refine .of_always (by rintro n ⟨⟩) fun L hL old => ?_
  rw [trim_ptr]
  refine .ptr (h.2 hs L ?_)
  rw [hy]
  exact hL

theorem calls_name {t : TExpr} {n : Nat} (h : Calls Γ t n) : NameOf t n := by
  cases h <;> first | exact .named _ | exact .sel _

/-- a type with its own method -/
theorem calls_reads (hT : Trip Γ X F S T V) {t : TExpr} {n : Nat} {jv : JV} {v : GoVal} (hc : Calls Γ t n) (hg : EGood Γ S t)
    (hp : Part Γ T V t v) (hv : HasType Γ X t v) (hA : ∀ z, ZeroIs Γ n z → Fills Γ n jv z none v.trim) :
    (∀ L z, ZeroOf Γ t z → Decodes Γ L t jv z v.trim) ∧ ∀ L, DecodesNew Γ L t jv v.trim := by
  obtain ⟨z, hz⟩ := zeroOf_exists hT.pkg hg.good
  have hz' := (zeroOf_name (calls_name hc)).1 hz
  obtain ⟨k, hk⟩ := conv_self hT.trip hT.pkg hv hg.good hp fun p f h h32 => ((hT.lossless.floats p f h).2.2 h32).1
  exact ⟨fun L z hz => .call hc (hA z ((zeroOf_name (calls_name hc)).1 hz)), fun L => .call hc hz' (hA z hz') (calls_conv hc hk)⟩

/-- nil only where it can be read back -/
def NilOK (Γ : Env) (n : Nat) (v : GoVal) : Prop :=
  v = .nil → Γ.decl n = none ∨ ∃ u, Γ.decl n = some (.alias u) ∧ IsCollection u

/-- documents a struct can be read from -/
def Agrees (Γ : Env) (n : Nat) (jv doc : JV) : Prop :=
  doc = jv ∨ ((∃ fields, Γ.decl n = some (.struct false fields)) ∧ ∃ m d, jv = .obj m ∧ doc = .obj d ∧ (∀ kv ∈ d, kv.1 ≠ []) ∧
    ∀ key, HasName Γ n key → membersAt key d = membersAt key m)

theorem Agrees.same {n : Nat} {u : TExpr} {jv doc : JV} (hd : Γ.decl n = some (.alias u)) (h : Agrees Γ n jv doc) : doc = jv := by
  rcases h with h | ⟨⟨_, h⟩, _⟩
  · exact h
  · rw [hd] at h; cases h

/-- what the induction says -/
def RT (Γ : Env) (X : Nat → GoVal → Prop) (S : Nat → Prop) (T : TExpr) (V : GoVal) : Place → GoVal → JV → Prop
  | .elem _ t, v, jv => ElementIn Γ T V t v → HasType Γ X t v → EGood Γ S t → Shape Γ t →
      ((∃ y, t = .star y) ∧ v = .nil ∧ jv = .null) ∨ ((t.nullLike = true → jv ≠ .null) ∧ Reads Γ t jv v)
  | .decl n, v, jv => ∀ e, NameOf e n → Part Γ T V e v → HasType Γ X e v → S n →
      (∀ z doc, NilOK Γ n v → ZeroIs Γ n z → Agrees Γ n jv doc → Fills Γ n doc z none v.trim) ∧
      (EGood Γ S e → (∀ p, ¬ IsPrim Γ e p) → (v = .nil → Is Γ e (.slice (.prim .byte)) ∨ Γ.decl n = none) → Reads Γ e jv v) ∧
      (∀ p, PrimName Γ e p → PrimDec p jv v.trim) ∧
      (v ≠ .nil → jv ≠ .null)
  | .field fd, v, jv => FieldIn Γ T V fd v → HasType Γ X fd.typ v → FieldOf Γ S fd → ∀ m d, jv = .obj m →
      (∀ kv ∈ d, kv.1 ≠ []) → (∀ key, FieldName Γ fd key → membersAt key d = membersAt key m) →
      ∀ z, ZeroOf Γ fd.typ z → FieldResult Γ fd (.obj d) z v.trim

/-! ### scalars -/

theorem Shapes.primName (hS : Shapes Γ S) (hP : Package Γ X S) {t : TExpr} {p : Prim} (hg : Good S t) (hs : Shape Γ t) (h : PrimName Γ t p) :
    p ≠ .byte ∧ p ≠ .rune := by
  cases h with
  | base h => exact hS.isPrim hg hs h
  | chain hd h => exact hS.isPrim (hP.alias (hg.name (.named _)) hd) (hS.alias _ _ (hg.name (.named _)) hd).1 h

theorem scalar_dec (hT : Trip Γ X F S T V) {t : TExpr} {p : Prim} {v : GoVal} {jv : JV} (hp : PrimName Γ t p) (hpart : Part Γ T V t v)
    (hv : HasType Γ X t v) (hb : p ≠ .byte ∧ p ≠ .rune) (h : ScalarDoc v jv) : PrimDec p jv v.trim := by
  have hpt := hv.of_primName hp
  rw [trim_prim hpt]
  refine primDec_doc hb hpt h fun f hf => ?_
  subst hf
  have := hT.lossless.floats p f (hpart.primName hp)
  exact ⟨this.1, fun h => (this.2.2 h).1⟩

theorem scalarDoc_null {v : GoVal} {jv : JV} (h : ScalarDoc v jv) : jv ≠ .null := by cases h <;> simp

theorem primName_nullLike {t : TExpr} {p : Prim} (h : PrimName Γ t p) : t.nullLike = false := by
  cases h with
  | base h => cases h <;> rfl
  | chain => rfl

theorem isPrim_pointee {t : TExpr} {p : Prim} (h : IsPrim Γ t p) : pointee t = t := by cases h <;> rfl
theorem nameOf_pointee {t : TExpr} {n : Nat} (h : NameOf t n) : pointee t = t := by cases h <;> rfl

theorem readsNano {tm : Time} (h : Ext.parseTime layoutNano (Ext.fmtTime layoutNano tm) = some tm) : ReadsTime [] (Ext.fmtTime layoutNano tm) tm :=
  .default (pre := []) rfl (by simp) h

/-! ### lists and maps -/

/-- the elements of a list or map -/
def ElemsRead (Γ : Env) (e : TExpr) (es : List GoVal) (docs : List JV) : Prop :=
  ∀ (i : Nat) (x : GoVal) (d : JV), es[i]? = some x → docs[i]? = some d →
    ((∃ y, e = .star y) ∧ x = .nil ∧ d = .null) ∨ ((e.nullLike = true → d ≠ .null) ∧ Reads Γ e d x)

theorem map_get {α β : Type} {f : α → β} {es : List α} {i : Nat} {w : β} (h : (es.map f)[i]? = some w) : ∃ x, es[i]? = some x ∧ f x = w := by
  rw [List.getElem?_map] at h
  cases hx : es[i]? with
  | none => rw [hx] at h; cases h
  | some x => rw [hx] at h; exact ⟨x, rfl, by simpa using h⟩

/-- a slice read into a nil slice -/
theorem slice_reads {t e : TExpr} {es sp : List GoVal} {docs : List JV} {L : Str} {ze : GoVal} (ht : Is Γ t (.slice e)) (hb : e ≠ .prim .byte)
    (hz : ZeroOf Γ e ze) (hl : docs.length = es.length) (h : ElemsRead Γ e es docs) :
    Decodes Γ L t (.arr docs) .nil (GoVal.slice es sp).trim := by
  have := Decodes.slice (L := L) (t := t) (l := docs) (old := .nil) (z := ze) (news := es.map GoVal.trim) ht hb hz .fromNil (by simp [hl])
    (fun i w hn hd hw => ?_) (fun i a c w hd hc hw hnn => ?_)
  · simpa using this
  · obtain ⟨x, hx, rfl⟩ := map_get hw
    rcases h i x .null hx hd with ⟨_, rfl, _⟩ | ⟨h, _⟩
    · simp
    · exact absurd rfl (h hn)
  · obtain ⟨x, hx, rfl⟩ := map_get hw
    have hcz : c = ze := List.eq_of_mem_replicate (List.mem_of_getElem? hc)
    subst hcz
    rcases h i x a hx hd with ⟨⟨y, rfl⟩, _, rfl⟩ | ⟨_, h⟩
    · exact absurd rfl (hnn rfl)
    · exact h.1 _ hz

theorem array_reads {t e : TExpr} {es : List GoVal} {docs : List JV} {L : Str} {ze old : GoVal} {n : Nat} (ht : Is Γ t (.array n e)) (hb : e ≠ .prim .byte)
    (hz : ZeroOf Γ e ze) (hl : docs.length = es.length) (hn : es.length = n) (hst : ∀ y, e ≠ .star y) (h : ElemsRead Γ e es docs) :
    Decodes Γ L t (.arr docs) old (GoVal.arr es).trim := by
  rw [trim_arr]
  refine .array ht hb hz (by omega) (by simp [hn]) fun i a w hd hw => ?_
  obtain ⟨x, hx, rfl⟩ := map_get hw
  rcases h i x a hx hd with ⟨⟨y, rfl⟩, _⟩ | ⟨_, h⟩
  · exact absurd rfl (hst y)
  · exact h.1 _ hz

theorem zip_get {ks : List Str} {docs : List JV} {i : Nat} {key : Str} {a : JV} (h : (ks.zip docs)[i]? = some (key, a)) : docs[i]? = some a := by
  rw [List.getElem?_zip_eq_some] at h
  exact h.2

theorem map_set {kvs : List (Str × GoVal)} {docs : List JV} (hl : docs.length = kvs.length) (hk : (kvs.map (·.1)).Nodup) :
    setAll [] ((((kvs.map (·.1)).zip docs).map (·.1)).zip ((kvs.map (·.2)).map GoVal.trim)) = kvs.map fun kv => (kv.1, kv.2.trim) := by
  have h1 : ((kvs.map (·.1)).zip docs).map (·.1) = kvs.map (·.1) := by
    rw [List.map_fst_zip]
    simp [hl]
  rw [h1]
  have h2 : (kvs.map (·.1)).zip ((kvs.map (·.2)).map GoVal.trim) = kvs.map fun kv => (kv.1, kv.2.trim) := by
    rw [List.map_map, List.zip_map']
    rfl
  rw [h2, setAll_fresh]
  · rfl
  · simpa [List.map_map, Function.comp_def] using hk

theorem map_reads {t e : TExpr} {kvs : List (Str × GoVal)} {docs : List JV} {L : Str} (ht : Is Γ t (.map e)) (hk : (kvs.map (·.1)).Nodup)
    (hl : docs.length = kvs.length) (hs : ¬ Stored Γ e) (hL : L = [] ∨ ¬ Is Γ (pointee e) .time) (h : ElemsRead Γ e (kvs.map (·.2)) docs) :
    Decodes Γ L t (.obj ((kvs.map (·.1)).zip docs)) .nil (GoVal.map kvs).trim := by
  have := Decodes.map (L := L) (kvs := (kvs.map (·.1)).zip docs) (old := .nil) (m0 := []) (news := (kvs.map (·.2)).map GoVal.trim) ht (.inl ⟨rfl, rfl⟩)
    (by simp [hl]) (fun i key w hst hd hw => ?_) (fun i key a w hd hw hnn => ?_)
  · rwa [map_set hl hk, ← trim_map] at this
  · obtain ⟨x, hx, rfl⟩ := map_get hw
    rcases h i x .null hx (zip_get hd) with ⟨_, rfl, _⟩ | ⟨h, _⟩
    · simp
    · obtain ⟨y, rfl⟩ := hst
      exact absurd rfl (h rfl)
  · obtain ⟨x, hx, rfl⟩ := map_get hw
    rcases h i x a hx (zip_get hd) with ⟨hst, _, rfl⟩ | ⟨_, h⟩
    · exact absurd rfl (hnn hst)
    · exact h.2 hs L hL

theorem map_named {e : TExpr} {kvs : List (Str × GoVal)} {docs : List JV} {old : GoVal} (hk : (kvs.map (·.1)).Nodup)
    (hl : docs.length = kvs.length) (hs : ¬ Stored Γ e) (h : ElemsRead Γ e (kvs.map (·.2)) docs) :
    NamedResult Γ (.map e) (.obj ((kvs.map (·.1)).zip docs)) old (GoVal.map kvs).trim := by
  have := NamedResult.map (Γ := Γ) (val := e) (kvs := (kvs.map (·.1)).zip docs) (old := old) (news := (kvs.map (·.2)).map GoVal.trim)
    (by simp [hl]) (fun i key w hst hd hw => ?_) (fun i key a w hd hw hnn => ?_)
  · rwa [map_set hl hk, ← trim_map] at this
  · obtain ⟨x, hx, rfl⟩ := map_get hw
    rcases h i x .null hx (zip_get hd) with ⟨_, rfl, _⟩ | ⟨h, _⟩
    · simp
    · obtain ⟨y, rfl⟩ := hst
      exact absurd rfl (h rfl)
  · obtain ⟨x, hx, rfl⟩ := map_get hw
    rcases h i x a hx (zip_get hd) with ⟨hst, _, rfl⟩ | ⟨_, h⟩
    · exact absurd rfl (hnn hst)
    · exact h.2 hs [] (.inl rfl)

theorem elem_new {e : TExpr} {es : List GoVal} {docs : List JV} (hs : ¬ Stored Γ e) (hst : ∀ y, e ≠ .star y) (h : ElemsRead Γ e es docs)
    {i : Nat} {a : JV} {w : GoVal} (hd : docs[i]? = some a) (hw : (es.map GoVal.trim)[i]? = some w) : DecodesNew Γ [] e a w := by
  obtain ⟨x, hx, rfl⟩ := map_get hw
  rcases h i x a hx hd with ⟨⟨y, rfl⟩, _⟩ | ⟨_, h⟩
  · exact absurd rfl (hst y)
  · exact h.2 hs [] (.inl rfl)

/-- the elements of a list satisfy what the induction hypothesis asks -/
theorem list_elems {u e : TExpr} {v : GoVal} {es : List GoVal} {docs : List JV} {o : Bool} (hb : e ≠ .prim .byte)
    (hu : u = .slice e ∨ ∃ len, u = .array len e) (hv : Listing v es) (hp : Part Γ T V u v) (ht : HasType Γ X u v) (hg : EGood Γ S e) (hs : Shape Γ e)
    (ih : ∀ (i : Nat) (x : GoVal) (d : JV), es[i]? = some x → docs[i]? = some d → RT Γ X S T V (.elem o e) x d) : ElemsRead Γ e es docs := by
  intro i x d hx hd
  have hmem := List.mem_of_getElem? hx
  rcases hu with rfl | ⟨len, rfl⟩
  · rcases ht.slice_cases hb with rfl | ⟨es', sp, rfl, h1, _⟩
    · cases hv
    · cases hv
      exact ih i x d hx hd (.slice hp hmem) (h1 x hmem) hg hs
  · obtain ⟨es', rfl, hl, h1⟩ := ht.array_cases hb
    cases hv
    exact ih i x d hx hd (.array hp hmem) (h1 x hmem) hg hs

theorem map_elems {e : TExpr} {kvs : List (Str × GoVal)} {docs : List JV} {o : Bool}
    (hp : Part Γ T V (.map e) (.map kvs)) (ht : HasType Γ X (.map e) (.map kvs)) (hg : EGood Γ S e) (hs : Shape Γ e)
    (ih : ∀ (i : Nat) (kv : Str × GoVal) (d : JV), kvs[i]? = some kv → docs[i]? = some d → RT Γ X S T V (.elem o e) kv.2 d) :
    ElemsRead Γ e (kvs.map (·.2)) docs ∧ (kvs.map (·.1)).Nodup := by
  rcases ht.map_cases with h | ⟨kvs', h, hk, h1⟩
  · cases h
  · cases h
    refine ⟨?_, hk⟩
    intro i x d hx hd
    obtain ⟨kv, hkv, rfl⟩ := map_get hx
    have hmem := List.mem_of_getElem? hkv
    exact ih i kv d hkv hd (.map hp hmem) (h1 kv hmem) hg hs

/-- an element or field whose type is a list -/
theorem list_reads (hT : Trip Γ X F S T V) {t u e : TExpr} {v : GoVal} {es : List GoVal} {docs : List JV} (hi : Is Γ t u) (hb : e ≠ .prim .byte)
    (hu : u = .slice e ∨ ∃ len, u = .array len e) (hv : Listing v es) (ht : HasType Γ X t v) (hg : EGood Γ S e)
    (hst : ∀ len, u = .array len e → ∀ y, e ≠ .star y) (hl : docs.length = es.length)
    (h : ElemsRead Γ e es docs) : (∀ L z, ZeroOf Γ t z → Decodes Γ L t (.arr docs) z v.trim) ∧ Reads Γ t (.arr docs) v := by
  obtain ⟨ze, hze⟩ := zeroOf_exists hT.pkg hg.good
  have htu := ht.of_is hi
  rcases hu with rfl | ⟨len, rfl⟩
  · rcases htu.slice_cases hb with rfl | ⟨es', sp, rfl, _, _⟩
    · cases hv
    · cases hv
      have key : ∀ L z, ZeroOf Γ t z → Decodes Γ L t (.arr docs) z (GoVal.slice es sp).trim := by
        intro L z hz
        have := (zeroOf_nil (.inr (.inl ⟨e, rfl⟩))).1 ((zeroOf_is hi).1 hz)
        subst this
        exact slice_reads hi hb hze hl h
      exact ⟨key, key [], fun hns => absurd (.inl ⟨e, hb, hi⟩) hns⟩
  · obtain ⟨es', rfl, hlen, _⟩ := htu.array_cases hb
    cases hv
    have key : ∀ L old, Decodes Γ L t (.arr docs) old (GoVal.arr es).trim := fun L old => array_reads hi hb hze hl hlen (hst len rfl) h
    exact ⟨fun L z _ => key L z, .of_always (is_calls hi (by simp) (by simp) (by simp) (by simp)) fun L _ old => key L old⟩

/-! ### declared types -/

theorem fixedSize_of {t : TExpr} {v : GoVal} (h : HasType Γ X t v) : FixedSize t v := by
  cases t with
  | array n e =>
    simp only [FixedSize]
    split
    · rename_i hb; subst hb
      cases h with
      | array hb => exact absurd rfl hb
      | barr hl => exact ⟨_, rfl, hl⟩
      | «alias» he | struct he | foreign he => cases he
    · rename_i hb
      obtain ⟨es, rfl, hl, _⟩ := h.array_cases hb
      exact ⟨es, rfl, hl⟩
  | _ => trivial

theorem zeroOf_typed (hP : Package Γ X S) {t : TExpr} (hg : Good S t) {z : GoVal} (hz : ZeroOf Γ t z) : HasType Γ X t z := by
  obtain ⟨k, z', h, ht⟩ := (hP.zeroT hg).ok
  rw [zeroOf_unique hz ⟨k, h⟩]
  exact ht

/-- reading a declared type through its method -/
theorem fills_named (hT : Trip Γ X F S T V) {n : Nat} {u : TExpr} (hn : S n) (hd : Γ.decl n = some (.alias u)) {jv : JV} {z new : GoVal}
    (hz : ZeroIs Γ n z) (h : ∀ old, ZeroOf Γ u old → NamedResult Γ u jv old new) : Fills Γ n jv z none new := by
  have hz' := (zeroIs_alias hd).1 hz
  have hg := hT.pkg.alias hn hd
  refine (named_iff hd (hT.pkg.decoders n hn (by rw [hd]; simp)) (fixedSize_of (zeroOf_typed hT.pkg hg hz'))).2 (h z hz') ?_
  rintro elt rfl
  exact zeroOf_exists hT.pkg hg.slice

theorem name_decl {e : TExpr} {n : Nat} {d : Decl} (he : NameOf e n) (hg : EGood Γ S e) (hd : Γ.decl n = some d) : e = .named n := by
  cases he with
  | named => rfl
  | sel => rw [hg.sel] at hd; cases hd

theorem noPrim_of {e : TExpr} {n : Nat} {u : TExpr} (he : NameOf e n) (hd : Γ.decl n = some (.alias u)) (hu : ∀ p, u ≠ .prim p)
    (hu2 : ∀ m, ¬ NameOf u m) (p : Prim) : ¬ PrimName Γ e p := by
  intro h
  cases h with
  | base h =>
    cases h with
    | self => cases he
    | named h => cases he; rw [hd] at h; cases h; exact hu _ rfl
    | sel h => cases he; rw [hd] at h; cases h; exact hu _ rfl
  | chain h h' =>
    cases he
    rw [hd] at h; cases h
    cases h' with
    | self => exact hu _ rfl
    | named => exact hu2 _ (.named _)
    | sel => exact hu2 _ (.sel _)

theorem rt_foreign (hT : Trip Γ X F S T V) {n : Nat} {v : GoVal} {jv : JV} (hd : Γ.decl n = none) (h : F n (some v) jv) : RT Γ X S T V (.decl n) v jv := by
  intro e he hp hv hn
  have hx := hv.of_foreign he hd
  have hA : ∀ z, ZeroIs Γ n z → Fills Γ n jv z none v.trim := fun z hz =>
    ⟨1, by rw [methods_none hd]; exact hT.trip.foreign n v jv hn hd hx h z ((zeroIs_none hd).1 hz)⟩
  refine ⟨?_, ?_, ?_, fun hne => hT.trip.foreignSome n v jv hn hd hx hne h⟩
  · intro z doc _ hz hag
    rcases hag with rfl | ⟨⟨_, h⟩, _⟩
    · exact hA z hz
    · rw [hd] at h; cases h
  · intro hg hnp _
    have hc : Calls Γ e n := by
      cases he with
      | named => exact .foreign hd
      | sel => exact .sel hnp
    have := calls_reads hT hc hg hp hv hA
    exact ⟨this.1 [], fun _ L _ => this.2 L⟩
  · intro p hpn
    cases hpn with
    | base h =>
      cases h with
      | self => cases he
      | named h => cases he; rw [hd] at h; cases h
      | sel h => cases he; rw [hd] at h; cases h
    | chain h => cases he; rw [hd] at h; cases h

theorem rt_struct (hT : Trip Γ X F S T V) {n : Nat} {strict : Bool} {fields : List FieldDecl} {gs : List GoVal} {ms : List (List (Str × JV))}
    (hd : Γ.decl n = some (.struct strict fields)) (hl : gs.length = fields.length) (hm : ms.length = fields.length)
    (henc : ∀ (i : Nat) (fd : FieldDecl) (g : GoVal) (m : List (Str × JV)), fields[i]? = some fd → gs[i]? = some g → ms[i]? = some m →
      Enc Γ F (.field fd) g (.obj m))
    (ih : ∀ (i : Nat) (fd : FieldDecl) (g : GoVal) (m : List (Str × JV)), fields[i]? = some fd → gs[i]? = some g → ms[i]? = some m →
      RT Γ X S T V (.field fd) g (.obj m)) : RT Γ X S T V (.decl n) (.struct gs) (.obj ms.flatten) := by
  intro e he hp hv hn
  have hfo : ∀ {fd}, fd ∈ fields → FieldOf Γ S fd := fun h => ⟨n, strict, fields, hn, hd, h⟩
  -- the members of each field
  have hkeys : ∀ (i : Nat) (fd : FieldDecl) (m : List (Str × JV)), fields[i]? = some fd → ms[i]? = some m →
      (∀ kv ∈ m, FieldName Γ fd kv.1) ∧ (fd.tags.jsonName ≠ [] → m.length ≤ 1) := by
    intro i fd m hi hmi
    have hlt : i < gs.length := by rw [hl]; exact (List.getElem?_eq_some_iff.1 hi).1
    exact enc_keys hT.pkg hT.trip (henc i fd gs[i] m hi (List.getElem?_eq_getElem hlt) hmi) (hfo (List.mem_of_getElem? hi)) m rfl
  have hflat : ∀ (i : Nat) (fd : FieldDecl) (m : List (Str × JV)) (key : Str), fields[i]? = some fd → ms[i]? = some m → FieldName Γ fd key →
      membersAt key ms.flatten = membersAt key m := by
    intro i fd m key hi hmi hkey
    refine membersAt_flatten hmi fun j mj hne hj kv hkv heq => ?_
    have hlt : j < fields.length := by rw [← hm]; exact (List.getElem?_eq_some_iff.1 hj).1
    have hfj : fields[j]? = some fields[j] := List.getElem?_eq_getElem hlt
    have := (hkeys j fields[j] mj hfj hj).1 kv hkv
    rw [heq] at this
    exact hne (hT.trip.distinct n strict fields j i fields[j] fd key hn hd hfj hi this hkey)
  have hflat_ne : ∀ kv ∈ ms.flatten, kv.1 ≠ [] := by
    intro kv hkv
    obtain ⟨mj, hmj, hk⟩ := List.mem_flatten.1 hkv
    obtain ⟨j, hj⟩ := List.getElem?_of_mem hmj
    have hlt : j < fields.length := by rw [← hm]; exact (List.getElem?_eq_some_iff.1 hj).1
    exact ((hkeys j fields[j] mj (List.getElem?_eq_getElem hlt) hj).1 kv hk).ne_nil
  have hA : ∀ z doc, ZeroIs Γ n z → Agrees Γ n (.obj ms.flatten) doc → Fills Γ n doc z none (GoVal.struct gs).trim := by
    intro z doc hz hag
    obtain ⟨zs, rfl, hzl, hzs⟩ := (zeroIs_struct hd).1 hz
    have hdoc : ∃ d, doc = .obj d ∧ (∀ kv ∈ d, kv.1 ≠ []) ∧ (∀ key, HasName Γ n key → membersAt key d = membersAt key ms.flatten) ∧
        (strict = true → d = ms.flatten) := by
      rcases hag with rfl | ⟨⟨fields', h⟩, m, d, h1, rfl, h2, h3⟩
      · exact ⟨_, rfl, hflat_ne, fun _ _ => rfl, fun _ => rfl⟩
      · cases h1
        rw [hd] at h; cases h
        exact ⟨d, rfl, h2, h3, fun h => by cases h⟩
    obtain ⟨d, rfl, hne, hat, hstr⟩ := hdoc
    rw [trim_struct]
    refine (struct_iff hd (hT.pkg.decoders n hn (by rw [hd]; simp))).2 ⟨d, rfl, ?_, ?_⟩ hzl (by simp [hl]) ?_
    · intro key hkey
      obtain ⟨fd, hf, rfl⟩ := List.mem_map.1 hkey
      show (membersAt fd.tags.jsonName d).length ≤ 1
      by_cases hj : fd.tags.jsonName = []
      · rw [hj, membersAt_nil.2 hne]; simp
      · obtain ⟨i, hi⟩ := List.getElem?_of_mem hf
        have hlt : i < ms.length := by rw [hm]; exact (List.getElem?_eq_some_iff.1 hi).1
        have hmi : ms[i]? = some ms[i] := List.getElem?_eq_getElem hlt
        rw [hat _ (.own hd hf hj), hflat i fd ms[i] _ hi hmi (.inl ⟨hj, rfl⟩)]
        exact Nat.le_trans (List.length_filter_le _ _) ((hkeys i fd ms[i] hi hmi).2 hj)
    · intro hs kv hkv
      rw [hstr hs] at hkv
      obtain ⟨mj, hmj, hk⟩ := List.mem_flatten.1 hkv
      obtain ⟨j, hj⟩ := List.getElem?_of_mem hmj
      have hlt : j < fields.length := by rw [← hm]; exact (List.getElem?_eq_some_iff.1 hj).1
      have hfj : fields[j]? = some fields[j] := List.getElem?_eq_getElem hlt
      have hmem := List.mem_of_getElem? hfj
      rcases (hkeys j fields[j] mj hfj hj).1 kv hk with ⟨_, h⟩ | ⟨h, _⟩
      · exact List.mem_map.2 ⟨_, hmem, h.symm⟩
      · subst hs
        exact absurd h (hT.trip.strict n fields _ hn hd hmem)
    · intro i fd old new hi ho hnew
      obtain ⟨g, hg, rfl⟩ := map_get hnew
      have hlt : i < ms.length := by rw [hm]; exact (List.getElem?_eq_some_iff.1 hi).1
      have hmi : ms[i]? = some ms[i] := List.getElem?_eq_getElem hlt
      have hf := List.mem_of_getElem? hi
      obtain ⟨gs', hgs, _, hty⟩ := hv.of_struct he hd
      cases hgs
      refine ih i fd g ms[i] hi hg hmi ⟨e, n, strict, fields, gs, i, hp, he, hd, hi, hg⟩ (hty i fd g hi hg) (hfo hf) ms[i] d rfl hne ?_ old (hzs i fd old hi ho)
      intro key hkey
      rw [hat key (hkey.has hd hf), hflat i fd ms[i] key hi hmi hkey]
  refine ⟨fun z doc _ => hA z doc, ?_, ?_, fun _ => by simp⟩
  · intro hg _ _
    have := name_decl he hg hd
    subst this
    have := calls_reads hT (.struct hd) hg hp hv fun z hz => hA z _ hz (.inl rfl)
    exact ⟨this.1 [], fun _ L _ => this.2 L⟩
  · intro p hpn
    cases hpn with
    | base h =>
      cases h with
      | self => cases he
      | named h => cases he; rw [hd] at h; cases h
      | sel h => cases he; rw [hd] at h; cases h
    | chain h => cases he; rw [hd] at h; cases h

/-- types declared as something that is not a name, not a scalar -/
theorem rt_alias (hT : Trip Γ X F S T V) {n : Nat} {u : TExpr} {v : GoVal} {jv : JV} (hd : Γ.decl n = some (.alias u)) (hu : ∀ p, u ≠ .prim p)
    (hu2 : ∀ m, ¬ NameOf u m) (hnn : v ≠ .nil → jv ≠ .null)
    (hA : S n → Part Γ T V u v → HasType Γ X u v → EGood Γ S u → ∀ old, ZeroOf Γ u old → NamedResult Γ u jv old v.trim)
    (hB : S n → Part Γ T V u v → HasType Γ X u v → EGood Γ S u → HasType Γ X (.named n) v → (v = .nil → u = .slice (.prim .byte)) → Reads Γ (.named n) jv v) :
    RT Γ X S T V (.decl n) v jv := by
  intro e he hp hv hn
  have hp' := Part.alias hp he hd
  have hv' := hv.of_alias he hd
  have hg' := hT.enc.alias hn hd
  refine ⟨?_, ?_, fun p h => absurd h (noPrim_of he hd hu hu2 p), hnn⟩
  · intro z doc _ hz hag
    rw [hag.same hd]
    exact fills_named hT hn hd hz (hA hn hp' hv' hg')
  · intro hg _ hnil
    have := name_decl he hg hd
    subst this
    refine hB hn hp' hv' hg' hv fun h => ?_
    rcases hnil h with h | h
    · cases h with
      | named h => rw [hd] at h; cases h; rfl
    · rw [hd] at h; cases h

theorem rt_namedScalar (hT : Trip Γ X F S T V) {n : Nat} {p : Prim} {v : GoVal} {jv : JV} (hd : Γ.decl n = some (.alias (.prim p))) (h : ScalarDoc v jv) :
    RT Γ X S T V (.decl n) v jv := by
  intro e he hp hv hn
  have hb := (hT.shapes.alias n _ hn hd).1
  have hdec := scalar_dec hT (.base (.self p)) (.alias hp he hd) (hv.of_alias he hd) hb h
  refine ⟨?_, ?_, ?_, fun _ => scalarDoc_null h⟩
  · intro z doc _ hz hag
    rw [hag.same hd]
    exact fills_named hT hn hd hz fun old _ => .other rfl (by rintro m ⟨⟩) (.prim (.base (.self p)) hdec)
  · intro _ hnp
    refine absurd ?_ (hnp p)
    cases he with
    | named => exact .named hd
    | sel => exact .sel hd
  · intro p' hpn
    have : p' = p := by
      cases hpn with
      | base h =>
        cases h with
        | self => cases he
        | named h => cases he; rw [hd] at h; cases h; rfl
        | sel h => cases he; rw [hd] at h; cases h; rfl
      | chain h h' =>
        cases he
        rw [hd] at h; cases h
        cases h'
        rfl
    subst this
    exact hdec

theorem rt_namedName (hT : Trip Γ X F S T V) {n m : Nat} {u : TExpr} {v : GoVal} {jv : JV} (hd : Γ.decl n = some (.alias u)) (hu : NameOf u m)
    (ih : RT Γ X S T V (.decl m) v jv) : RT Γ X S T V (.decl n) v jv := by
  intro e he hp hv hn
  have hp' := Part.alias hp he hd
  have hv' := hv.of_alias he hd
  have hg' := hT.enc.alias hn hd
  have hm := hg'.name hu
  obtain ⟨iA, iB, iC, iD⟩ := ih u hu hp' hv' hm
  have hA : ∀ z, (v = .nil → False) → ZeroIs Γ n z → Fills Γ n jv z none v.trim := by
    intro z hnn hz
    refine fills_named hT hn hd hz fun old hold => ?_
    have hcol : u.isCollection = false := by cases hu <;> rfl
    by_cases hpr : ∃ p, PrimName Γ u p
    · obtain ⟨p, hpr⟩ := hpr
      exact .other hcol (primName_noCalls hpr) (.prim hpr (iC p hpr))
    · have hR := iB hg' (fun p h => hpr ⟨p, .base h⟩) (fun h => (hnn h).elim)
      by_cases hc : ∃ k, Calls Γ u k
      · obtain ⟨k, hc⟩ := hc
        exact .fresh hc (hR.2 (calls_not_stored hc) [] (.inl rfl))
      · exact .other hcol (fun k h => hc ⟨k, h⟩) (hR.1 old hold)
  have hnil : NilOK Γ n v → v = .nil → False := by
    intro h hv0
    rcases h hv0 with h | ⟨u', h, hc⟩
    · rw [hd] at h; cases h
    · rw [hd] at h; cases h
      rcases hc with ⟨e, rfl⟩ | ⟨e, rfl⟩ <;> cases hu
  refine ⟨?_, ?_, ?_, iD⟩
  · intro z doc hno hz hag
    rw [hag.same hd]
    exact hA z (hnil hno) hz
  · intro hg hnp hno
    have := name_decl he hg hd
    subst this
    have hnn : v = .nil → False := by
      intro h
      rcases hno h with h | h
      · cases h with
        | named h => rw [hd] at h; cases h; cases hu
      · rw [hd] at h; cases h
    by_cases hpr : ∃ p, IsPrim Γ u p
    · obtain ⟨p, hpr⟩ := hpr
      exact .of_prim (.chain hd hpr) (iC p (.base hpr))
    · have hc : Calls Γ (.named n) n := .name hd hu fun p h => hpr ⟨p, h⟩
      have := calls_reads hT hc hg hp hv (fun z hz => hA z hnn hz)
      exact ⟨this.1 [], fun _ L _ => this.2 L⟩
  · intro p hpn
    cases hpn with
    | base h =>
      exfalso
      cases h with
      | self => cases he
      | named h => cases he; rw [hd] at h; cases h; cases hu
      | sel h => cases he; rw [hd] at h; cases h; cases hu
    | chain h h' =>
      cases he
      rw [hd] at h; cases h
      exact iC p (.base h')

end VJ
