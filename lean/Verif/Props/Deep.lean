import Verif.Props.IfJson
import Verif.Props.Plain
import Verif.Spec.Deep

/-!
# C66: deep values
-/

namespace VJ
set_option linter.unusedSectionVars false

/-! ## which texts are refused because they are deep -/

/-- a JSON text is read as what it denotes, if at all -/
theorem document_loose {a b : JV} {s : Str} (ha : Document a s) (hb : LooseDocument b s) : a = b := by
  have end_ws : ∀ {z : Str}, Ws z → NumEnd z := by
    intro z hz w hw
    cases z with
    | nil => simp at hw
    | cons u us => simp at hw; subst hw; rcases hz u (by simp) with rfl | rfl | rfl | rfl <;> decide
  have h1 : ∃ r K, ∀ f ≥ K, parseValue f (s.length + 300) (skipWs s) = .ok (a, r) := by
    obtain ⟨x, y, z, rfl, hx, hz, hj⟩ := ha
    obtain ⟨c0, cs, hy, hc0, _, _⟩ := json_head hj
    have e1 : skipWs (x ++ y ++ z) = y ++ z := by
      rw [List.append_assoc, skipWs_append _ hx, hy]
      exact skipWs_cons hc0
    rw [e1]
    exact ⟨z, parses_json hj ((json_depth hj).mono (by simp; omega)) z (end_ws hz)⟩
  have h2 : ∃ r K, ∀ f ≥ K, parseValue f (s.length + 300) (skipWs s) = .ok (b, r) := by
    rcases hb with ⟨x, y, z, rfl, hx, hz, hj, hd⟩ | ⟨x, sign, rfl, hx, hsg, rfl⟩
    · obtain ⟨c0, cs, hy, hc0, _, _⟩ := loose_head hj
      have e1 : skipWs (x ++ y ++ z) = y ++ z := by
        rw [List.append_assoc, skipWs_append _ hx, hy]
        exact skipWs_cons hc0
      rw [e1]
      exact ⟨z, parses_loose hj (hd.mono (by omega)) z (end_ws hz)⟩
    · have e1 : skipWs (x ++ sign) = sign := by
        rw [skipWs_append _ hx]
        rcases hsg with rfl | rfl <;> decide
      rw [e1]
      refine ⟨[], 1, fun f hf => ?_⟩
      obtain ⟨f, rfl⟩ : ∃ f', f = f' + 1 := ⟨f - 1, by omega⟩
      rcases hsg with rfl | rfl <;> simp [parseValue, rawNumber, spanNum, isNumChar, isDigit]
  obtain ⟨r, K, h⟩ := h1
  obtain ⟨r', K', h'⟩ := h2
  have e := h (max K K') (by omega)
  rw [h' (max K K') (by omega)] at e
  cases e; rfl

/-- **C66.** A JSON text is refused, whatever the type, exactly when it is nested more than 300 deep. -/
theorem C66_too_deep {doc : JV} {s : Str} (hd : Document doc s) : NotJSON s ↔ ¬ DepthLe 300 doc := by
  constructor
  · intro h hd'
    exact h doc (looseDocument_document hd hd')
  · intro h v hv
    cases document_loose hd hv
    apply h
    rcases hv with ⟨_, _, _, _, _, _, _, h⟩ | ⟨_, _, _, _, _, rfl⟩
    · exact h
    · exact .num _ _

section
variable [Ext] {Γ : Env} {X : Nat → GoVal → Prop} {S : Nat → Prop} {F : Nat → Option GoVal → JV → Prop}

/-- **C66, refused**: the decode reports that the text is not JSON and leaves the receiver as it was. -/
theorem C66_refused {n : Nat} {doc : JV} {s : Str} (hd : Document doc s) (hdeep : ¬ DepthLe 300 doc) (old : GoVal) {e : Option Err}
    {new : GoVal} : Unmarshals Γ n s old e new ↔ e = some ⟨none, .notJSON⟩ ∧ new = old := by
  constructor
  · exact C02_not_json ((C66_too_deep hd).2 hdeep)
  · rintro ⟨rfl, rfl⟩
    exact ⟨0, by simp only [unmarshalJSON, notJSON_iff.1 ((C66_too_deep hd).2 hdeep)]; rfl⟩

/-- **C66, the values that survive**: of the values that C31 speaks of, those come back whose document
is nested at most 300 deep, and only those.  Encoding reports no error in either case. -/
theorem C66_survives_iff (hP : Package Γ X S) (hW : Writers Γ F S) (hR : TripPackage Γ X F S) {n : Nat} (hn : S n) {v : GoVal}
    (hv : HasType Γ X (.named n) v) (hl : Lossless Γ (.named n) v) {s : Str} (h : Marshals Γ n (some v) (.ok s)) {doc : JV}
    (hj : Document doc s) {z : GoVal} (hz : ZeroIs Γ n z) :
    Unmarshals Γ n s z none v.trim ↔ DepthLe 300 doc := by
  constructor
  · intro hu
    by_cases hd : DepthLe 300 doc
    · exact hd
    · cases ((C66_refused hj hd z).1 hu).1
  · intro hd
    exact (C31_if_json_partial hP hW hR hn hv hl h hj hd hz).2 ⟨rfl, rfl⟩

/-! ## types whose documents are never too deep -/

variable {D : Nat → Nat}

theorem nests_pos {k : Nat} {t : TExpr} (h : Nests Γ D k t) : ∃ j, k = j + 1 := by
  induction h with
  | flat | slice | array | map | struct | foreign => exact ⟨_, rfl⟩
  | ptr _ ih => exact ih
  | «alias» _ _ _ ih => exact ih

theorem nests_mono {k : Nat} {t : TExpr} (h : Nests Γ D k t) : ∀ {j : Nat}, k ≤ j → Nests Γ D j t := by
  induction h with
  | flat h => intro j hj; obtain ⟨j, rfl⟩ : ∃ i, j = i + 1 := ⟨j - 1, by omega⟩; exact .flat h
  | ptr _ ih => intro j hj; exact .ptr (ih hj)
  | slice _ ih => intro j hj; obtain ⟨j, rfl⟩ : ∃ i, j = i + 1 := ⟨j - 1, by omega⟩; exact .slice (ih (by omega))
  | array _ ih => intro j hj; obtain ⟨j, rfl⟩ : ∃ i, j = i + 1 := ⟨j - 1, by omega⟩; exact .array (ih (by omega))
  | map _ ih => intro j hj; obtain ⟨j, rfl⟩ : ∃ i, j = i + 1 := ⟨j - 1, by omega⟩; exact .map (ih (by omega))
  | «alias» ht hd _ ih => intro j hj; exact .alias ht hd (ih hj)
  | struct ht hd extra hx _ ih =>
    intro j hj
    obtain ⟨j, rfl⟩ : ∃ i, j = i + 1 := ⟨j - 1, by omega⟩
    exact .struct ht hd extra hx fun fd hf => ih fd hf (by omega)
  | foreign ht hd h => intro j hj; obtain ⟨j, rfl⟩ : ∃ i, j = i + 1 := ⟨j - 1, by omega⟩; exact .foreign ht hd (by omega)

theorem nameOf_unique {t : TExpr} {n m : Nat} (h : NameOf t n) (h' : NameOf t m) : n = m := by
  cases h <;> cases h' <;> rfl

theorem nests_alias {k n : Nat} {t u : TExpr} (ht : NameOf t n) (hd : Γ.decl n = some (.alias u)) (h : Nests Γ D k t) : Nests Γ D k u := by
  cases h with
  | «alias» ht' hd' h =>
    cases nameOf_unique ht ht'
    rw [hd] at hd'; cases hd'
    exact h
  | struct ht' hd' =>
    cases nameOf_unique ht ht'
    rw [hd] at hd'; cases hd'
  | foreign ht' hd' =>
    cases nameOf_unique ht ht'
    rw [hd] at hd'; cases hd'
  | flat h => cases h <;> cases ht
  | ptr => cases ht
  | slice => cases ht
  | array => cases ht
  | map => cases ht

theorem nests_is {k : Nat} {t u : TExpr} (ht : Is Γ t u) (h : Nests Γ D k t) : Nests Γ D k u := by
  cases ht with
  | self => exact h
  | named hd => exact nests_alias (.named _) hd h

theorem nests_list {k : Nat} {t e : TExpr} (ht : ListOf Γ t e) (h : Nests Γ D k t) : ∃ j, k = j + 1 ∧ Nests Γ D j e := by
  obtain ⟨hb, ht | ⟨len, ht⟩⟩ := ht
  · have h := nests_is ht h
    cases h with
    | slice h => exact ⟨_, rfl, h⟩
    | flat h => cases h; exact absurd rfl hb
    | «alias» ht => cases ht
    | struct ht => cases ht
    | foreign ht => cases ht
  · have h := nests_is ht h
    cases h with
    | array h => exact ⟨_, rfl, h⟩
    | flat h => cases h; exact absurd rfl hb
    | «alias» ht => cases ht
    | struct ht => cases ht
    | foreign ht => cases ht

theorem nests_map {k : Nat} {t e : TExpr} (ht : Is Γ t (.map e)) (h : Nests Γ D k t) : ∃ j, k = j + 1 ∧ Nests Γ D j e := by
  have h := nests_is ht h
  cases h with
  | map h => exact ⟨_, rfl, h⟩
  | flat h => cases h
  | «alias» ht => cases ht
  | struct ht => cases ht
  | foreign ht => cases ht

theorem nests_ptr {k : Nat} {t y : TExpr} (ht : Is Γ t (.star y)) (h : Nests Γ D k t) : Nests Γ D k y := by
  have h := nests_is ht h
  cases h with
  | ptr h => exact h
  | flat h => cases h
  | «alias» ht => cases ht
  | struct ht => cases ht
  | foreign ht => cases ht

theorem nests_method {k n : Nat} {t : TExpr} (ht : ByMethod Γ t n) (h : Nests Γ D k t) : ∃ t', NameOf t' n ∧ Nests Γ D k t' := by
  cases ht with
  | struct hd => exact ⟨_, .named _, h⟩
  | sel hd => exact ⟨_, .sel _, h⟩
  | named hd => exact ⟨_, .sel _, nests_alias (.named _) hd h⟩

theorem scalarDoc_depth {v : GoVal} {jv : JV} (h : ScalarDoc v jv) (k : Nat) : DepthLe (k + 1) jv := by
  cases h
  · exact .num _ _
  · exact .num _ _
  · exact .bool _ _
  · exact .str _ _

/-- what the bound says about a place -/
def DeepAt (Γ : Env) (D : Nat → Nat) : Place → JV → Prop
  | .elem _ t, jv => ∀ k, Nests Γ D k t → DepthLe k jv
  | .decl n, jv => ∀ k t, NameOf t n → Nests Γ D k t → DepthLe k jv
  | .field fd, jv => ∀ k, Nests Γ D k fd.typ → ∀ m, jv = .obj m →
      (∀ kv ∈ m, DepthLe k kv.2) ∧ (EmbeddedField Γ fd → DepthLe k (.obj m))

theorem zip_depth {kvs : List (Str × GoVal)} {docs : List JV} (hl : docs.length = kvs.length) {k : Nat}
    (h : ∀ (i : Nat) (kv : Str × GoVal) (d : JV), kvs[i]? = some kv → docs[i]? = some d → DepthLe k d) :
    DepthLe (k + 1) (.obj ((kvs.map (·.1)).zip docs)) := by
  refine .obj fun kv hkv => ?_
  obtain ⟨i, hi, rfl⟩ := List.mem_iff_getElem.1 hkv
  simp only [List.length_zip, List.length_map] at hi
  simp only [List.getElem_zip]
  exact h i _ _ (List.getElem?_eq_getElem (by omega)) (List.getElem?_eq_getElem (by omega))

theorem list_depth {es : List GoVal} {docs : List JV} (hl : docs.length = es.length) {k : Nat}
    (h : ∀ (i : Nat) (x : GoVal) (d : JV), es[i]? = some x → docs[i]? = some d → DepthLe k d) : DepthLe (k + 1) (.arr docs) := by
  refine .arr fun d hd => ?_
  obtain ⟨i, hi, rfl⟩ := List.mem_iff_getElem.1 hd
  exact h i _ _ (List.getElem?_eq_getElem (by omega)) (List.getElem?_eq_getElem hi)

theorem kind_method {t : TExpr} {n : Nat} (h : FieldKind Γ t (.method n)) : ByMethod Γ t n := by
  cases h; assumption

theorem kind_methodPtr {t : TExpr} {n : Nat} (h : FieldKind Γ t (.methodPtr n)) : ∃ y, t = .star y ∧ ByMethod Γ y n := by
  cases h; exact ⟨_, rfl, by assumption⟩

theorem kind_map {t e : TExpr} (h : FieldKind Γ t (.map e)) : Is Γ t (.map e) := by
  cases h; assumption

theorem kind_list {t e : TExpr} (h : FieldKind Γ t (.list e)) : ListOf Γ t e := by
  cases h
  · exact ⟨by assumption, .inl (by assumption)⟩
  · exact ⟨by assumption, .inr ⟨_, by assumption⟩⟩

theorem enc_deep (hF : ∀ n r jv, Γ.decl n = none → F n r jv → DepthLe (D n) jv) {pl : Place} {v : GoVal} {jv : JV} (h : Enc Γ F pl v jv) :
    DeepAt Γ D pl jv := by
  -- a field that is one member
  have one : ∀ {fd : FieldDecl} {kd : EKind} {jv : JV}, FieldKind Γ fd.typ kd → ((∃ n, kd = .method n) → fd.tags.jsonName ≠ []) →
      (∀ k, Nests Γ D k fd.typ → DepthLe k jv) → DeepAt Γ D (.field fd) (.obj [(fd.tags.jsonName, jv)]) := by
    intro fd kd jv hk hne h k hn m hm
    cases hm
    refine ⟨by simpa using h k hn, ?_⟩
    rintro ⟨h1, n, h2⟩
    exact absurd h1 (hne ⟨n, fieldKind_unique hk (.method h2)⟩)
  have flat : ∀ {k : Nat} {t : TExpr}, Nests Γ D k t → ∀ {jv : JV}, DepthLe 1 jv → DepthLe k jv := by
    intro k t h jv hj
    obtain ⟨j, rfl⟩ := nests_pos h
    exact hj.mono (by omega)
  induction h with
  | scalar _ h => intro k hn; exact flat hn (scalarDoc_depth h 0)
  | time => intro k hn; exact flat hn (.str _ _)
  | nilScalar => intro k hn; exact flat hn (.null _)
  | ptrScalar _ _ h => intro k hn; exact flat hn (scalarDoc_depth h 0)
  | nilPtr hy hp h =>
    intro k hn
    cases h with
    | noFields => exact flat hn (.obj (by simp))
    | null => exact flat hn (.null _)
    | foreign hd h =>
      have := nests_ptr (.self _) hn
      cases this with
      | foreign ht hd' hle =>
        cases nameOf_unique hy ht
        exact (hF _ _ _ hd h).mono hle
      | «alias» ht hd' => cases nameOf_unique hy ht; rw [hd] at hd'; cases hd'
      | struct ht hd' => cases nameOf_unique hy ht; rw [hd] at hd'; cases hd'
      | flat h => cases h <;> cases hy
      | ptr => cases hy
      | slice => cases hy
      | array => cases hy
      | map => cases hy
  | ptr hy hp _ ih => intro k hn; exact ih k _ hy (nests_ptr (.self _) hn)
  | nilList => intro k hn; exact flat hn (.arr (by simp))
  | list ht _ hl _ ih =>
    intro k hn
    obtain ⟨j, rfl, h⟩ := nests_list ht hn
    exact list_depth hl fun i x d h1 h2 => ih i x d h1 h2 j h
  | name ht _ _ _ ih => intro k hn; exact ih k _ ht hn
  | foreign hd h =>
    intro k t ht hn
    cases hn with
    | foreign ht' hd' hle =>
      cases nameOf_unique ht ht'
      exact (hF _ _ _ hd h).mono hle
    | «alias» ht' hd' => cases nameOf_unique ht ht'; rw [hd] at hd'; cases hd'
    | struct ht' hd' => cases nameOf_unique ht ht'; rw [hd] at hd'; cases hd'
    | flat h => cases h <;> cases ht
    | ptr => cases ht
    | slice => cases ht
    | array => cases ht
    | map => cases ht
  | struct hd hl hm _ ih =>
    intro k t ht hn
    rename_i n strict fields gs ms _
    cases hn with
    | struct ht' hd' extra hx h =>
      cases nameOf_unique ht ht'
      rw [hd] at hd'; cases hd'
      refine .obj fun kv hkv => ?_
      obtain ⟨m, hm1, hm2⟩ := List.mem_flatten.1 hkv
      obtain ⟨i, hi, rfl⟩ := List.mem_iff_getElem.1 hm1
      have hfi : fields[i]? = some fields[i] := List.getElem?_eq_getElem (by omega)
      have hfm : fields[i] ∈ fields := List.mem_of_getElem? hfi
      have := ih i fields[i] (gs[i]'(by omega)) ms[i] hfi (List.getElem?_eq_getElem (by omega)) (List.getElem?_eq_getElem hi) _
        (h _ hfm) _ rfl
      rcases hx _ hfm with h0 | ⟨h1, hemb⟩
      · rw [h0] at this
        exact this.1 kv hm2
      · rw [h1] at this
        have := this.2 hemb
        cases this with
        | obj h => exact h kv hm2
    | «alias» ht' hd' => cases nameOf_unique ht ht'; rw [hd] at hd'; cases hd'
    | foreign ht' hd' => cases nameOf_unique ht ht'; rw [hd] at hd'; cases hd'
    | flat h => cases h <;> cases ht
    | ptr => cases ht
    | slice => cases ht
    | array => cases ht
    | map => cases ht
  | namedScalar _ h => intro k t _ hn; exact flat hn (scalarDoc_depth h 0)
  | namedTime => intro k t _ hn; exact flat hn (.str _ _)
  | namedUUID => intro k t _ hn; exact flat hn (.str _ _)
  | namedNil => intro k t _ hn; exact flat hn (.null _)
  | namedBytes => intro k t _ hn; exact flat hn (.str _ _)
  | namedFixed => intro k t _ hn; exact flat hn (.str _ _)
  | namedList hd hb hu _ hl _ ih =>
    intro k t ht hn
    have hn := nests_alias ht hd hn
    obtain ⟨j, rfl, h⟩ := nests_list ⟨hb, hu.imp (fun h => h ▸ .self _) fun ⟨len, h⟩ => ⟨len, h ▸ .self _⟩⟩ hn
    exact list_depth hl fun i x d h1 h2 => ih i x d h1 h2 j h
  | namedMap hd hl _ ih =>
    intro k t ht hn
    obtain ⟨j, rfl, h⟩ := nests_map (.self _) (nests_alias ht hd hn)
    exact zip_depth hl fun i kv d h1 h2 => ih i kv d h1 h2 j h
  | namedName hd hu _ ih => intro k t ht hn; exact ih k _ hu (nests_alias ht hd hn)
  | omitted => intro k hn m hm; cases hm; exact ⟨by simp, fun _ => flat hn (.obj (by simp))⟩
  | empty hk hv ho h =>
    refine one hk ?_ fun k hn => flat hn ?_
    · rintro ⟨n, rfl⟩
      exfalso
      cases h with
      | null _ h => exact h.2.2.2 _ rfl
    · cases h with
      | float => exact .num _ _
      | scalar _ h => exact scalarDoc_depth h 0
      | time => exact .str _ _
      | timePtr => exact .str _ _
      | null => exact .null _
  | scalarField hk _ h => exact one hk (by simp) fun k hn => flat hn (scalarDoc_depth h 0)
  | ptrField hk h => exact one hk (by simp) fun k hn => flat hn (scalarDoc_depth h 0)
  | ptr2Field hk h => exact one hk (by simp) fun k hn => flat hn (scalarDoc_depth h 0)
  | timeField hk => exact one hk (by simp) fun k hn => flat hn (.str _ _)
  | timePtrField hk => exact one hk (by simp) fun k hn => flat hn (.str _ _)
  | uuidField hk => exact one hk (by simp) fun k hn => flat hn (.str _ _)
  | uuidPtrField hk => exact one hk (by simp) fun k hn => flat hn (.str _ _)
  | bytesField hk => exact one hk (by simp) fun k hn => flat hn (.str _ _)
  | fixedField hk => exact one hk (by simp) fun k hn => flat hn (.str _ _)
  | methodField hk hne _ _ ih =>
    refine one hk (fun _ => hne) fun k hn => ?_
    obtain ⟨t', h1, h2⟩ := nests_method (kind_method hk) hn
    exact ih k t' h1 h2
  | methodPtrField hk _ ih =>
    refine one hk (by simp) fun k hn => ?_
    obtain ⟨y, hy, hm⟩ := kind_methodPtr hk
    rw [hy] at hn
    obtain ⟨t', h1, h2⟩ := nests_method hm (nests_ptr (.self _) hn)
    exact ih k t' h1 h2
  | spliced hk _ _ _ ih =>
    intro k hn m hm
    cases hm
    obtain ⟨t', h1, h2⟩ := nests_method (kind_method hk) hn
    have := ih k t' h1 h2
    refine ⟨fun kv hkv => ?_, fun _ => this⟩
    cases this with
    | obj h => exact (h kv hkv).mono (by omega)
  | mapField hk hl _ ih =>
    refine one hk (by simp) fun k hn => ?_
    obtain ⟨j, rfl, h⟩ := nests_map (kind_map hk) hn
    exact zip_depth hl fun i kv d h1 h2 => ih i kv d h1 h2 j h
  | listField hk _ hl _ ih =>
    refine one hk (by simp) fun k hn => ?_
    obtain ⟨j, rfl, h⟩ := nests_list (kind_list hk) hn
    exact list_depth hl fun i x d h1 h2 => ih i x d h1 h2 j h

/-- **C66, bounded types**: what is written of a value of a type that the declarations bound is, if it
is JSON, within the bound. -/
theorem C66_bounded (hW : Writers Γ F S) (hF : ∀ n r jv, Γ.decl n = none → F n r jv → DepthLe (D n) jv) {n : Nat} (hn : S n) {k : Nat}
    (hk : Nests Γ D k (.named n)) {v : GoVal} (hv : HasType Γ X (.named n) v) {s : Str} (h : Marshals Γ n (some v) (.ok s)) {doc : JV} (hj : Document doc s) :
    DepthLe k doc :=
  enc_deep hF (C21_if_json hW hn hv h hj) k _ (.named n) hk

/-- **C66, values of bounded types always come back.** -/
theorem C66_bounded_round_trip (hP : Package Γ X S) (hW : Writers Γ F S) (hR : TripPackage Γ X F S)
    (hF : ∀ n r jv, Γ.decl n = none → F n r jv → DepthLe (D n) jv) {n : Nat} (hn : S n) (hk : Nests Γ D 300 (.named n)) {v : GoVal}
    (hv : HasType Γ X (.named n) v) (hl : Lossless Γ (.named n) v) {s : Str} (h : Marshals Γ n (some v) (.ok s)) {doc : JV}
    (hj : Document doc s) {z : GoVal} (hz : ZeroIs Γ n z) (e : Option Err) (v' : GoVal) :
    Unmarshals Γ n s z e v' ↔ e = none ∧ v' = v.trim :=
  C31_if_json_partial hP hW hR hn hv hl h hj (C66_bounded hW hF hn hk hv h hj) hz

/-- **C66, plain types**: every value is encoded; it is read back as it was if its document is nested
at most 300 deep, and otherwise refused. -/
theorem C66_plain (hE : EncPackage Γ F S) (hP : PlainPackage Γ S) (hz : Ext.parseFloat (str "0") = some 0) {n : Nat} (hn : S n)
    {v : GoVal} (hv : HasType Γ X (.named n) v) :
    ∃ s doc, Marshals Γ n (some v) (.ok s) ∧ Json doc s ∧ Enc Γ F (.decl n) v doc ∧
      (DepthLe 300 doc → ∀ z, ZeroIs Γ n z → ∀ e v', Unmarshals Γ n s z e v' ↔ e = none ∧ v' = v.trim) ∧
      (¬ DepthLe 300 doc → ∀ z e v', Unmarshals Γ n s z e v' ↔ e = some ⟨none, .notJSON⟩ ∧ v' = z) := by
  obtain ⟨s, doc, h1, h2, h3⟩ := C46_document_partial (plain_toEncoderSet hE hP) hE (plain_toForeignFine hE hP) hn hv
    (plain_fine hE hP hn hv) (plain_noNilUUID hE hP hn hv) (plain_timesOK hE hP hn hv)
  refine ⟨s, doc, h1, h3, h2, fun hd z hzero e v' => ?_, fun hd z e v' => C66_refused ⟨[], _, [], by simp, by simp [Ws], by simp [Ws], h3⟩ hd z⟩
  exact C31_round_trip_exact_partial (plain_toPackage hE hP) hE (plain_toTripPackage hE hP hz) hn hv (plain_fine hE hP hn hv)
    (plain_lossless hE hP hn hv) h1 (fun jv' h' => by rwa [json_unique h' h3]) hzero

/-- a pointer to a struct is written as the struct -/
theorem enc_ptr_field {fd : FieldDecl} {n : Nat} {v : GoVal} {jv : JV} (hk : FieldKind Γ fd.typ (.methodPtr n))
    (h : Enc Γ F (.field fd) (.ptr v) jv) : ∃ d, jv = .obj [(fd.tags.jsonName, d)] ∧ Enc Γ F (.decl n) v d := by
  generalize hg : GoVal.ptr v = g at h
  generalize hp : Place.field fd = pl at h
  cases h <;> cases hp <;> try cases hg
  case omitted h =>
    obtain ⟨k, h1, h2, _⟩ := h
    cases fieldKind_unique hk h1
    cases h2
  case methodPtrField h' h => cases fieldKind_unique hk h'; exact ⟨_, rfl, h⟩
  case empty hk' _ hv _ =>
    cases fieldKind_unique hk hk'
    cases hv
  all_goals cases fieldKind_unique hk ‹_›

end

namespace Examples
open Sample
attribute [local instance] Sample.ext

/-- a list of `n + 1` nodes -/
def nodeChain : Nat → GoVal
  | 0 => nodeLeaf 1
  | n + 1 => .struct [.int 1, .ptr (nodeChain n), .nil, .nil, .nil, .nil, .arr [.int 0, .int (-1)], .uuid someID, .struct [.int 6], .nil, .bool true, .int 5]

theorem nodeChain_typed : ∀ n, HasType Γ NoForeign (.named 55) (nodeChain n)
  | 0 => nodeLeaf_typed (by decide)
  | n + 1 => typed_struct rfl (.cons (int_typed rfl (by simp [Prim.inRange])) (.cons (.ptr (nodeChain_typed n)) (.cons (.nilSlice _) (.cons (.nilPtr _)
    (.cons (.alias (.named 24) rfl (.nilSlice _)) (.cons (.nilMap _) (.cons (temps_typed (by decide) (by decide)) (.cons (.uuid rfl) (.cons (base_typed (by decide))
    (.cons (.nilSlice _) (.cons (.prim (.bool _)) (.cons (int_typed rfl (by simp [Prim.inRange])) .nil))))))))))))

/-- its document is more than `n` deep -/
theorem nodeChain_deep : ∀ (n : Nat) {doc : JV}, Enc Γ noDoc (.decl 55) (nodeChain n) doc → ¬ DepthLe n doc
  | 0, doc, h, hd => by cases hd
  | n + 1, doc, h, hd => by
    rw [nodeChain] at h
    generalize hp : Place.decl 55 = pl at h
    cases h <;> cases hp
    case struct ms hm hl h hd' =>
      cases hd'
      obtain ⟨m, hm1⟩ : ∃ m, ms[1]? = some m := ⟨ms[1]'(by rw [hm]; decide), List.getElem?_eq_getElem _⟩
      obtain ⟨d, hd1, hd2⟩ := enc_ptr_field (.methodPtr (.struct rfl)) (h 1 _ _ m rfl rfl hm1)
      cases hd1
      cases hd with
      | obj hd => exact nodeChain_deep n hd2 (hd (_, d) (List.mem_flatten.2 ⟨_, List.mem_of_getElem? hm1, List.mem_singleton.2 rfl⟩))
    all_goals
      rename_i h
      cases h

/-- documents of type Trip are at most four deep -/
theorem trip_nests : Nests Γ (fun _ => 0) 4 (.named 50) := by
  have base : ∀ k, Nests Γ (fun _ => 0) (k + 2) (.named 2) := fun k =>
    .struct (.named 2) rfl (fun _ => 0) (fun _ _ => .inl rfl) (by
      intro fd hf
      simp only [base, List.mem_cons, List.not_mem_nil, or_false] at hf
      subst hf
      exact .flat (.prim _))
  refine .struct (.named 50) rfl (fun _ => 0) (fun _ _ => .inl rfl) fun fd hf => ?_
  simp only [trip, List.mem_cons, List.not_mem_nil, or_false] at hf
  rcases hf with rfl | rfl | rfl | rfl | rfl | rfl | rfl | rfl | rfl
  · exact base 1
  · exact .alias (.named 20) rfl (.flat (.prim _))
  · exact .slice (base 0)
  · exact .map (.flat (.prim _))
  · exact .flat .uuid
  · exact .alias (.named 4) rfl (.flat .bytes)
  · exact .flat .time
  · exact .ptr (.flat (.prim _))
  · exact .map (.ptr (base 0))

/-- so that values of that type come back, with no condition on the text -/
example {v : GoVal} (hv : HasType Γ NoForeign (.named 50) v) (hl : Lossless Γ (.named 50) v) {s : Str} (h : Marshals Γ 50 (some v) (.ok s))
    {doc : JV} (hj : Document doc s) (e : Option Err) (v' : GoVal) : Unmarshals Γ 50 s tripZero e v' ↔ e = none ∧ v' = v.trim :=
  C66_bounded_round_trip (D := fun _ => 0) trip_package trip_writers trip_tripPackage (fun _ _ _ _ h => h.elim) (by decide)
    (nests_mono trip_nests (by decide)) hv hl h hj trip_zero e v'

/-- a list of 301 nodes or more is written without error and can then not be read -/
theorem C66_long_list (n : Nat) (hn : 300 ≤ n) : ∃ s, Marshals Γ 55 (some (nodeChain n)) (.ok s) ∧ (∃ doc, Json doc s) ∧
    ∀ z e v', Unmarshals Γ 55 s z e v' ↔ e = some ⟨none, .notJSON⟩ ∧ v' = z := by
  obtain ⟨s, doc, h1, h2, h3, _, h4⟩ := C66_plain plain_encPackage plainTypes_ok rfl (by decide) (nodeChain_typed n)
  exact ⟨s, h1, ⟨doc, h2⟩, h4 fun hd => nodeChain_deep n h3 (hd.mono hn)⟩

end Examples
end VJ
