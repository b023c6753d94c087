import Verif.Proof.EncodeElem

/-!
# Encoding of elements, lists and maps is right
-/

namespace VJ

variable [Ext] {Γ : Env} {X : Nat → GoVal → Prop} {S : Nat → Prop} {F : Nat → Option GoVal → JV → Prop}

/-- the text of a document with the property was appended -/
def Wrote (P : JV → Prop) (w w' : W) : Prop := ∃ jv s, P jv ∧ Json jv s ∧ w' = w.raw s

/-- the methods of the package write what they should -/
structure MSound (Γ : Env) (F : Nat → Option GoVal → JV → Prop) (X : Nat → GoVal → Prop) (S : Nat → Prop) (M : Nat → Methods) : Prop where
  val : ∀ n v w w', S n → HasType Γ X (.named n) v → Fine Γ F (.named n) v → w.err = none →
    (M n).marshalTo (some v) w = .ok (none, w') → Wrote (Enc Γ F (.decl n) v) w w'
  nil : ∀ n w w', S n → w.err = none → (M n).marshalTo none w = .ok (none, w') → Wrote (NilDoc Γ F n) w w'

omit [Ext] in
theorem wrap_none {label : ECtx} {e : Option EErr} (h : EErr.wrap? label e = none) : e = none := by
  cases e with
  | none => rfl
  | some e => cases h

omit [Ext] in
theorem hasType_primName {t : TExpr} {p : Prim} {v : GoVal} (h : PrimName Γ t p) (hv : HasType Γ X t v) : PrimTyped p v := by
  cases h with
  | base h => exact hasType_isPrim h hv
  | chain hd h => exact hasType_isPrim h (hv.of_alias (.named _) hd)

theorem Fine.primName {t : TExpr} {p : Prim} {f : F64} (h : Fine Γ F t (.float f)) (hp : PrimName Γ t p) : NumText (Ext.fmtFloat f) := by
  cases hp with
  | base hp => exact h.float hp
  | chain hd hp => exact (h.part (.alias .self (.named _) hd)).float hp

theorem leaf_sound {M : Nat → Methods} (hP : EncPackage Γ F S) (hM : MSound Γ F X S M) {o : Bool} {t : TExpr} {x : VExt}
    (h : LeafPlan Γ t x) (hg : EGood Γ S t) (ho : o = true → ∀ e, ¬ ListOf Γ t e) {v : GoVal} (hv : HasType Γ X t v)
    (hf : Fine Γ F t v) {label : ECtx} {w w' : W} (hw : w.err = none) (hr : runVExt M label x v w = .ok (none, w')) :
    Wrote (Enc Γ F (.elem o t) v) w w' := by
  cases h with
  | prim ht hx =>
    have hp := hasType_primName ht hv
    rw [primVExt_run hx hp] at hr; cases hr
    obtain ⟨jv, h1, h2⟩ := scalar_json hp (by rintro f rfl; exact hf.primName ht)
    exact ⟨jv, _, .scalar ht h1, h2, rfl⟩
  | ptr ht hy hx =>
    rcases (hv.of_is ht).star_cases with rfl | ⟨g, rfl, hg'⟩
    · simp only [runVExt] at hr; cases hr
      exact ⟨_, _, .nilScalar ht hy, .null, rfl⟩
    · rename_i y p x
      have hp := hasType_isPrim hy hg'
      have hr' : runVExt M label x g w = .ok (none, w') := by simpa only [runVExt] using hr
      rw [primVExt_run hx hp] at hr'; cases hr'
      obtain ⟨jv, h1, h2⟩ := scalar_json hp (by rintro f rfl; exact (hf.part (.ptr (Written.self.is ht))).float hy)
      exact ⟨jv, _, .ptrScalar ht hy h1, h2, rfl⟩
  | time =>
    cases hv with
    | time tm =>
      simp only [runVExt] at hr; cases hr
      exact ⟨_, _, .time tm, quoted_json (hP.times tm), rfl⟩
    | alias he | struct he | foreign he => cases he
  | call ht hp =>
    simp only [runVExt] at hr
    obtain ⟨⟨e, w1⟩, h1, h2⟩ := Out.bind_eq_ok.1 hr
    simp only [Out.pure_eq, Out.ok.injEq, Prod.mk.injEq] at h2
    obtain ⟨h2, rfl⟩ := h2
    cases wrap_none h2
    obtain ⟨jv, s, h3, h4, h5⟩ := hM.val _ v w w1 (hg.name ht) (hv.name ht (.named _)) (hf.rename ht (.named _)) hw h1
    exact ⟨jv, s, .name ht hp ho h3, h4, h5⟩
  | callPtr hy hp =>
    rename_i y n
    rcases hv.star_cases with rfl | ⟨g, rfl, hg'⟩
    · simp only [runVExt] at hr
      obtain ⟨⟨e, w1⟩, h1, h2⟩ := Out.bind_eq_ok.1 hr
      simp only [Out.pure_eq, Out.ok.injEq, Prod.mk.injEq] at h2
      obtain ⟨h2, rfl⟩ := h2
      cases wrap_none h2
      obtain ⟨jv, s, h3, h4, h5⟩ := hM.nil n w w1 (hg.star.name hy) hw h1
      exact ⟨jv, s, .nilPtr hy hp h3, h4, h5⟩
    · simp only [runVExt] at hr
      obtain ⟨⟨e, w1⟩, h1, h2⟩ := Out.bind_eq_ok.1 hr
      simp only [Out.pure_eq, Out.ok.injEq, Prod.mk.injEq] at h2
      obtain ⟨h2, rfl⟩ := h2
      cases wrap_none h2
      obtain ⟨jv, s, h3, h4, h5⟩ := hM.val n g w w1 (hg.star.name hy) (hg'.name hy (.named _))
        ((hf.part (.ptr .self)).rename hy (.named _)) hw h1
      exact ⟨jv, s, .ptr hy hp h3, h4, h5⟩

/-- documents for each of the elements, with their texts -/
def Docs {α : Type} (P : α → JV → Prop) (vs : List α) (ds : List (JV × Str)) : Prop :=
  ds.length = vs.length ∧ (∀ (i : Nat) (v : α) (d : JV × Str), vs[i]? = some v → ds[i]? = some d → P v d.1) ∧ ∀ d ∈ ds, Json d.1 d.2

omit [Ext] in
theorem Docs.nil {α : Type} (P : α → JV → Prop) : Docs P [] [] := ⟨rfl, by simp, by simp⟩

omit [Ext] in
theorem Docs.cons {α : Type} {P : α → JV → Prop} {v : α} {vs : List α} {jv : JV} {s : Str} {ds : List (JV × Str)} (h1 : P v jv) (h2 : Json jv s)
    (h : Docs P vs ds) : Docs P (v :: vs) ((jv, s) :: ds) := by
  refine ⟨by simp [h.1], ?_, ?_⟩
  · intro i u d hu hd
    cases i with
    | zero => cases hu; cases hd; exact h1
    | succ i => exact h.2.1 i u d hu hd
  · intro d hd
    rcases List.mem_cons.1 hd with rfl | hd
    · exact h2
    · exact h.2.2 d hd

omit [Ext] in
theorem Docs.index {α : Type} {P : α → JV → Prop} {vs : List α} {ds : List (JV × Str)} (h : Docs P vs ds) (i : Nat) (v : α) (d : JV)
    (hv : vs[i]? = some v) (hd : (ds.map (·.1))[i]? = some d) : P v d := by
  rw [List.getElem?_map, Option.map_eq_some_iff] at hd
  obtain ⟨d', h1, rfl⟩ := hd
  exact h.2.1 i v d' hv h1

omit [Ext] in
theorem writeElems_sound {P : GoVal → JV → Prop} {f : Nat → GoVal → W → Out (Option EErr × W)} : ∀ {vs : List GoVal}
    (_ : ∀ i v w w', v ∈ vs → w.err = none → f i v w = .ok (none, w') → Wrote (P v) w w') {i : Nat} {sep : Bool} {w w' : W},
    w.err = none → writeElems f i sep vs w = .ok (none, w') →
    ∃ ds, Docs P vs ds ∧ w' = w.raw (if sep then commaed (ds.map (·.2)) else joinComma (ds.map (·.2)))
  | [], _, i, sep, w, w', hw, h => by
    cases h
    exact ⟨[], .nil P, by cases sep <;> simp [commaed, joinComma, W.raw_nil]⟩
  | v :: vs, hf, i, sep, w, w', hw, h => by
    rw [writeElems] at h
    obtain ⟨⟨e, w1⟩, h1, h2⟩ := Out.bind_eq_ok.1 h
    cases e with
    | some e => cases h2
    | none =>
      obtain ⟨jv, s, h3, h4, rfl⟩ := hf i v _ w1 (by simp) (by cases sep <;> exact hw) h1
      obtain ⟨ds, hd, h5⟩ := writeElems_sound (fun i v w w' hm => hf i v w w' (List.mem_cons_of_mem _ hm)) (by cases sep <;> exact hw) h2
      refine ⟨(jv, s) :: ds, hd.cons h3 h4, ?_⟩
      rw [h5]
      cases sep with
      | true => simp [W.raw_raw, commaed]
      | false => simp [W.raw_raw, joinComma_cons]

omit [Ext] in
theorem writeMembers_sound {P : Str × GoVal → JV → Prop} {f : Str → GoVal → W → Out (Option EErr × W)} : ∀ {kvs : List (Str × GoVal)}
    (_ : ∀ kv w w', kv ∈ kvs → w.err = none → f kv.1 kv.2 w = .ok (none, w') → Wrote (P kv) w w') {sep : Bool} {w w' : W},
    w.err = none → writeMembers f sep kvs w = .ok (none, w') →
    ∃ ds, Docs P kvs ds ∧ ∃ ms : List Mem, (∀ m ∈ ms, MemOK m) ∧ ms.map (·.1) = (kvs.map (·.1)).zip (ds.map (·.1)) ∧
      w' = w.raw (if sep then commaed (ms.map (·.2.text)) else joinComma (ms.map (·.2.text)))
  | [], _, sep, w, w', hw, h => by
    cases h
    exact ⟨[], .nil P, [], by simp, rfl, by cases sep <;> simp [commaed, joinComma, W.raw_nil]⟩
  | (k, v) :: kvs, hf, sep, w, w', hw, h => by
    rw [writeMembers] at h
    obtain ⟨⟨e, w1⟩, h1, h2⟩ := Out.bind_eq_ok.1 h
    cases e with
    | some e => cases h2
    | none =>
      obtain ⟨jv, s, h3, h4, rfl⟩ := hf (k, v) _ w1 (by simp) (by cases sep <;> exact hw) h1
      obtain ⟨ds, hd, ms, hm, hk, h5⟩ := writeMembers_sound (fun kv w w' hm => hf kv w w' (List.mem_cons_of_mem _ hm)) (by cases sep <;> exact hw) h2
      refine ⟨(jv, s) :: ds, hd.cons h3 h4, escMem k jv s :: ms, ?_, ?_, ?_⟩
      · intro m h'
        rcases List.mem_cons.1 h' with rfl | h'
        · exact escMem_ok h4
        · exact hm m h'
      · simp [hk, escMem]
      · rw [h5]
        cases sep with
        | true => simp [W.raw_raw, W.string, commaed, escMem_text]
        | false => simp [W.raw_raw, W.string, joinComma_cons, escMem_text]

/-- the document of a list -/
def ListDoc {α : Type} (P : α → JV → Prop) (es : List α) (jv : JV) : Prop :=
  ∃ docs, jv = .arr docs ∧ docs.length = es.length ∧ ∀ (i : Nat) (x : α) (d : JV), es[i]? = some x → docs[i]? = some d → P x d

/-- the document of a map -/
def MapDoc (P : GoVal → JV → Prop) (kvs : List (Str × GoVal)) (jv : JV) : Prop :=
  ∃ docs, jv = .obj ((kvs.map (·.1)).zip docs) ∧ docs.length = kvs.length ∧
    ∀ (i : Nat) (kv : Str × GoVal) (d : JV), kvs[i]? = some kv → docs[i]? = some d → P kv.2 d

omit [Ext] in
theorem list_sound {P : GoVal → JV → Prop} {f : Nat → GoVal → W → Out (Option EErr × W)} {vs : List GoVal}
    (hf : ∀ i v w w', v ∈ vs → w.err = none → f i v w = .ok (none, w') → Wrote (P v) w w') {w w' : W} (hw : w.err = none)
    (h : (writeElems f 0 false vs (w.raw ['[']) >>= fun r => match r.1 with
      | some e => (.ok (some e, r.2) : Out (Option EErr × W))
      | none => .ok (none, r.2.raw [']'])) = .ok (none, w')) : Wrote (ListDoc P vs) w w' := by
  obtain ⟨⟨e, w1⟩, h1, h2⟩ := Out.bind_eq_ok.1 h
  cases e with
  | some e => cases h2
  | none =>
    obtain ⟨ds, hd, rfl⟩ := writeElems_sound hf (w := w.raw ['[']) hw h1
    cases h2
    refine ⟨_, _, ⟨ds.map (·.1), rfl, by simp [hd.1], hd.index⟩, json_arr hd.2.2, ?_⟩
    simp [W.raw_raw]

omit [Ext] in
theorem map_sound {P : GoVal → JV → Prop} {f : Str → GoVal → W → Out (Option EErr × W)} {kvs : List (Str × GoVal)}
    (hf : ∀ kv w w', kv ∈ kvs → w.err = none → f kv.1 kv.2 w = .ok (none, w') → Wrote (P kv.2) w w') {w w' : W} (hw : w.err = none)
    (h : (writeMembers f false kvs (w.raw ['{']) >>= fun r => match r.1 with
      | some e => (.ok (some e, r.2) : Out (Option EErr × W))
      | none => .ok (none, r.2.raw ['}'])) = .ok (none, w')) : Wrote (MapDoc P kvs) w w' := by
  obtain ⟨⟨e, w1⟩, h1, h2⟩ := Out.bind_eq_ok.1 h
  cases e with
  | some e => cases h2
  | none =>
    obtain ⟨ds, hd, ms, hm, hk, rfl⟩ := writeMembers_sound (P := fun kv => P kv.2) hf (w := w.raw ['{']) hw h1
    cases h2
    refine ⟨_, _, ⟨ds.map (·.1), rfl, by simp [hd.1], hd.index⟩, hk ▸ json_obj hm, ?_⟩
    simp [W.raw_raw]

theorem vext_sound {M : Nat → Methods} (hP : EncPackage Γ F S) (hM : MSound Γ F X S M) {t : TExpr} {x : VExt}
    (h : ElemPlan Γ t x) (hg : EGood Γ S t) {v : GoVal} (hv : HasType Γ X t v)
    (hf : Fine Γ F t v) {label : ECtx} {w w' : W} (hw : w.err = none) (hr : runVExt M label x v w = .ok (none, w')) :
    Wrote (Enc Γ F (.elem true t) v) w w' := by
  cases h with
  | leaf hl h => exact leaf_sound hP hM h hg (fun _ => hl) hv hf hw hr
  | list ht h =>
    rename_i e x
    have key : ∀ {es : List GoVal}, Listing v es → (∀ c ∈ es, HasType Γ X e c) → (∀ c ∈ es, Fine Γ F e c) → EGood Γ S e →
        (writeElems (fun _ v w => runVExt M label x v w) 0 false es (w.raw ['[']) >>= fun r => match r.1 with
          | some e => (.ok (some e, r.2) : Out (Option EErr × W))
          | none => .ok (none, r.2.raw [']'])) = .ok (none, w') → Wrote (Enc Γ F (.elem true t) v) w w' := by
      intro es hl ht' hf' hge hr
      obtain ⟨jv, s, ⟨docs, rfl, h1, h2⟩, h3, h4⟩ := list_sound (P := fun c => Enc Γ F (.elem false e) c)
        (fun i c w w' hc hw hr => leaf_sound hP hM h hge (by simp) (ht' c hc) (hf' c hc) hw hr) hw hr
      exact ⟨_, s, .list ht hl h1 h2, h3, h4⟩
    rcases ht.2 with hi | ⟨n, hi⟩
    · rcases (hv.of_is hi).slice_cases ht.1 with rfl | ⟨es, sp, rfl, h1, -⟩
      · simp only [runVExt] at hr; cases hr
        exact ⟨_, _, .nilList ht, .arr0 ws_nil, rfl⟩
      · exact key (.slice es sp) h1 (fun c hc => hf.part (.slice (Written.self.is hi) hc)) (hg.is hP.toTypeSet hi).slice hr
    · obtain ⟨es, rfl, -, h1⟩ := (hv.of_is hi).array_cases ht.1
      exact key (.arr es) h1 (fun c hc => hf.part (.array (Written.self.is hi) hc)) (hg.is hP.toTypeSet hi).array hr

theorem writeList_sound {M : Nat → Methods} (hP : EncPackage Γ F S) (hM : MSound Γ F X S M) {t : TExpr} {x : VExt}
    (h : ElemPlan Γ t x) (hg : EGood Γ S t) {es : List GoVal} (hv : ∀ v ∈ es, HasType Γ X t v)
    (hf : ∀ v ∈ es, Fine Γ F t v) {name : Str} {w w' : W} (hw : w.err = none) (hr : writeList M name x es w = .ok (none, w')) :
    Wrote (ListDoc (Enc Γ F (.elem true t)) es) w w' :=
  list_sound (fun _ v _ _ hm hw hr => vext_sound hP hM h hg (hv v hm) (hf v hm) hw hr) hw hr

theorem writeMap_sound {M : Nat → Methods} (hP : EncPackage Γ F S) (hM : MSound Γ F X S M) {t : TExpr} {x : VExt}
    (h : ElemPlan Γ t x) (hg : EGood Γ S t) {kvs : List (Str × GoVal)} (hv : ∀ kv ∈ kvs, HasType Γ X t kv.2)
    (hf : ∀ kv ∈ kvs, Fine Γ F t kv.2) {name : Str} {w w' : W} (hw : w.err = none) (hr : writeMap M name x kvs w = .ok (none, w')) :
    Wrote (MapDoc (Enc Γ F (.elem true t)) kvs) w w' :=
  map_sound (fun kv _ _ hm hw hr => vext_sound hP hM h hg (hv kv hm) (hf kv hm) hw hr) hw hr

end VJ
