import Verif.Proof.EncodePlan

/-!
# Encoding of struct fields is right
-/

namespace VJ

variable [Ext] {Γ : Env} {X : Nat → GoVal → Prop} {S : Nat → Prop} {F : Nat → Option GoVal → JV → Prop}

/-- what encoding a field does to the writer and to `wantComma` -/
inductive FieldOut (Γ : Env) (F : Nat → Option GoVal → JV → Prop) (fd : FieldDecl) (v : GoVal) (wc : Bool) (w : W) : Bool → W → Prop
  | omitted (h : Omitted Γ fd v) : FieldOut Γ F fd v wc w wc w
  | written {ms : List Mem} {wc' : Bool} (hne : ms ≠ []) (hno : ¬ Omitted Γ fd v) (hok : ∀ m ∈ ms, MemOK m)
      (he : Enc Γ F (.field fd) v (.obj (ms.map (·.1)))) (hwc : wc' = true ∨ (wc' = wc ∧ Forgotten Γ fd v)) :
      FieldOut Γ F fd v wc w wc' ((putComma wc w).raw (joinComma (ms.map (·.2.text))))

theorem FieldOut.one {fd : FieldDecl} {v : GoVal} {wc wc' : Bool} {w : W} {jv : JV} {body : Str} (hno : ¬ Omitted Γ fd v)
    (hn : PlainText fd.tags.jsonName) (hj : Json jv body) (he : Enc Γ F (.field fd) v (.obj [(fd.tags.jsonName, jv)]))
    (hwc : wc' = true ∨ (wc' = wc ∧ Forgotten Γ fd v)) :
    FieldOut Γ F fd v wc w wc' ((putComma wc w).raw (keyText fd.tags.jsonName ++ body)) := by
  have := FieldOut.written (Γ := Γ) (F := F) (fd := fd) (v := v) (wc := wc) (wc' := wc') (w := w)
    (ms := [plainMem fd.tags.jsonName jv body]) (by simp) hno (by simpa using plainMem_ok hn hj) he hwc
  simpa [joinComma, plainMem_text] using this

theorem hexBytes_plain (b : List UInt8) : PlainText (hexBytes b) := by
  induction b with
  | nil => intro c h; simp [hexBytes] at h
  | cons b bs ih =>
    have key : ∀ n, n < 16 → 32 ≤ (hexChar n).toNat ∧ hexChar n ≠ '"' ∧ hexChar n ≠ '\\' := by decide
    intro c h
    have hb := b.toNat_lt
    simp [hexBytes, hexByte] at h
    rcases h with rfl | rfl | h
    · exact key _ (by omega)
    · exact key _ (by omega)
    · exact ih c h

theorem uuidText_plain (b : List UInt8) : PlainText (uuidText b) := by
  intro c hc
  simp only [uuidText, List.mem_append, List.mem_cons] at hc
  rcases hc with (((hc | rfl | hc) | rfl | hc) | rfl | hc) | rfl | hc
  all_goals first | exact hexBytes_plain _ c hc | decide

/-! ### running a block -/

theorem runBlk_none {M : Nat → Methods} {name : Str} {body : Body} {z : Option (Str × Bool)} {v : GoVal} {wc wc' : Bool} {w w' : W}
    (h : runBlk M ⟨name, none, body, z⟩ v wc w = .ok (none, wc', w')) :
    wc' = true ∧ runBody M name body v (putComma wc w) = .ok (none, w') := by
  obtain ⟨⟨e, w1⟩, h1, h2⟩ := Out.bind_eq_ok.1 h
  cases h2
  exact ⟨rfl, h1⟩

theorem runBlk_true {M : Nat → Methods} {name : Str} {c : Cond} {body : Body} {z : Option (Str × Bool)} {v : GoVal} {wc wc' : Bool} {w w' : W}
    (h : runBlk M ⟨name, some c, body, z⟩ v wc w = .ok (none, wc', w')) (hc : runCond M c v = .ok true) :
    wc' = true ∧ runBody M name body v (putComma wc w) = .ok (none, w') := by
  simp only [runBlk, hc, Out.ok_bind, if_true] at h
  obtain ⟨⟨e, w1⟩, h1, h2⟩ := Out.bind_eq_ok.1 h
  cases h2
  exact ⟨rfl, h1⟩

theorem runBlk_false {M : Nat → Methods} {name : Str} {c : Cond} {body : Body} {t : Str} {o sets : Bool} {v : GoVal} {wc wc' : Bool} {w w' : W}
    (h : runBlk M ⟨name, some c, body, if o then none else some (t, sets)⟩ v wc w = .ok (none, wc', w')) (hc : runCond M c v = .ok false) :
    (o = true ∧ wc' = wc ∧ w' = w) ∨ (o = false ∧ wc' = (wc || sets) ∧ w' = (putComma wc w).raw (keyText name ++ t)) := by
  simp only [runBlk, hc, Out.ok_bind, Bool.false_eq_true, if_false] at h
  cases o with
  | true => cases h; exact .inl ⟨rfl, rfl, rfl⟩
  | false => cases h; exact .inr ⟨rfl, rfl, rfl⟩

theorem runBlk_skip {M : Nat → Methods} {name : Str} {c : Cond} {body : Body} {v : GoVal} {wc wc' : Bool} {w w' : W}
    (h : runBlk M ⟨name, some c, body, none⟩ v wc w = .ok (none, wc', w')) (hc : runCond M c v = .ok false) : wc' = wc ∧ w' = w := by
  simp only [runBlk, hc, Out.ok_bind, Bool.false_eq_true, if_false] at h
  cases h; exact ⟨rfl, rfl⟩

/-- a block that writes a constant for the empty value -/
theorem empty_out {M : Nat → Methods} {fd : FieldDecl} {k : EKind} {c : Cond} {body : Body} {t : Str} {sets : Bool} {v : GoVal} {wc wc' : Bool}
    {w w' : W} {jv : JV} (hk : FieldKind Γ fd.typ k) (hm : ∀ n, k ≠ .method n) (hv : IsEmpty Γ k v) (hn : PlainText fd.tags.jsonName)
    (hd : EmptyDoc fd.tags k v jv) (hj : Json jv t) (hs : sets = true ∨ (k = .ptr ∨ k = .ptr2 ∨ ∃ n, k = .methodPtr n))
    (h : runBlk M ⟨fd.tags.jsonName, some c, body, if fd.tags.omitempty then none else some (t, sets)⟩ v wc w = .ok (none, wc', w'))
    (hc : runCond M c v = .ok false) : FieldOut Γ F fd v wc w wc' w' := by
  rcases runBlk_false h hc with ⟨ho, rfl, rfl⟩ | ⟨ho, rfl, rfl⟩
  · exact .omitted ⟨k, hk, hv, .inl ho⟩
  · refine .one (not_omitted hk fun _ => ⟨ho, fun ⟨n, hn⟩ => absurd hn (hm n)⟩) hn hj (.empty hk hv ho hd) ?_
    rcases hs with rfl | hs
    · exact .inl (by simp)
    · cases sets with
      | true => exact .inl (by simp)
      | false => exact .inr ⟨by simp, ho, k, hk, hv, hs⟩

/-! ### scalars -/

/-- what is emitted for a scalar behind `d` pointers -/
structure PrimBlk (tags : Tags) (p : Prim) (d : Nat) (b : Blk) (body : Body) (zero : Str) : Prop where
  eq : b = ⟨tags.jsonName, some (if d = 0 ∨ d = 1 then .neZero else .notNil2), body,
    if tags.omitempty then none else some (if d = 0 then zero else str "null", d == 0)⟩
  run : ∀ M name v g w, PrimTyped p g → deref d v = .ok g → (d = 0 → eqZero g = false) →
    runBody M name body v w = .ok (none, w.raw (keyText name ++ scalarText g))
  zero : ∀ g, PrimTyped p g → eqZero g = true → ∃ jv, EmptyDoc tags .scalar g jv ∧ Json jv zero

theorem typeMarshal_blk {tags : Tags} {p : Prim} {d : Nat} {b : Blk} (h : typeMarshal tags p d = .ok b) :
    ∃ body zero, PrimBlk tags p d b body zero := by
  have shape : ∀ {body : Body} {zero : Str}, (if d = 0 then
      (pure ⟨tags.jsonName, some .neZero, body, if tags.omitempty then none else some (zero, true)⟩ : Out Blk)
    else
      pure ⟨tags.jsonName, some (if d = 1 then .neZero else .notNil2), body,
        if tags.omitempty then none else some (str "null", false)⟩) = .ok b →
      b = ⟨tags.jsonName, some (if d = 0 ∨ d = 1 then .neZero else .notNil2), body,
        if tags.omitempty then none else some (if d = 0 then zero else str "null", d == 0)⟩ := by
    intro body zero h
    by_cases hd : d = 0
    · simp only [hd, if_true, Out.pure_eq, Out.ok.injEq] at h
      rw [← h]; simp [hd]
    · simp only [if_neg hd, Out.pure_eq, Out.ok.injEq] at h
      have hd' : (d == 0) = false := by simpa using hd
      rw [← h]; simp [hd, hd']
  have num : Json (.num (str "0")) (str "0") := .num (intStr_num 0)
  have int : p.isWhole = true → typeMarshal tags p d = (.ok (Body.prim .int d, str "0") >>= fun (body, zero) => if d = 0 then
      (pure ⟨tags.jsonName, some .neZero, body, if tags.omitempty then none else some (zero, true)⟩ : Out Blk)
    else
      pure ⟨tags.jsonName, some (if d = 1 then .neZero else .notNil2), body,
        if tags.omitempty then none else some (str "null", false)⟩) ∨ typeMarshal tags p d = .unsupp := by
    intro hp
    cases p <;> first | exact .inl rfl | exact .inr rfl | cases hp
  cases hp : p.isWhole with
  | true =>
    rcases int hp with h' | h'
    · rw [h'] at h
      refine ⟨_, _, shape h, ?_, ?_⟩
      · intro M name v g w hg hd _
        cases hg with
        | int _ _ => simp [runBody, hd, W.raw_raw, scalarText]
        | _ => cases hp
      · intro g hg hz
        cases hg with
        | int _ _ =>
          simp only [eqZero, beq_iff_eq] at hz
          subst hz
          exact ⟨_, .scalar (by simp) (.int 0), num⟩
        | _ => cases hp
    · rw [h'] at h; cases h
  | false =>
    have fl : p = .float32 ∨ p = .float64 → ∃ body zero, PrimBlk tags p d b body zero := by
      intro hp'
      have h' : (.ok (Body.prim .float d, str "0") >>= fun (body, zero) => if d = 0 then
          (pure ⟨tags.jsonName, some .neZero, body, if tags.omitempty then none else some (zero, true)⟩ : Out Blk)
        else
          pure ⟨tags.jsonName, some (if d = 1 then .neZero else .notNil2), body,
            if tags.omitempty then none else some (str "null", false)⟩) = .ok b := by
        rcases hp' with rfl | rfl <;> exact h
      refine ⟨_, _, shape h', ?_, ?_⟩
      · intro M name v g w hg hd _
        cases hg with
        | float32 f => simp [runBody, hd, W.raw_raw, scalarText]
        | float64 f => simp [runBody, hd, W.raw_raw, scalarText]
        | int h => rw [hp] at h; cases h
        | _ => rcases hp' with h | h <;> cases h
      · intro g hg hz
        cases hg with
        | float32 f => exact ⟨_, .float f, num⟩
        | float64 f => exact ⟨_, .float f, num⟩
        | int h => rw [hp] at h; cases h
        | _ => rcases hp' with h | h <;> cases h
    cases p with
    | float32 => exact fl (.inl rfl)
    | float64 => exact fl (.inr rfl)
    | bool =>
      refine ⟨_, _, shape h, ?_, ?_⟩
      · intro M name v g w hg hd h0
        cases hg with
        | bool x =>
          by_cases hd0 : d = 0
          · have := h0 hd0
            simp only [eqZero, Bool.not_eq_false'] at this
            subst this
            simp [hd0, runBody, scalarText, boolText]
          · simp [hd0, runBody, hd, scalarText]
        | int h => cases h
      · intro g hg hz
        cases hg with
        | bool x =>
          simp only [eqZero, Bool.not_eq_true'] at hz
          subst hz
          exact ⟨_, .scalar (by simp) (.bool false), .false⟩
        | int h => cases h
    | string =>
      refine ⟨_, _, shape h, ?_, ?_⟩
      · intro M name v g w hg hd _
        cases hg with
        | string s => simp [runBody, hd, W.raw_raw, scalarText, W.string]
        | int h => cases h
      · intro g hg hz
        cases hg with
        | string s =>
          simp only [eqZero, beq_iff_eq] at hz
          subst hz
          exact ⟨_, .scalar (by simp) (.str []), quoted_json (s := []) (by unfold PlainText; simp)⟩
        | int h => cases h
    | _ => cases hp

omit [Ext] in
theorem zeroScalar_iff {p : Prim} {g : GoVal} (h : PrimTyped p g) : ZeroScalar g ↔ eqZero g = true := by
  cases h with
  | int =>
    simp only [eqZero, beq_iff_eq]
    exact ⟨fun h => by cases h; rfl, fun h => by subst h; exact .int⟩
  | float64 f => exact ⟨fun h => by cases h; assumption, fun h => .float h⟩
  | float32 f => exact ⟨fun h => by cases h; assumption, fun h => .float h⟩
  | bool b =>
    simp only [eqZero, Bool.not_eq_true']
    exact ⟨fun h => by cases h; rfl, fun h => by subst h; exact .bool⟩
  | string s =>
    simp only [eqZero, beq_iff_eq]
    exact ⟨fun h => by cases h; rfl, fun h => by subst h; exact .str⟩

/-! ### fields with methods -/

omit [Ext] in
theorem ByMethod.typed {t : TExpr} {n : Nat} {v : GoVal} (h : ByMethod Γ t n) (hv : HasType Γ X t v) : HasType Γ X (.named n) v := by
  cases h with
  | struct => exact hv
  | sel => exact hv.name (.sel _) (.named _)
  | named hd => exact (hv.of_alias (.named _) hd).name (.sel _) (.named _)

theorem ByMethod.fine {t : TExpr} {n : Nat} {v : GoVal} (h : ByMethod Γ t n) (hv : Fine Γ F t v) : Fine Γ F (.named n) v := by
  cases h with
  | struct => exact hv
  | sel => exact hv.rename (.sel _) (.named _)
  | named hd => exact (hv.part (.alias .self (.named _) hd)).rename (.sel _) (.named _)

theorem ByMethod.inS (hP : TypeSet Γ S) {t : TExpr} {n : Nat} (h : ByMethod Γ t n) (hg : EGood Γ S t) : S n := by
  cases h with
  | struct => exact hg.name (.named _)
  | sel => exact hg.name (.sel _)
  | named hd => exact (hP.alias (hg.name (.named _)) hd).name (.sel _)

theorem memText_ne {m : Mem} : m.2.text ≠ [] := by
  unfold MemberText.text; simp

theorem putComma_err (wc : Bool) (w : W) : (putComma wc w).err = w.err := by cases wc <;> rfl

theorem unpack_obj (s : Str) : unpackObject (.ok ('{' :: (s ++ ['}']))) = (s, none) := by
  have h1 : ¬ ('{' :: (s ++ ['}'])).length < 2 := by simp
  have h2 : ¬ (('{' :: (s ++ ['}'])).head? ≠ some '{' ∨ ('{' :: (s ++ ['}'])).getLast? ≠ some '}') := by
    simp only [List.head?_cons, ne_eq, not_true, false_or, Decidable.not_not]
    rw [← List.cons_append, List.getLast?_concat]
  unfold unpackObject
  simp only
  rw [if_neg h1, if_neg h2]
  simp

/-- splicing an embedded struct -/
theorem splice_sound {M : Nat → Methods} (hM : MSound Γ F X S M) {n : Nat} (hn : S n) {v : GoVal} (hv : HasType Γ X (.named n) v)
    (hf : Fine Γ F (.named n) v) (hs : ∀ jv, Enc Γ F (.decl n) v jv → ∃ kv kvs, jv = .obj (kv :: kvs)) {w w' : W} (hw : w.err = none)
    (hw' : w'.err = none) (hr : runBody M [] (.inline n) v w = .ok (none, w')) :
    ∃ ms : List Mem, ms ≠ [] ∧ (∀ m ∈ ms, MemOK m) ∧ Enc Γ F (.decl n) v (.obj (ms.map (·.1))) ∧ w' = w.raw (joinComma (ms.map (·.2.text))) := by
  simp only [runBody] at hr
  obtain ⟨r, h1, h2⟩ := Out.bind_eq_ok.1 hr
  cases h2
  unfold marshalJSON at h1
  obtain ⟨⟨e, w1⟩, h3, h4⟩ := Out.bind_eq_ok.1 h1
  cases e with
  | some e =>
    cases h4
    simp [unpackObject, W.rawData, hw] at hw'
  | none =>
    cases h4
    obtain ⟨jv, s, h5, h6, rfl⟩ := hM.val n v W.empty w1 hn hv hf rfl h3
    obtain ⟨kv, kvs, rfl⟩ := hs _ h5
    obtain ⟨ms, hk, hok, rfl⟩ := json_obj_inv h6
    have hb : (W.empty.raw ('{' :: (joinComma (ms.map (·.2.text)) ++ ['}']))).build =
      .ok ('{' :: (joinComma (ms.map (·.2.text)) ++ ['}'])) := by simp [W.build, W.empty, W.raw]
    have hne : ms ≠ [] := by rintro rfl; cases hk
    refine ⟨ms, hne, hok, by rw [hk]; exact h5, ?_⟩
    rw [hb, unpack_obj]
    obtain ⟨m, ms, rfl⟩ := List.exists_cons_of_ne_nil hne
    have : joinComma ((m :: ms).map (·.2.text)) ≠ [] := by
      rw [List.map_cons, joinComma_cons]
      intro h
      exact memText_ne (List.append_eq_nil_iff.1 h).1
    simp only [W.rawData, hw, if_neg this]

theorem blk_sound {M : Nat → Methods} (hP : EncPackage Γ F S) (hM : MSound Γ F X S M)
    (hZ : ∀ n v b, (M n).isZero v = .ok b → IsZeroIs Γ n v b) {fd : FieldDecl} {k : EKind} {b : Blk} (hp : BlkPlan Γ fd k b)
    (hg : EGood Γ S fd.typ) (hn : PlainText fd.tags.jsonName)
    (hl : (∀ tm, PlainText (Ext.fmtTime (writeLayout fd.tags.layout) tm)) ∧ PlainText (Ext.fmtTime (zeroLayout fd.tags.layout) .zero))
    {v : GoVal} (hv : HasType Γ X fd.typ v) (hf : ¬ Omitted Γ fd v → Fine Γ F fd.typ v)
    (hs : ∀ n jv, fd.tags.jsonName = [] → ByMethod Γ fd.typ n → IsZeroIs Γ n v false → Enc Γ F (.decl n) v jv → ∃ kv kvs, jv = .obj (kv :: kvs))
    {wc wc' : Bool} {w w' : W} (hw : w.err = none) (hw' : w'.err = none) (hr : runBlk M b v wc w = .ok (none, wc', w')) :
    FieldOut Γ F fd v wc w wc' w' := by
  have hk := hp.kind
  have hpc : (putComma wc w).err = none := by rw [putComma_err]; exact hw
  cases hp with
  | scalar ht h =>
    obtain ⟨body, zero, hb⟩ := typeMarshal_blk h
    have ht' := hasType_isPrim ht hv
    have heq := hb.eq; simp only [true_or, if_true] at heq; subst heq
    cases hz : eqZero v with
    | true =>
      obtain ⟨jv, h1, h2⟩ := hb.zero v ht' hz
      exact empty_out hk (by simp) (.scalar ((zeroScalar_iff ht').2 hz)) hn h1 h2 (.inl rfl) hr (by simp [runCond, hz])
    | false =>
      obtain ⟨rfl, h1⟩ := runBlk_true hr (by simp [runCond, hz])
      rw [hb.run M _ v v _ ht' rfl (fun _ => hz)] at h1; cases h1
      have hnz : ¬ ZeroScalar v := by rw [zeroScalar_iff ht', hz]; simp
      have hno : ¬ Omitted Γ fd v := not_omitted hk fun h => by cases h; contradiction
      obtain ⟨jv, h1, h2⟩ := scalar_json ht' (by rintro f rfl; exact (hf hno).float ht)
      exact .one hno hn h2 (.scalarField hk hnz h1) (.inl rfl)
  | ptr _ ht hy h =>
    obtain ⟨body, zero, hb⟩ := typeMarshal_blk h
    have heq := hb.eq; simp only [or_true, if_true, Nat.one_ne_zero, if_false] at heq; subst heq
    rcases (hv.of_is ht).star_cases with rfl | ⟨g, rfl, hg'⟩
    · exact empty_out hk (by simp) .ptr hn (.null _ (by simp)) .null (.inr (.inl rfl)) hr rfl
    · have ht' := hasType_isPrim hy hg'
      obtain ⟨rfl, h1⟩ := runBlk_true hr rfl
      rw [hb.run M _ _ g _ ht' rfl (by simp)] at h1; cases h1
      have hno : ¬ Omitted Γ fd (.ptr g) := not_omitted hk fun h => by cases h
      obtain ⟨jv, h1, h2⟩ := scalar_json ht' (by rintro f rfl; exact ((hf hno).part (.ptr (Written.self.is ht))).float hy)
      exact .one hno hn h2 (.ptrField hk h1) (.inl rfl)
  | ptr2 ht hy h =>
    obtain ⟨body, zero, hb⟩ := typeMarshal_blk h
    have heq := hb.eq; simp only [show ¬ ((2 : Nat) = 0 ∨ (2 : Nat) = 1) by omega, show ¬ (2 : Nat) = 0 by omega, if_false] at heq; subst heq
    rw [ht] at hv hf
    rcases hv.star_cases with rfl | ⟨g, rfl, hg'⟩
    · exact empty_out hk (by simp) .ptr2 hn (.null _ (by simp)) .null (.inr (.inr (.inl rfl))) hr rfl
    · rcases (hg'.of_is hy).star_cases with rfl | ⟨g', rfl, hg''⟩
      · exact empty_out hk (by simp) .ptr2' hn (.null _ (by simp)) .null (.inr (.inr (.inl rfl))) hr rfl
      · have ht' := hasType_isPrim (.self _) hg''
        obtain ⟨rfl, h1⟩ := runBlk_true hr rfl
        rw [hb.run M _ _ g' _ ht' rfl (by simp)] at h1; cases h1
        have hno : ¬ Omitted Γ fd (.ptr (.ptr g')) := not_omitted hk fun h => by cases h
        obtain ⟨jv, h1, h2⟩ := scalar_json ht' (by
          rintro f rfl; exact ((hf hno).part (.ptr ((Written.ptr .self).is hy))).float (.self _))
        exact .one hno hn h2 (.ptr2Field hk h1) (.inl rfl)
  | time ht =>
    rw [ht] at hv
    cases hv with
    | time tm =>
      cases hz : tm.isZero with
      | true => exact empty_out hk (by simp) (.time hz) hn (.time _) (quoted_json hl.2) (.inl rfl) hr (by simp [runCond, hz])
      | false =>
        obtain ⟨rfl, h1⟩ := runBlk_true hr (by simp [runCond, hz])
        simp only [runBody, deref, Out.ok_bind, Out.pure_eq] at h1
        cases h1
        rw [W.raw_raw]
        exact .one (not_omitted hk fun h => by cases h; simp_all) hn (quoted_json (hl.1 tm)) (.timeField hk hz) (.inl rfl)
    | alias he | struct he | foreign he => cases he
  | timePtr ht =>
    rcases (hv.of_is ht).star_cases with rfl | ⟨g, rfl, hg'⟩
    · exact empty_out hk (by simp) .timePtr hn (.timePtr _) (quoted_json hl.2) (.inl rfl) hr rfl
    · cases hg' with
      | time tm =>
        obtain ⟨rfl, h1⟩ := runBlk_true hr rfl
        simp only [runBody, deref, Out.ok_bind, Out.pure_eq] at h1
        cases h1
        rw [W.raw_raw]
        exact .one (not_omitted hk fun h => by cases h) hn (quoted_json (hl.1 tm)) (.timePtrField hk) (.inl rfl)
      | alias he | struct he | foreign he => cases he
  | uuid ht =>
    rw [ht] at hv
    cases hv with
    | uuid hb =>
      obtain ⟨rfl, h1⟩ := runBlk_none hr
      simp only [runBody, deref, Bool.false_eq_true, if_false, Out.ok_bind, Out.pure_eq] at h1
      cases h1
      exact .one (not_omitted hk fun h => by cases h) hn (quoted_json (uuidText_plain _)) (.uuidField hk) (.inl rfl)
    | alias he | struct he | foreign he => cases he
  | uuidPtr ht =>
    rw [ht] at hv
    obtain ⟨rfl, h1⟩ := runBlk_none hr
    rcases hv.star_cases with rfl | ⟨g, rfl, hg'⟩
    · cases h1
    · cases hg' with
      | uuid hb =>
        simp only [runBody, deref, if_true, Out.ok_bind, Out.pure_eq] at h1
        cases h1
        exact .one (not_omitted hk fun h => by cases h) hn (quoted_json (uuidText_plain _)) (.uuidPtrField hk) (.inl rfl)
      | alias he | struct he | foreign he => cases he
  | method ht h =>
    rename_i n
    have hS := ht.inS hP.toTypeSet hg
    unfold marshalTransit at h
    by_cases hj : fd.tags.jsonName = []
    · rw [if_pos hj] at h; cases h
      have hc : ∃ c, runCond M (.method n) v = .ok c := by
        simp only [runBlk] at hr
        obtain ⟨c, h1, -⟩ := Out.bind_eq_ok.1 hr
        exact ⟨c, h1⟩
      obtain ⟨c, hc⟩ := hc
      have hc' := hc
      simp only [runCond] at hc'
      obtain ⟨z, h1, h2⟩ := Out.bind_eq_ok.1 hc'
      cases h2
      have hz := hZ n v z h1
      cases z with
      | true =>
        obtain ⟨rfl, rfl⟩ := runBlk_skip hr hc
        exact .omitted ⟨_, hk, .method hz, .inr ⟨⟨n, rfl⟩, hj⟩⟩
      | false =>
        obtain ⟨rfl, h3⟩ := runBlk_true hr hc
        have hno : ¬ Omitted Γ fd v := not_omitted hk fun h => by
          cases h with
          | method h => cases isZero_unique h hz
        obtain ⟨ms, hne, hok, he, rfl⟩ := splice_sound hM hS (ht.typed hv) (ht.fine (hf hno)) (fun jv => hs n jv hj ht hz) hpc hw' h3
        exact .written hne hno hok (.spliced hk hj hz he) (.inl rfl)
    · rw [if_neg hj] at h
      simp only [Bool.false_eq_true, if_false] at h
      cases h
      have body : ∀ {w1 : W}, ¬ Omitted Γ fd v → w1.err = none → runBody M fd.tags.jsonName (.struct n false) v w1 = .ok (none, w') →
          ∃ jv s, Enc Γ F (.decl n) v jv ∧ Json jv s ∧ w' = w1.raw (keyText fd.tags.jsonName ++ s) := by
        intro w1 hno hw1 h
        simp only [runBody, Bool.false_eq_true, if_false, deref, Out.ok_bind] at h
        obtain ⟨⟨e, w2⟩, h1, h2⟩ := Out.bind_eq_ok.1 h
        simp only [Out.pure_eq, Out.ok.injEq, Prod.mk.injEq] at h2
        obtain ⟨h2, rfl⟩ := h2
        cases wrap_none h2
        obtain ⟨jv, s, h3, h4, h5⟩ := hM.val n v _ _ hS (ht.typed hv) (ht.fine (hf hno)) (by simpa using hw1) h1
        exact ⟨jv, s, h3, h4, by rw [h5, W.raw_raw]⟩
      cases ho : fd.tags.omitempty with
      | false =>
        rw [ho] at hr
        obtain ⟨rfl, h3⟩ := runBlk_none hr
        have hno : ¬ Omitted Γ fd v := not_omitted hk fun _ => ⟨ho, fun _ => hj⟩
        obtain ⟨jv, s, h4, h5, rfl⟩ := body hno hpc h3
        exact .one hno hn h5 (.methodField hk hj (by simp [ho]) h4) (.inl rfl)
      | true =>
        rw [ho] at hr
        simp only [if_true] at hr
        have hc : ∃ c, runCond M (.method n) v = .ok c := by
          simp only [runBlk] at hr
          obtain ⟨c, h1, -⟩ := Out.bind_eq_ok.1 hr
          exact ⟨c, h1⟩
        obtain ⟨c, hc⟩ := hc
        have hc' := hc
        simp only [runCond] at hc'
        obtain ⟨z, h1, h2⟩ := Out.bind_eq_ok.1 hc'
        cases h2
        have hz := hZ n v z h1
        cases z with
        | true =>
          obtain ⟨rfl, rfl⟩ := runBlk_skip hr hc
          exact .omitted ⟨_, hk, .method hz, .inl ho⟩
        | false =>
          obtain ⟨rfl, h3⟩ := runBlk_true hr hc
          have hno : ¬ Omitted Γ fd v := not_omitted hk fun h => by
            cases h with
            | method h => cases isZero_unique h hz
          obtain ⟨jv, s, h4, h5, rfl⟩ := body hno hpc h3
          exact .one hno hn h5 (.methodField hk hj (fun _ => hz) h4) (.inl rfl)
  | methodPtr ht hy h =>
    rename_i t n
    rw [ht] at hv hf hg
    have hS := hy.inS hP.toTypeSet hg.star
    unfold marshalTransit at h
    by_cases hj : fd.tags.jsonName = []
    · rw [if_pos hj] at h; cases h
    · rw [if_neg hj] at h
      simp only [if_true] at h
      cases h
      rcases hv.star_cases with rfl | ⟨g, rfl, hg'⟩
      · exact empty_out hk (by simp) .methodPtr hn (.null _ (by simp)) .null (.inr (.inr (.inr ⟨_, rfl⟩))) hr rfl
      · have hno : ¬ Omitted Γ fd (.ptr g) := not_omitted hk fun h => by cases h
        obtain ⟨rfl, h⟩ := runBlk_true hr rfl
        simp only [runBody, if_true, deref, Out.ok_bind] at h
        obtain ⟨⟨e, w2⟩, h1, h2⟩ := Out.bind_eq_ok.1 h
        simp only [Out.pure_eq, Out.ok.injEq, Prod.mk.injEq] at h2
        obtain ⟨h2, rfl⟩ := h2
        cases wrap_none h2
        obtain ⟨jv, s, h3, h4, rfl⟩ := hM.val n g _ _ hS (hy.typed hg') (hy.fine ((hf hno).part (.ptr .self))) (by simpa using hpc) h1
        rw [W.raw_raw]
        exact .one (not_omitted hk fun h => by cases h) hn h4 (.methodPtrField hk h3) (.inl rfl)
  | map ht hx =>
    rcases (hv.of_is ht).map_cases with rfl | ⟨kvs, rfl, -, hkv⟩
    · exact empty_out hk (by simp) .map hn (.null _ (by simp)) .null (.inl rfl) hr rfl
    · obtain ⟨rfl, h⟩ := runBlk_true hr rfl
      obtain ⟨jv, s, ⟨docs, rfl, h1, h2⟩, h3, rfl⟩ := writeMap_sound hP hM hx (hg.is hP.toTypeSet ht).map hkv
        (fun kv hkv => (hf (not_omitted hk fun h => by cases h)).part (.map (Written.self.is ht) hkv)) (by simpa using hpc) h
      rw [W.raw_raw]
      exact .one (not_omitted hk fun h => by cases h) hn h3 (.mapField hk h1 h2) (.inl rfl)
  | slice ht hb hx =>
    rcases (hv.of_is ht).slice_cases hb with rfl | ⟨es, sp, rfl, he, -⟩
    · exact empty_out hk (by simp) .list hn (.null _ (by simp)) .null (.inl rfl) hr rfl
    · obtain ⟨rfl, h⟩ := runBlk_true hr rfl
      obtain ⟨jv, s, ⟨docs, rfl, h1, h2⟩, h3, rfl⟩ := writeList_sound hP hM hx (hg.is hP.toTypeSet ht).slice he
        (fun e he => (hf (not_omitted hk fun h => by cases h)).part (.slice (Written.self.is ht) he)) (by simpa using hpc) h
      rw [W.raw_raw]
      exact .one (not_omitted hk fun h => by cases h) hn h3 (.listField hk (.slice es sp) h1 h2) (.inl rfl)
  | array ht hb hx =>
    obtain ⟨es, rfl, -, he⟩ := (hv.of_is ht).array_cases hb
    obtain ⟨rfl, h⟩ := runBlk_none hr
    obtain ⟨jv, s, ⟨docs, rfl, h1, h2⟩, h3, rfl⟩ := writeList_sound hP hM hx (hg.is hP.toTypeSet ht).array he
      (fun e he => (hf (not_omitted hk fun h => by cases h)).part (.array (Written.self.is ht) he)) (by simpa using hpc) h
    rw [W.raw_raw]
    exact .one (not_omitted hk fun h => by cases h) hn h3 (.listField hk (.arr es) h1 h2) (.inl rfl)
  | bytes ht =>
    have hv' := hv.of_is ht
    cases hv' with
    | nilSlice => exact empty_out hk (by simp) .bytes hn (.null _ (by simp)) .null (.inl rfl) hr rfl
    | bytes b =>
      obtain ⟨rfl, h⟩ := runBlk_true hr rfl
      cases h
      rw [W.string, W.raw_raw]
      exact .one (not_omitted hk fun h => by cases h) hn (jsonStr_json _) (.bytesField hk) (.inl rfl)
    | slice hb => exact absurd rfl hb
    | alias he | struct he | foreign he => cases he
  | fixedBytes ht =>
    have hv' := hv.of_is ht
    cases hv' with
    | barr hb =>
      rename_i b
      cases hz : eqZero (.barr b) with
      | true =>
        have : ∀ x ∈ b, x = 0 := by simpa [eqZero] using hz
        exact empty_out hk (by simp) (.fixedBytes this) hn (.null _ (by simp)) .null (.inl rfl) hr (by simp [runCond, hz])
      | false =>
        have : ∃ x ∈ b, x ≠ 0 := by simpa [eqZero] using hz
        obtain ⟨rfl, h⟩ := runBlk_true hr (by simp [runCond, hz])
        cases h
        rw [W.string, W.raw_raw]
        refine .one (not_omitted hk fun h => ?_) hn (jsonStr_json _) (.fixedField hk this) (.inl rfl)
        cases h with
        | fixedBytes h => obtain ⟨x, hx, hx0⟩ := this; exact absurd (h x hx) hx0
    | array hb => exact absurd rfl hb
    | alias he | struct he | foreign he => cases he

end VJ
