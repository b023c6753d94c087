import Verif.Proof.EncodeBad

/-!
# Troubled structs are not encoded as JSON
-/

namespace VJ

variable [Ext] [Nans] {Γ : Env} {X : Nat → GoVal → Prop} {S : Nat → Prop} {F : Nat → Option GoVal → JV → Prop}

/-- empty objects of types that can be embedded are written without whitespace -/
def MCompact (Γ : Env) (F : Nat → Option GoVal → JV → Prop) (X : Nat → GoVal → Prop) (S : Nat → Prop) (M : Nat → Methods) : Prop :=
  ∀ n v w s, S n → HasType Γ X (.named n) v → Fine Γ F (.named n) v → w.err = none →
    (M n).marshalTo (some v) w = .ok (none, w.raw s) → Json (.obj []) s →
    (Γ.decl n = none ∨ ∃ strict fields, Γ.decl n = some (.struct strict fields)) → s = str "{}"

omit [Ext] in
omit [Nans] in
theorem W.raw_inj {w : W} {s t : Str} (h : w.raw s = w.raw t) : s = t := by
  simpa [W.raw] using h

omit [Ext] [Nans] in
theorem unpack_cases (s : Str) : (s.length < 2 ∧ unpackObject (.ok s) = (s, none)) ∨ (∃ e, (unpackObject (.ok s)).2 = some e) ∨
    ∃ b, s = '{' :: (b ++ ['}']) := by
  by_cases h1 : s.length < 2
  · exact .inl ⟨h1, by simp [unpackObject, h1]⟩
  · by_cases h2 : s.head? ≠ some '{' ∨ s.getLast? ≠ some '}'
    · right; left
      exact ⟨_, by unfold unpackObject; simp only; rw [if_neg h1, if_pos h2]⟩
    · right; right
      simp only [not_or, Decidable.not_not, ne_eq] at h2
      match s, h1, h2 with
      | c :: t, h1, h2 =>
        have hc : c = '{' := by simpa using h2.1
        subst hc
        have ht : t ≠ [] := by rintro rfl; simp at h1
        refine ⟨t.dropLast, ?_⟩
        have h3 := h2.2
        rw [List.getLast?_cons_of_ne_nil ht, List.getLast?_eq_some_getLast ht] at h3
        rw [← Option.some.inj h3, List.dropLast_concat_getLast]

omit [Ext] in
theorem json_short {jv : JV} {s : Str} (h : Json jv s) (hl : s.length < 2) : Killer s := by
  cases h with
  | num h =>
    obtain ⟨h1, h2⟩ := num_word h
    match s, h1, h2, hl with
    | [c], _, h2, _ => exact killer_word (h2 c (by simp)) (num_not_s h c (by simp))
  | null => exact absurd hl (by decide)
  | true => exact absurd hl (by decide)
  | false => exact absurd hl (by decide)
  | _ => simp at hl; omega

omit [Ext] [Nans] in
theorem json_braces {jv : JV} {b : Str} (h : Json jv ('{' :: (b ++ ['}']))) : ∃ kvs, jv = .obj kvs := by
  generalize hs : '{' :: (b ++ ['}']) = s at h
  cases h with
  | num h =>
    subst hs
    exact absurd rfl ((num_word h).2 '{' (by simp)).2.2.1
  | obj0 => exact ⟨_, rfl⟩
  | obj => exact ⟨_, rfl⟩
  | null => exact absurd (congrArg List.head? hs) (by simp [str])
  | true => exact absurd (congrArg List.head? hs) (by simp [str])
  | false => exact absurd (congrArg List.head? hs) (by simp [str])
  | _ => simp at hs

theorem splice_bad {M : Nat → Methods} (hN : FloatTexts) (hF : ∀ n r a b, F n r a → F n r b → a = b) (hM : MSound Γ F X S M) (hB : MBad Γ F X S M)
    (hC : MCompact Γ F X S M) {n : Nat} (hn : S n) (hd : Γ.decl n = none ∨ ∃ strict fields, Γ.decl n = some (.struct strict fields))
    {v : GoVal} (hv : HasType Γ X (.named n) v) (hc : Calm Γ (.named n) v)
    (ht : Trouble Γ F (.named n) v ∨ ∃ jv, Enc Γ F (.decl n) v jv ∧ ∀ kv kvs, jv ≠ .obj (kv :: kvs)) {w w' : W} (hw : w.err = none)
    (hw' : w'.err = none) (hr : runBody M [] (.inline n) v w = .ok (none, w')) : ∃ t, w' = w.raw t ∧ Killer t := by
  simp only [runBody] at hr
  obtain ⟨r, h1, h2⟩ := Out.bind_eq_ok.1 hr
  cases h2
  unfold marshalJSON at h1
  obtain ⟨⟨e, w1⟩, h3, h4⟩ := Out.bind_eq_ok.1 h1
  cases e with
  | some e =>
    cases h4
    simp [unpackObject, W.rawData, hw] at hw'
  | none =>
    cases h4
    have fin : ∀ {b : Str}, Killer b → w.rawData b none = w.raw b := by
      intro b hb
      simp only [W.rawData, hw, if_neg hb.ne_nil]
    by_cases hT : Trouble Γ F (.named n) v
    · obtain ⟨s, rfl, hb⟩ := hB n v W.empty w1 hn hv hc hT rfl h3
      have hbd : (W.empty.raw s).build = .ok s := by simp [W.build, W.empty, W.raw]
      rw [hbd] at hw' ⊢
      rcases unpack_cases s with ⟨hl, -⟩ | ⟨e, he⟩ | ⟨b, rfl⟩
      · exact absurd hb.long (by omega)
      · simp [W.rawData, hw, he] at hw'
      · have hk := hb.body b rfl
        exact ⟨b, by rw [unpack_obj]; exact fin hk, hk⟩
    · obtain ⟨jv, he, hno⟩ := ht.resolve_left hT
      have hfine : Fine Γ F (.named n) v := (fine_iff hN).2 hT
      obtain ⟨jv', s, h5, h6, rfl⟩ := hM.val n v W.empty w1 hn hv hfine rfl h3
      cases enc_unique hF he h5
      have hbd : (W.empty.raw s).build = .ok s := by simp [W.build, W.empty, W.raw]
      rw [hbd] at hw' ⊢
      rcases unpack_cases s with ⟨hl, hu⟩ | ⟨e, he⟩ | ⟨b, rfl⟩
      · have hk := json_short h6 hl
        exact ⟨s, by rw [hu]; exact fin hk, hk⟩
      · simp [W.rawData, hw, he] at hw'
      · obtain ⟨kvs, rfl⟩ := json_braces h6
        cases kvs with
        | cons kv kvs => exact absurd rfl (hno kv kvs)
        | nil =>
          have := hC n v W.empty _ hn hv hfine rfl h3 h6 hd
          have hb : b = [] := by
            have h7 : '{' :: (b ++ ['}']) = '{' :: ([] ++ ['}']) := this
            simpa using h7
          subst hb
          refine ⟨str "null", ?_, killer_word (c := 'n') (by unfold Word; decide) (by decide)⟩
          rw [unpack_obj]
          simp [W.rawData, hw]

/-! ### fields -/

/-- there is no way to write the field properly -/
def Doomed (Γ : Env) (F : Nat → Option GoVal → JV → Prop) (fd : FieldDecl) (v : GoVal) : Prop :=
  ¬ Omitted Γ fd v ∧ (Trouble Γ F fd.typ v ∨ EmptySplice Γ F fd v)

omit [Nans] in
theorem EmptySplice.written {fd : FieldDecl} {v : GoVal} (h : EmptySplice Γ F fd v) : ¬ Omitted Γ fd v := by
  obtain ⟨_, n, _, hm, hz, _⟩ := h
  refine not_omitted (.method hm) fun h => ?_
  cases h with
  | method h => cases isZero_unique h hz

omit [Ext] in
theorem killer_field {name s : Str} (hn : PlainText name) (hs : Botched s) : Killer (keyText name ++ s) := by
  have := killer_key (t := []) (strText_plain hn) hs.rejected
  simpa [keyText] using this

omit [Ext] in
omit [Nans] in
theorem ByMethod.decl {t : TExpr} {n : Nat} (hP : TypeSet Γ S) (hg : EGood Γ S t) (h : ByMethod Γ t n) :
    Γ.decl n = none ∨ ∃ strict fields, Γ.decl n = some (.struct strict fields) := by
  cases h with
  | struct hd => exact .inr ⟨_, _, hd⟩
  | sel hd => exact .inl hd
  | named hd => exact .inl (hP.alias (hg.name (.named _)) hd).sel

theorem blk_bad {M : Nat → Methods} (hN : FloatTexts) (hP : EncPackage Γ F S) (hF : ∀ n r a b, F n r a → F n r b → a = b) (hM : MSound Γ F X S M)
    (hB : MBad Γ F X S M) (hC : MCompact Γ F X S M)
    (hZ : ∀ n v b, (M n).isZero v = .ok b → IsZeroIs Γ n v b) {fd : FieldDecl} {k : EKind} {b : Blk} (hp : BlkPlan Γ fd k b)
    (hg : EGood Γ S fd.typ) (hn : PlainText fd.tags.jsonName)
    {v : GoVal} (hv : HasType Γ X fd.typ v) (hc : Calm Γ fd.typ v) (hd : Doomed Γ F fd v)
    {wc wc' : Bool} {w w' : W} (hw : w.err = none) (hw' : w'.err = none) (hr : runBlk M b v wc w = .ok (none, wc', w')) :
    wc' = true ∧ ∃ t, w' = (putComma wc w).raw t ∧ Killer t := by
  have hk := hp.kind
  have hpc : (putComma wc w).err = none := by rw [putComma_err]; exact hw
  obtain ⟨hno, hd⟩ := hd
  have hT : (∀ n, k ≠ .method n) → Trouble Γ F fd.typ v := by
    intro h
    rcases hd with hd | ⟨_, n, _, hm, _⟩
    · exact hd
    · exact absurd (fieldKind_unique hk (.method hm)) (h n)
  have one : ∀ {w1 : W}, (∃ s, w1 = ((putComma wc w).raw (keyText fd.tags.jsonName)).raw s ∧ Botched s) →
      ∃ t, w1 = (putComma wc w).raw t ∧ Killer t := by
    rintro w1 ⟨s, rfl, hs⟩
    exact ⟨_, by rw [W.raw_raw], killer_field hn hs⟩
  cases hp with
  | scalar ht h =>
    obtain ⟨f, rfl, hf⟩ := trouble_isPrim (hT (by simp)) ht
    obtain ⟨body, zero, hb⟩ := typeMarshal_blk h
    have heq := hb.eq; simp only [true_or, if_true] at heq; subst heq
    have hz : eqZero (.float f) = false := by
      cases hz : eqZero (.float f) with
      | false => rfl
      | true => exact absurd hf (zero_finite hz)
    obtain ⟨rfl, h1⟩ := runBlk_true hr (by simp [runCond, hz])
    rw [hb.run M _ _ (.float f) _ (hasType_isPrim ht hv) rfl (fun _ => hz)] at h1; cases h1
    exact ⟨rfl, one ⟨_, by rw [W.raw_raw]; rfl, hN.botched hf (hc.float (hT (by simp)))⟩⟩
  | ptr _ ht hy h =>
    obtain ⟨g, rfl, ht1⟩ := ((hT (by simp)).is ht).star
    obtain ⟨f, rfl, hf⟩ := trouble_isPrim ht1 hy
    obtain ⟨body, zero, hb⟩ := typeMarshal_blk h
    have heq := hb.eq; simp only [or_true, if_true, Nat.one_ne_zero, if_false] at heq; subst heq
    rcases (hv.of_is ht).star_cases with h' | ⟨g', h', hg'⟩
    · cases h'
    · cases h'
      obtain ⟨rfl, h1⟩ := runBlk_true hr rfl
      rw [hb.run M _ _ (.float f) _ (hasType_isPrim hy hg') rfl (by simp)] at h1; cases h1
      exact ⟨rfl, one ⟨_, by rw [W.raw_raw]; rfl, hN.botched hf ((hc.is ht).star.float ht1)⟩⟩
  | ptr2 ht hy h =>
    have h0 := hT (by simp)
    rw [ht] at h0
    obtain ⟨g, rfl, h1⟩ := h0.star
    obtain ⟨g, rfl, ht2⟩ := (h1.is hy).star
    obtain ⟨f, rfl, hf⟩ := trouble_prim ht2
    obtain ⟨body, zero, hb⟩ := typeMarshal_blk h
    have heq := hb.eq; simp only [show ¬ ((2 : Nat) = 0 ∨ (2 : Nat) = 1) by omega, show ¬ (2 : Nat) = 0 by omega, if_false] at heq; subst heq
    rw [ht] at hv hc
    rcases hv.star_cases with h' | ⟨g', h', hg'⟩
    · cases h'
    · cases h'
      rcases (hg'.of_is hy).star_cases with h' | ⟨g', h', hg''⟩
      · cases h'
      · cases h'
        obtain ⟨rfl, h1⟩ := runBlk_true hr rfl
        rw [hb.run M _ _ (.float f) _ (hasType_isPrim (.self _) hg'') rfl (by simp)] at h1; cases h1
        exact ⟨rfl, one ⟨_, by rw [W.raw_raw]; rfl, hN.botched hf ((hc.star.is hy).star.float ht2)⟩⟩
  | time ht => exact (no_trouble_time (ht ▸ hT (by simp))).elim
  | timePtr ht =>
    obtain ⟨g, rfl, h1⟩ := ((hT (by simp)).is ht).star
    exact (no_trouble_time h1).elim
  | uuid ht => exact (no_trouble_uuid (ht ▸ hT (by simp))).elim
  | uuidPtr ht =>
    have h0 := hT (by simp)
    rw [ht] at h0
    obtain ⟨g, rfl, h1⟩ := h0.star
    exact (no_trouble_uuid h1).elim
  | method ht h =>
    rename_i n
    have hS := ht.inS hP.toTypeSet hg
    unfold marshalTransit at h
    by_cases hj : fd.tags.jsonName = []
    · rw [if_pos hj] at h; cases h
      have hrc : ∃ c, runCond M (.method n) v = .ok c := by
        simp only [runBlk] at hr
        obtain ⟨c, h1, -⟩ := Out.bind_eq_ok.1 hr
        exact ⟨c, h1⟩
      obtain ⟨c, hrc⟩ := hrc
      have hc' := hrc
      simp only [runCond] at hc'
      obtain ⟨z, h1, h2⟩ := Out.bind_eq_ok.1 hc'
      cases h2
      have hz := hZ n v z h1
      cases z with
      | true => exact absurd ⟨_, hk, .method hz, .inr ⟨⟨n, rfl⟩, hj⟩⟩ hno
      | false =>
        obtain ⟨rfl, h3⟩ := runBlk_true hr hrc
        refine ⟨rfl, splice_bad hN hF hM hB hC hS (ht.decl hP.toTypeSet hg) (ht.typed hv) (hc.byMethod ht) ?_ hpc hw' h3⟩
        rcases hd with hd | ⟨_, m, jv, hm, _, he, hjv⟩
        · exact .inl (hd.byMethod ht)
        · cases fieldKind_unique hk (.method hm)
          exact .inr ⟨jv, he, hjv⟩
    · rw [if_neg hj] at h
      simp only [Bool.false_eq_true, if_false] at h
      cases h
      have hd : Trouble Γ F fd.typ v := by
        rcases hd with hd | ⟨h', _⟩
        · exact hd
        · exact absurd h' hj
      have body : runBody M fd.tags.jsonName (.struct n false) v (putComma wc w) = .ok (none, w') →
          ∃ t, w' = (putComma wc w).raw t ∧ Killer t := by
        intro h
        simp only [runBody, Bool.false_eq_true, if_false, deref, Out.ok_bind] at h
        obtain ⟨⟨e, w2⟩, h1, h2⟩ := Out.bind_eq_ok.1 h
        simp only [Out.pure_eq, Out.ok.injEq, Prod.mk.injEq] at h2
        obtain ⟨h2, rfl⟩ := h2
        cases wrap_none h2
        exact one (hB n v _ _ hS (ht.typed hv) (hc.byMethod ht) (hd.byMethod ht) (by simpa using hpc) h1)
      cases ho : fd.tags.omitempty with
      | false =>
        rw [ho] at hr
        obtain ⟨rfl, h3⟩ := runBlk_none hr
        exact ⟨rfl, body h3⟩
      | true =>
        rw [ho] at hr
        simp only [if_true] at hr
        have hrc : ∃ c, runCond M (.method n) v = .ok c := by
          simp only [runBlk] at hr
          obtain ⟨c, h1, -⟩ := Out.bind_eq_ok.1 hr
          exact ⟨c, h1⟩
        obtain ⟨c, hrc⟩ := hrc
        have hc' := hrc
        simp only [runCond] at hc'
        obtain ⟨z, h1, h2⟩ := Out.bind_eq_ok.1 hc'
        cases h2
        have hz := hZ n v z h1
        cases z with
        | true => exact absurd ⟨_, hk, .method hz, .inl ho⟩ hno
        | false =>
          obtain ⟨rfl, h3⟩ := runBlk_true hr hrc
          exact ⟨rfl, body h3⟩
  | methodPtr ht hy h =>
    rename_i t n
    have hT := hT (by simp)
    rw [ht] at hv hg hT hc
    have hS := hy.inS hP.toTypeSet hg.star
    unfold marshalTransit at h
    by_cases hj : fd.tags.jsonName = []
    · rw [if_pos hj] at h; cases h
    · rw [if_neg hj] at h
      simp only [if_true] at h
      cases h
      obtain ⟨g, rfl, hT'⟩ := hT.star
      rcases hv.star_cases with h' | ⟨g', h', hg'⟩
      · cases h'
      · cases h'
        obtain ⟨rfl, h⟩ := runBlk_true hr rfl
        simp only [runBody, if_true, deref, Out.ok_bind] at h
        obtain ⟨⟨e, w2⟩, h1, h2⟩ := Out.bind_eq_ok.1 h
        simp only [Out.pure_eq, Out.ok.injEq, Prod.mk.injEq] at h2
        obtain ⟨h2, rfl⟩ := h2
        cases wrap_none h2
        exact ⟨rfl, one (hB n g _ _ hS (hy.typed hg') (hc.star.byMethod hy) (hT'.byMethod hy) (by simpa using hpc) h1)⟩
  | map ht hx =>
    obtain ⟨kvs, rfl, hT'⟩ := ((hT (by simp)).is ht).map
    rcases (hv.of_is ht).map_cases with h' | ⟨kvs', h', -, hkv⟩
    · cases h'
    · cases h'
      obtain ⟨rfl, h⟩ := runBlk_true hr rfl
      exact ⟨rfl, one (writeMap_bad hN hP hM hB hx (hg.is hP.toTypeSet ht).map hkv (fun _ hm => (hc.is ht).part (.map .self hm)) hT' (by simpa using hpc) h)⟩
  | slice ht hb hx =>
    obtain ⟨es, sp, rfl, hT'⟩ := ((hT (by simp)).is ht).slice
    rcases (hv.of_is ht).slice_cases hb with h' | ⟨es', sp', h', he, -⟩
    · cases h'
    · cases h'
      obtain ⟨rfl, h⟩ := runBlk_true hr rfl
      exact ⟨rfl, one (writeList_bad hN hP hM hB hx (hg.is hP.toTypeSet ht).slice he (fun _ hm => (hc.is ht).part (.slice .self hm)) hT' (by simpa using hpc) h)⟩
  | array ht hb hx =>
    obtain ⟨es, rfl, hT'⟩ := ((hT (by simp)).is ht).array
    obtain ⟨es', h', -, he⟩ := (hv.of_is ht).array_cases hb
    cases h'
    obtain ⟨rfl, h⟩ := runBlk_none hr
    exact ⟨rfl, one (writeList_bad hN hP hM hB hx (hg.is hP.toTypeSet ht).array he (fun _ hm => (hc.is ht).part (.array .self hm)) hT' (by simpa using hpc) h)⟩
  | bytes ht => exact (no_trouble_bytes (.inl rfl) (hv.of_is ht) ((hT (by simp)).is ht)).elim
  | fixedBytes ht => exact (no_trouble_bytes (.inr ⟨_, rfl⟩) (hv.of_is ht) ((hT (by simp)).is ht)).elim

omit [Nans] in
/-- a nil pointer is written as `null` and forgotten -/
theorem blk_forgot {M : Nat → Methods} {fd : FieldDecl} {k : EKind} {b : Blk} (hp : BlkPlan Γ fd k b) {v : GoVal} (hv : Forgotten Γ fd v)
    {wc wc' : Bool} {w w' : W} (hr : runBlk M b v wc w = .ok (none, wc', w')) :
    wc' = wc ∧ w' = (putComma wc w).raw (keyText fd.tags.jsonName ++ str "null") := by
  obtain ⟨ho, k', hk', he, hkk⟩ := hv
  cases fieldKind_unique hp.kind hk'
  have key : ∀ {c : Cond} {body : Body},
      runBlk M ⟨fd.tags.jsonName, some c, body, if fd.tags.omitempty then none else some (str "null", false)⟩ v wc w = .ok (none, wc', w') →
      runCond M c v = .ok false → wc' = wc ∧ w' = (putComma wc w).raw (keyText fd.tags.jsonName ++ str "null") := by
    intro c body hr hc
    rcases runBlk_false hr hc with ⟨h', _⟩ | ⟨_, rfl, rfl⟩
    · rw [ho] at h'; cases h'
    · exact ⟨by simp, rfl⟩
  cases hp with
  | ptr _ ht hy h =>
    obtain ⟨body, zero, hb⟩ := typeMarshal_blk h
    have heq := hb.eq; simp only [or_true, if_true, Nat.one_ne_zero, if_false] at heq; subst heq
    cases he
    exact key hr rfl
  | ptr2 ht hy h =>
    obtain ⟨body, zero, hb⟩ := typeMarshal_blk h
    have heq := hb.eq; simp only [show ¬ ((2 : Nat) = 0 ∨ (2 : Nat) = 1) by omega, show ¬ (2 : Nat) = 0 by omega, if_false] at heq; subst heq
    cases he <;> exact key hr rfl
  | methodPtr ht hy h =>
    unfold marshalTransit at h
    by_cases hj : fd.tags.jsonName = []
    · rw [if_pos hj] at h; cases h
    · rw [if_neg hj] at h
      simp only [if_true] at h
      cases h
      cases he
      exact key hr rfl
  | _ => simp at hkk

end VJ
