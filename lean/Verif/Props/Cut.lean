import Verif.Props.Collections

/-!
# C16: what becomes of an array with a bad time or UUID in it

Fields written as slices and arrays of times, UUIDs or pointers to them lose errors.  Here is
exactly what they hold after a decode that reported success: the elements up to the first text
that is not a time (UUID) are right, the element for that text is whatever the storage held
before, and the rest of the JSON array is not looked at.
-/

namespace VJ
set_option linter.unusedSectionVars false

section
variable [Ext] {Γ : Env}

/-- a time or UUID, or a pointer to one -/
def TextElem (Γ : Env) (elt : TExpr) : Prop := Is Γ (pointee elt) .time ∨ Is Γ (pointee elt) .uuid

/-- What the loop over the members `l` of an array makes of the storage `cells`: the result begins
with `es`.  Either every member is an element of the type, or `es` ends at the first one that is
not; that one is a string, and its cell has not been touched. -/
inductive Cut (Γ : Env) (elt : TExpr) : List JV → List GoVal → List GoVal → Prop
  | all {cells : List GoVal} : Cut Γ elt [] cells []
  | next {a : JV} {l : List JV} {c w : GoVal} {cells es : List GoVal} (ha : ElementOf Γ elt a w) (h : Cut Γ elt l cells es) :
      Cut Γ elt (a :: l) (c :: cells) (w :: es)
  | cut {s : Str} {l : List JV} {c : GoVal} {cells : List GoVal} (ha : ∀ w, ¬ ElementOf Γ elt (.str s) w) :
      Cut Γ elt (.str s :: l) (c :: cells) [c]

theorem decodesNew_inv {L : Str} {t : TExpr} {v : JV} {w : GoVal} (h : DecodesNew Γ L t v w) (hc : ∀ n, ¬ Calls Γ t n) (old : GoVal) :
    Decodes Γ L t v old w := by
  cases h with
  | call ht => exact absurd ht (hc _)
  | other _ h => exact h old

theorem textElem_calls {t : TExpr} (h : Is Γ t .time ∨ Is Γ t .uuid) (n : Nat) : ¬ Calls Γ t n := by
  rcases h with h | h <;> exact is_calls h (by simp) (by simp) (by simp) (by simp) n

/-- the template for an element -/
inductive TextExtr (Γ : Env) (t : TExpr) : Extr → Prop
  | time {json : Str} (h : Is Γ t .time) : TextExtr Γ t (.time json none)
  | uuid {json : Str} (h : Is Γ t .uuid) : TextExtr Γ t (.uuid json)

theorem textExtr_declares {t : TExpr} {x : Extr} (h : TextExtr Γ t x) : x.declaresErr = true := by cases h <;> rfl

/-- one element -/
theorem textExtr_run {t : TExpr} {x : Extr} (h : TextExtr Γ t x) {M : Nat → Methods} {i : Nat} {a : JV} {c : GoVal} {r : TV}
    (hr : runExtr M x i a c = .ok r) : (∃ e, r = .ret e c) ∨ (∃ w, r = .done (.ok w) c ∧ ∀ old, Decodes Γ [] t a old w) ∨
      ∃ e s, r = .done (.error e) c ∧ a = .str s ∧ ∀ old w, ¬ Decodes Γ [] t a old w := by
  cases h with
  | time h =>
    cases a with
    | str s =>
      simp only [runExtr, JV.getStr, Out.ok.injEq] at hr
      subst hr
      cases hp : parseDateTime s with
      | some tm =>
        refine .inr (.inl ⟨_, rfl, fun old => .time h ?_⟩)
        obtain ⟨s', t', h1, h2, h3, -⟩ := timeExtr_sound (M := M) (L := []) (json := []) (lo := none) rfl (i := i) (v := .str s) (fld := c)
          (val := .time tm) (fld' := c) (by simp [runExtr, JV.getStr, hp])
        cases h1; cases h2; exact h3
      | none =>
        refine .inr (.inr ⟨_, _, rfl, rfl, fun old w hd => ?_⟩)
        obtain ⟨s', tm, h1, h2, h3⟩ := decodes_time_inv h hd
        cases h1
        have := timeExtr_complete (M := M) (L := []) (json := []) (lo := none) rfl h3 i c
        simp [runExtr, JV.getStr, hp] at this
    | _ => simp only [runExtr, JV.getStr, Out.ok.injEq] at hr; exact .inl ⟨_, hr.symm⟩
  | uuid h =>
    cases a with
    | str s =>
      simp only [runExtr, JV.getStr, Out.ok.injEq] at hr
      subst hr
      cases hp : parseUUID s with
      | some b => exact .inr (.inl ⟨_, rfl, fun old => .uuid h (parseUUID_iff.1 hp)⟩)
      | none =>
        refine .inr (.inr ⟨_, _, rfl, rfl, fun old w hd => ?_⟩)
        obtain ⟨s', b, h1, h2, h3⟩ := decodes_uuid_inv h hd
        cases h1
        rw [parseUUID_iff.2 h3] at hp; cases hp
    | _ => simp only [runExtr, JV.getStr, Out.ok.injEq] at hr; exact .inl ⟨_, hr.symm⟩

/-- how an element gets into its cell -/
def textStore : TExpr → ElemStore
  | .star t => .ref t
  | t => .val t

/-- how the value gets into its field -/
def textFieldStore : TExpr → Store
  | .star t => .ref t
  | t => .val t

/-- one round of the loop -/
theorem text_round {elt : TExpr} (he : TextElem Γ elt) {x : Extr} (h : TextExtr Γ (pointee elt) x) {k i : Nat} {a : JV} {c : GoVal} {r : Cell}
    (hr : elemRound (Γ.methods k) elt.nullLike true (textStore elt) (runExtr (Γ.methods k) x) i a c = .ok r) :
    (∃ e, r = .ret e c) ∨ (∃ w, r = .store w ∧ ElementOf Γ elt a w) ∨
      ∃ e s, r = .brk e c ∧ a = .str s ∧ ∀ w, ¬ ElementOf Γ elt a w := by
  have hnc := textElem_calls he
  unfold elemRound at hr
  split at hr
  · rename_i hn
    simp only [Bool.and_eq_true] at hn
    cases hr
    have : a = .null := by cases a <;> simp_all [JV.isNull]
    exact .inr (.inl ⟨_, rfl, .inl ⟨hn.1, this, rfl⟩⟩)
  · rename_i hn
    have hnn : ¬ (elt.nullLike = true ∧ a = .null) := by
      rintro ⟨h1, rfl⟩; exact hn (by simp [h1, JV.isNull])
    obtain ⟨tv, h1, h2⟩ := Out.bind_eq_ok.1 hr
    have conv : ∀ {val w}, convT (Γ.methods k) (pointee elt) val = .ok w → w = val := by
      intro val w hc
      rcases he with he | he <;> exact convT_is he (by simp) (by simp) (by simp) hc
    rcases textExtr_run h h1 with ⟨e, rfl⟩ | ⟨w, rfl, hd⟩ | ⟨e, s, rfl, rfl, hd⟩
    · cases h2; exact .inl ⟨e, rfl⟩
    · obtain ⟨w', h3, h4⟩ := Out.bind_eq_ok.1 h2
      cases h4
      refine .inr (.inl ⟨_, rfl, .inr ⟨hnn, ?_⟩⟩)
      have hn : DecodesNew Γ [] (pointee elt) a w := .other hnc hd
      by_cases hs : ∃ u, elt = .star u
      · obtain ⟨u, rfl⟩ := hs
        simp only [textStore, storeElem] at h3
        obtain ⟨w1, h5, h6⟩ := Out.bind_eq_ok.1 h3
        cases h6
        cases conv h5
        refine .other (fun n h => by cases h) fun old => .ptr hn
      · have hp : pointee elt = elt := by cases elt <;> first | rfl | exact absurd ⟨_, rfl⟩ hs
        have hst : textStore elt = .val elt := by cases elt <;> first | rfl | exact absurd ⟨_, rfl⟩ hs
        rw [hst] at h3
        simp only [storeElem] at h3
        rw [hp] at conv hn
        cases conv h3
        exact hn
    · simp only [if_true] at h2
      cases h2
      refine .inr (.inr ⟨_, _, rfl, rfl, fun w hw => ?_⟩)
      rcases hw with ⟨_, h, _⟩ | ⟨_, hw⟩
      · cases h
      · by_cases hs : ∃ u, elt = .star u
        · obtain ⟨u, rfl⟩ := hs
          have := decodesNew_inv hw (fun n h => by cases h) .nil
          obtain ⟨w1, rfl, hd1⟩ := decodes_ptr_inv this (is_resolve (.self _) (by simp) (by simp) (by simp))
          exact hd .nil _ (decodesNew_inv hd1 hnc .nil)
        · have hp : pointee elt = elt := by cases elt <;> first | rfl | exact absurd ⟨_, rfl⟩ hs
          rw [hp] at hd hnc
          exact hd .nil _ (decodesNew_inv hw hnc .nil)

/-- the loop -/
theorem text_loop {elt : TExpr} (he : TextElem Γ elt) {x : Extr} (h : TextExtr Γ (pointee elt) x) {k : Nat} :
    ∀ {l : List JV} {i n : Nat} {cells cells' : List GoVal} {stop : Stop},
      sliceLoop (elemRound (Γ.methods k) elt.nullLike true (textStore elt) (runExtr (Γ.methods k) x)) i l cells = .ok (stop, n, cells') →
      (∀ e, stop ≠ .ret e) → ∃ es, Cut Γ elt l cells es ∧ n = i + es.length ∧ cells' = es ++ cells.drop es.length
  | [], i, n, cells, cells', stop, hr, _ => by
    simp only [sliceLoop, Out.ok.injEq, Prod.mk.injEq] at hr
    obtain ⟨rfl, rfl, rfl⟩ := hr
    exact ⟨[], .all, by simp, by simp⟩
  | a :: l, i, n, [], cells', stop, hr, _ => by simp [sliceLoop] at hr
  | a :: l, i, n, c :: cells, cells', stop, hr, hs => by
    simp only [sliceLoop] at hr
    obtain ⟨r, h1, h2⟩ := Out.bind_eq_ok.1 hr
    rcases text_round he h h1 with ⟨e, rfl⟩ | ⟨w, rfl, hd⟩ | ⟨e, s, rfl, rfl, hd⟩
    · cases h2; exact absurd rfl (hs e)
    · obtain ⟨⟨st, n', cs'⟩, h3, h4⟩ := Out.bind_eq_ok.1 h2
      simp only [Out.pure_eq, Out.ok.injEq, Prod.mk.injEq] at h4
      obtain ⟨rfl, rfl, rfl⟩ := h4
      obtain ⟨es, h5, rfl, rfl⟩ := text_loop he h h3 hs
      exact ⟨w :: es, .next hd h5, by simp; omega, by simp⟩
    · simp only [Out.pure_eq, Out.ok.injEq, Prod.mk.injEq] at h2
      obtain ⟨rfl, rfl, rfl⟩ := h2
      exact ⟨[c], .cut hd, by simp, by simp⟩

/-- the template for the elements -/
theorem text_elem {elt : TExpr} (he : TextElem Γ elt) {k : Nat} {tags : Tags} (htg : tags.layout = []) {r : TVGen}
    (h : typedValue Γ k (Fld.prepare Γ true elt tags false false) .index = .ok r) : TextExtr Γ (pointee elt) r.x ∧ r.filled = false := by
  cases k with
  | zero => simp [typedValue] at h
  | succ k =>
    unfold typedValue at h
    simp only [resolve2_def] at h
    rw [prepare_resolve, prepare_expr] at h
    rcases he with he | he
    · rw [is_resolve he (by simp) (by simp) (by simp)] at h
      simp only at h
      obtain ⟨lo, h1, h2⟩ := Out.bind_eq_ok.1 h
      have : lo = none := by
        have : (Fld.prepare Γ true elt tags false false).tags.layout = [] := by cases elt <;> exact htg
        rw [this] at h1
        simp [decodeLayout] at h1
        exact h1.symm
      subst this
      cases h2
      exact ⟨.time he, rfl⟩
    · rw [is_resolve he (by simp) (by simp) (by simp)] at h
      cases h
      exact ⟨.uuid he, rfl⟩

/-- the statements for a field of such a type -/
theorem text_field {k : Nat} {fd : FieldDecl} {f : FieldFill} (hg : genFieldFill Γ k fd = .ok (some f)) {elt : TExpr} (he : TextElem Γ elt) :
    (Is Γ fd.typ (.slice elt) →
      ∃ (json : Str) (x : Extr), f.x = .slice json elt elt.nullLike x true (textStore elt) ∧ TextExtr Γ (pointee elt) x ∧
        f.store = .val fd.typ ∧ f.max = none) ∧
    (∀ len, Is Γ (pointee fd.typ) (.array len elt) →
      ∃ (json : Str) (x : Extr), f.x = .array json len elt x true (textStore elt) ∧ TextExtr Γ (pointee elt) x ∧ elt.nullLike = false ∧
        f.store = textFieldStore fd.typ ∧ f.max = none) := by
  obtain ⟨hj, _, r, htv, hx, hso, _, hnu, _, hmx⟩ := genFieldFill_some hg
  have hb : elt.isByte = false := by
    cases hb : elt.isByte with
    | false => rfl
    | true =>
      rw [isByte_iff.1 hb] at he
      rcases he with he | he <;> cases he
  have hstr : (pointee elt != .prim .string) = true := by
    unfold TextElem at he
    generalize pointee elt = u at he
    rcases he with he | he <;> cases he <;> simp
  have hhf : (Fld.prepare Γ true fd.typ fd.tags false false).hasField = true := rfl
  have hto : (if (Fld.prepare Γ true elt {} false false).isStar = true then ElemStore.ref (pointee elt) else .val (pointee elt))
      = textStore elt := by cases elt <;> rfl
  have hnl : (Fld.prepare Γ true elt {} false false).isNullable = elt.nullLike := by cases elt <;> rfl
  have hmax : ∀ T, resolve2 Γ (Fld.prepare Γ true fd.typ fd.tags false false).refx = T → (∀ p, T ≠ .prim p) → f.max = none := by
    intro T hT hp
    rw [hmx]
    split
    · rfl
    · generalize (Fld.prepare Γ true fd.typ fd.tags false false).refx = R at hT
      cases R with
      | prim p => exact absurd hT.symm (hp p)
      | _ => rfl
  constructor
  · intro ht
    have hp := is_pointee ht (by simp)
    have hns : (Fld.prepare Γ true fd.typ fd.tags false false).isStar = false := by
      rcases prepare_isStar Γ true fd.typ fd.tags false with ⟨_, h⟩ | ⟨h, _⟩
      · rw [h] at ht; cases ht
      · exact h
    have hres : resolve2 Γ (Fld.prepare Γ true fd.typ fd.tags false false).refx = .slice elt := by
      rw [prepare_resolve, prepare_expr, hp, is_resolve ht (by simp) (by simp) (by simp)]
    cases k with
    | zero => simp [typedValue] at htv
    | succ k =>
      unfold typedValue at htv
      simp only [resolve2_def] at htv
      rw [hres] at htv
      simp only [hb, hns, hhf, Bool.false_eq_true, if_false, Bool.and_false, Bool.not_true, Bool.false_and] at htv
      obtain ⟨r', h1, h2⟩ := Out.bind_eq_ok.1 htv
      obtain ⟨h3, h4⟩ := text_elem he rfl h1
      split at h2
      · cases h2
      split at h2
      · cases h2
      simp only [Out.pure_eq, Out.ok.injEq] at h2
      subst h2
      refine ⟨(Fld.prepare Γ true fd.typ fd.tags false false).tags.jsonName, r'.x, ?_, h3, ?_, hmax _ hres (by simp)⟩
      · rw [hx, h4, prepare_expr, hnl, hstr]
        simp only [Bool.false_eq_true, if_false, hto]
      · simp only [storeOf, hns] at hso
        simpa [prepare_expr, hp] using hso.symm
  · intro len ht
    have hres : resolve2 Γ (Fld.prepare Γ true fd.typ fd.tags false false).refx = .array len elt := by
      rw [prepare_resolve, prepare_expr, is_resolve ht (by simp) (by simp) (by simp)]
    cases k with
    | zero => simp [typedValue] at htv
    | succ k =>
      unfold typedValue at htv
      simp only [resolve2_def] at htv
      rw [hres] at htv
      simp only [hb, hnl, Bool.false_eq_true, if_false] at htv
      split at htv
      · cases htv
      · rename_i hnn
        simp only [Bool.not_eq_true] at hnn
        obtain ⟨r', h1, h2⟩ := Out.bind_eq_ok.1 htv
        obtain ⟨h3, h4⟩ := text_elem he rfl h1
        have hns : (Fld.prepare Γ true elt {} false false).isStar = false := by cases elt <;> first | rfl | simp [TExpr.nullLike] at hnn
        split at h2
        · cases h2
        split at h2
        · cases h2
        · cases h2
        · cases h2
        simp only [Out.pure_eq, Out.ok.injEq] at h2
        subst h2
        refine ⟨(Fld.prepare Γ true fd.typ fd.tags false false).tags.jsonName, r'.x, ?_, h3, hnn, ?_, hmax _ hres (by simp)⟩
        · rw [hns] at hto
          simp only [Bool.false_eq_true, if_false] at hto
          rw [hx, prepare_expr, hstr, hto]
        · simp only [storeOf] at hso
          simp only [Bool.false_eq_true, if_false, prepare_expr] at hso
          generalize fd.typ = t at hso ht ⊢
          cases t <;> simp [Fld.prepare, pointee, textFieldStore] at hso ⊢ <;> first | exact hso.symm | (cases ht)

/-! ## the other direction -/

theorem text_round_store {elt : TExpr} (he : TextElem Γ elt) {x : Extr} (h : TextExtr Γ (pointee elt) x) {i : Nat} {a : JV} {c w : GoVal}
    (hw : ElementOf Γ elt a w) (nl : Bool) (hnl : nl = elt.nullLike) :
    elemRound (Γ.methods 1) nl true (textStore elt) (runExtr (Γ.methods 1) x) i a c = .ok (.store w) := by
  subst hnl
  have hnc := textElem_calls he
  rcases hw with ⟨h1, rfl, rfl⟩ | ⟨h1, hw⟩
  · simp [elemRound, h1, JV.isNull]
  · have hc : (elt.nullLike && a.isNull) = false := by
      cases hb : elt.nullLike with
      | false => rfl
      | true =>
        cases a with
        | null => exact absurd ⟨hb, rfl⟩ h1
        | _ => rfl
    have conv : ∀ val, convT (Γ.methods 1) (pointee elt) val = .ok val := by
      intro val
      rcases he with he | he <;> exact convT_is_ok he (by simp) (by simp) (by simp) val
    have run : ∀ {w1}, DecodesNew Γ [] (pointee elt) a w1 → runExtr (Γ.methods 1) x i a c = .ok (.done (.ok w1) c) := by
      intro w1 hd
      have hd := decodesNew_inv hd hnc .nil
      cases h with
      | time h =>
        obtain ⟨s, tm, rfl, rfl, h3⟩ := decodes_time_inv h hd
        exact timeExtr_complete rfl h3 i c
      | uuid h =>
        obtain ⟨s, b, rfl, rfl, h3⟩ := decodes_uuid_inv h hd
        exact uuidExtr_complete h3 i c
    unfold elemRound
    simp only [hc, Bool.false_eq_true, if_false]
    by_cases hs : ∃ u, elt = .star u
    · obtain ⟨u, rfl⟩ := hs
      have := decodesNew_inv hw (fun n h => by cases h) .nil
      obtain ⟨w1, rfl, hd1⟩ := decodes_ptr_inv this (is_resolve (.self _) (by simp) (by simp) (by simp))
      rw [run hd1]
      simp only [Out.ok_bind, textStore, storeElem]
      rw [show u = pointee (.star u) from rfl, conv]
      rfl
    · have hp : pointee elt = elt := by cases elt <;> first | rfl | exact absurd ⟨_, rfl⟩ hs
      have hst : textStore elt = .val elt := by cases elt <;> first | rfl | exact absurd ⟨_, rfl⟩ hs
      rw [hp] at conv run
      rw [run hw, hst]
      simp only [Out.ok_bind, storeElem, conv]
      rfl

theorem text_round_cut {elt : TExpr} (he : TextElem Γ elt) {x : Extr} (h : TextExtr Γ (pointee elt) x) {i : Nat} {s : Str} {c : GoVal}
    (hw : ∀ w, ¬ ElementOf Γ elt (.str s) w) (nl : Bool) :
    ∃ e, elemRound (Γ.methods 1) nl true (textStore elt) (runExtr (Γ.methods 1) x) i (.str s) c = .ok (.brk e c) := by
  unfold elemRound
  simp only [JV.isNull, Bool.and_false, Bool.false_eq_true, if_false]
  have hex : ∃ r, runExtr (Γ.methods 1) x i (.str s) c = .ok r ∧ ∀ e c', r ≠ .ret e c' := by
    cases h <;> exact ⟨_, rfl, by simp⟩
  obtain ⟨r, hr, hne⟩ := hex
  rcases textExtr_run h hr with ⟨e, rfl⟩ | ⟨w, rfl, hd⟩ | ⟨e, s', rfl, _, _⟩
  · exact absurd rfl (hne _ _)
  · exfalso
    have hnc := textElem_calls he
    by_cases hs : ∃ u, elt = .star u
    · obtain ⟨u, rfl⟩ := hs
      exact hw (.ptr w) (.inr ⟨by simp, .other (fun n h => by cases h) fun old => .ptr (.other hnc hd)⟩)
    · have hp : pointee elt = elt := by cases elt <;> first | rfl | exact absurd ⟨_, rfl⟩ hs
      rw [hp] at hd hnc
      exact hw w (.inr ⟨by simp, .other hnc hd⟩)
  · rw [hr]
    exact ⟨_, rfl⟩

theorem text_loop_complete {elt : TExpr} (he : TextElem Γ elt) {x : Extr} (h : TextExtr Γ (pointee elt) x) (nl : Bool) (hnl : nl = elt.nullLike)
    {l : List JV} {cells es : List GoVal} (hc : Cut Γ elt l cells es) : ∀ i,
      ∃ stop, sliceLoop (elemRound (Γ.methods 1) nl true (textStore elt) (runExtr (Γ.methods 1) x)) i l cells
        = .ok (stop, i + es.length, es ++ cells.drop es.length) ∧ ∀ e, stop ≠ .ret e := by
  induction hc with
  | all => intro i; exact ⟨.fin, by simp [sliceLoop], by simp⟩
  | next ha _ ih =>
    intro i
    obtain ⟨stop, h1, h2⟩ := ih (i + 1)
    refine ⟨stop, ?_, h2⟩
    simp only [sliceLoop, text_round_store he h ha nl hnl, Out.ok_bind, h1, Out.pure_eq]
    simp; omega
  | cut ha =>
    intro i
    rename_i s l c cells
    obtain ⟨e, h1⟩ := text_round_cut he h ha nl (i := i) (c := c)
    refine ⟨.brk e, ?_, by simp⟩
    simp [sliceLoop, h1, Out.ok_bind, Out.pure_eq]

/-! ## fields -/

/-- A field whose errors can get lost: a slice or array of times, UUIDs or pointers to them. -/
def TextField (Γ : Env) (t : TExpr) : Prop :=
  ∃ elt, TextElem Γ elt ∧ (Is Γ t (.slice elt) ∨ ∃ len, Is Γ (pointee t) (.array len elt))

/-- What a successful decode makes of such a field when there is an array for it. -/
inductive CutResult (Γ : Env) (fd : FieldDecl) (doc : JV) : GoVal → GoVal → Prop
  | slice {elt : TExpr} {l : List JV} {old z : GoVal} {cells es : List GoVal} (ht : Is Γ fd.typ (.slice elt)) (he : TextElem Γ elt)
      (hn : fd.tags.jsonName ≠ str "-") (hw : Looks fd.tags.jsonName doc (.arr l)) (hz : ZeroOf Γ elt z)
      (hs : Storage old l.length z cells) (hc : Cut Γ elt l cells es) : CutResult Γ fd doc old (.slice es (cells.drop es.length))
  | array {elt : TExpr} {l : List JV} {old new z : GoVal} {es : List GoVal} (ht : Is Γ (pointee fd.typ) (.array l.length elt))
      (he : TextElem Γ elt) (hn : fd.tags.jsonName ≠ str "-") (hw : Looks fd.tags.jsonName doc (.arr l)) (hz : ZeroOf Γ elt z)
      (hc : Cut Γ elt l (List.replicate l.length z) es)
      (hh : Holds fd.typ new (.arr (es ++ List.replicate (l.length - es.length) z))) : CutResult Γ fd doc old new

/-- nothing in the document for the field: nothing is decoded, and no error can get lost -/
theorem missing_step {k : Nat} {fd : FieldDecl} {f : FieldFill} (hg : genFieldFill Γ k fd = .ok (some f)) {doc : JV} (hmiss : Missing fd doc)
    {g new : GoVal} {K : Nat} (h : runField (Γ.methods K) f doc g = .ok (none, new)) : FieldResult Γ fd doc g new := by
  obtain ⟨hj, hne, r, _, _, _, _, hn, _⟩ := genFieldFill_some hg
  rw [prepare_nullable] at hn
  obtain ⟨b, hb, hr⟩ := missing_run (M := Γ.methods K) hj hn hmiss g
  rw [hr] at h
  rcases ifDefault_cases hg with ⟨h1, h2, h3⟩ | ⟨h1, h2, h3⟩ | ⟨h1, d, oa, h3, h4, h5⟩
  · rw [h3] at h; simp at h; subst h; exact .kept hne hmiss h1 h2
  · rw [h3] at h; simp at h
  · rw [h3] at h
    simp only at h
    split at h
    · rename_i hc
      simp at hc h; subst h
      exact .nullKept hne (hb.1 hc.2) h1 (h5.1 hc.1)
    · rename_i hc
      simp at hc h; subst h
      refine .default hne hmiss h1 ?_ h4
      intro hl hp
      have a := hc (h5.2 hp)
      rw [hb.2 hl] at a; cases a

/-- the run of a field that has something to decode -/
theorem runField_looks {k : Nat} {fd : FieldDecl} {f : FieldFill} (hg : genFieldFill Γ k fd = .ok (some f)) {doc w : JV}
    (hl : Looks fd.tags.jsonName doc w) (hnn : fd.typ.nullLike = true → w ≠ .null) (g : GoVal) (K : Nat) :
    runField (Γ.methods K) f doc g = (do
      match ← runExtr (Γ.methods K) f.x 0 w g with
      | .ret e fld' => return (some e, fld')
      | .done (.error e) fld' =>
        if f.check then return (some (newParsingError f.json e), fld') else .unsupp
      | .done (.ok val) fld' =>
        match f.max.bind (exceeds · val) with
        | some c => return (some (newParsingError f.json (.plain c)), fld')
        | none =>
          let r ← storeField (Γ.methods K) f.store val fld'
          return (none, r)) := by
  obtain ⟨hj, _, r, _, _, _, _, hnu, _, _⟩ := genFieldFill_some hg
  rw [prepare_nullable] at hnu
  have hc : (f.nullable && w.isNull) = false := by
    rw [hnu]
    cases hb : fd.typ.nullLike with
    | false => rfl
    | true =>
      have := hnn hb
      cases w <;> simp_all [JV.isNull]
  unfold runField
  rw [hj, looks_iff.2 hl]
  simp only [hc, Bool.false_eq_true, if_false]
  rfl

theorem not_missing {fd : FieldDecl} {doc : JV} (hmiss : ¬ Missing fd doc) :
    ∃ w, Looks fd.tags.jsonName doc w ∧ (fd.typ.nullLike = true → w ≠ .null) := by
  unfold Missing at hmiss
  rw [not_or] at hmiss
  by_cases hj0 : fd.tags.jsonName = []
  · refine ⟨doc, Or.inl ⟨hj0, rfl⟩, ?_⟩
    rintro hnl rfl
    exact hmiss.2 ⟨hnl, Or.inl ⟨hj0, rfl⟩⟩
  · cases hget : doc.get fd.tags.jsonName with
    | none => exact absurd ⟨hj0, hget⟩ hmiss.1
    | some w =>
      refine ⟨w, Or.inr ⟨hj0, hget⟩, ?_⟩
      rintro hnl rfl
      exact hmiss.2 ⟨hnl, Or.inr ⟨hj0, hget⟩⟩

/-- the statements of such a field, when they succeed -/
theorem cut_step {k : Nat} {fd : FieldDecl} {f : FieldFill} (hg : genFieldFill Γ k fd = .ok (some f)) (hT : TextField Γ fd.typ) {doc : JV}
    {g new : GoVal} {K : Nat} (h : runField (Γ.methods K) f doc g = .ok (none, new)) :
    (Missing fd doc ∧ FieldResult Γ fd doc g new) ∨ CutResult Γ fd doc g new := by
  by_cases hmiss : Missing fd doc
  · exact .inl ⟨hmiss, missing_step hg hmiss h⟩
  · obtain ⟨w, hl, hnn⟩ := not_missing hmiss
    have hn := (genFieldFill_some hg).2.1
    right
    obtain ⟨elt, he, ht⟩ := hT
    obtain ⟨hsl, har⟩ := text_field hg he
    rw [runField_looks hg hl hnn] at h
    obtain ⟨tv, h6, h7⟩ := Out.bind_eq_ok.1 h
    rcases ht with ht | ⟨len, ht⟩
    · obtain ⟨json, x, hx, htx, hst, hmx⟩ := hsl ht
      rw [hx] at h6
      cases w with
      | arr l =>
        simp only [runExtr, JV.getArr] at h6
        obtain ⟨z, hz, h8⟩ := Out.bind_eq_ok.1 h6
        obtain ⟨⟨fresh, cells⟩, hc, h9⟩ := Out.bind_eq_ok.1 h8
        obtain ⟨⟨stop, m, cells'⟩, hs, h10⟩ := Out.bind_eq_ok.1 h9
        have main : ∀ (hne : ∀ e, stop ≠ .ret e) (fld' : GoVal), tv = .done (.ok (mkSlice m cells')) fld' → CutResult Γ fd doc g new := by
          rintro hne fld' rfl
          obtain ⟨es, h11, rfl, rfl⟩ := text_loop he htx hs hne
          simp only [hst, hmx, Option.bind_none] at h7
          obtain ⟨w', h12, h13⟩ := Out.bind_eq_ok.1 h7
          cases h13
          have := convT_is ht (by simp) (by simp) (by simp) h12
          have hm : mkSlice (0 + es.length) (es ++ cells.drop es.length) = .slice es (cells.drop es.length) := by simp [mkSlice]
          rw [this, hm]
          exact .slice ht he hn hl ⟨_, hz⟩ (sliceCells_storage hc) h11
        cases stop with
        | fin => simp only [Out.pure_eq, Out.ok.injEq] at h10; exact main (by simp) _ h10.symm
        | brk e =>
          simp only [textExtr_declares htx, if_true, Out.pure_eq, Out.ok.injEq] at h10
          exact main (by simp) _ h10.symm
        | ret e =>
          simp only [Out.pure_eq, Out.ok.injEq] at h10
          subst h10
          simp at h7
      | _ =>
        simp only [runExtr, JV.getArr, Out.ok.injEq] at h6
        subst h6
        simp at h7
    · obtain ⟨json, x, hx, htx, hen, hst, hmx⟩ := har len ht
      rw [hx] at h6
      cases w with
      | arr l =>
        simp only [runExtr, JV.getArr] at h6
        split at h6
        · cases h6; simp at h7
        · rename_i hlen
          simp only [ne_eq, Decidable.not_not] at hlen
          subst hlen
          obtain ⟨z, hz, h8⟩ := Out.bind_eq_ok.1 h6
          obtain ⟨⟨stop, m, cells'⟩, hs, h10⟩ := Out.bind_eq_ok.1 h8
          rw [← hen] at hs
          have main : ∀ (hne : ∀ e, stop ≠ .ret e) (fld' : GoVal), tv = .done (.ok (.arr cells')) fld' → CutResult Γ fd doc g new := by
            rintro hne fld' rfl
            obtain ⟨es, h11, rfl, rfl⟩ := text_loop he htx hs hne
            simp only [hst, hmx, Option.bind_none] at h7
            obtain ⟨w', h12, h13⟩ := Out.bind_eq_ok.1 h7
            cases h13
            refine .array ht he hn hl ⟨_, hz⟩ h11 ?_
            rw [← List.drop_replicate]
            generalize fd.typ = t at h12 ht ⊢
            cases t with
            | star u =>
              simp only [textFieldStore, storeField] at h12
              obtain ⟨w1, h14, h15⟩ := Out.bind_eq_ok.1 h12
              cases h15
              rw [convT_is ht (by simp) (by simp) (by simp) h14]
              rfl
            | _ =>
              simp only [textFieldStore, storeField] at h12
              exact convT_is ht (by simp) (by simp) (by simp) h12
          cases stop with
          | fin => simp only [Out.pure_eq, Out.ok.injEq] at h10; exact main (by simp) _ h10.symm
          | brk e =>
            simp only [textExtr_declares htx, if_true, Out.pure_eq, Out.ok.injEq] at h10
            exact main (by simp) _ h10.symm
          | ret e =>
            simp only [Out.pure_eq, Out.ok.injEq] at h10
            subst h10
            simp at h7
      | _ =>
        simp only [runExtr, JV.getArr, Out.ok.injEq] at h6
        subst h6
        simp at h7

/-- the statements of such a field do all that -/
theorem cut_step_complete {k : Nat} {fd : FieldDecl} {f : FieldFill} (hg : genFieldFill Γ k fd = .ok (some f)) {doc : JV} {g new : GoVal}
    (h : CutResult Γ fd doc g new) : ∃ K, runField (Γ.methods K) f doc g = .ok (none, new) := by
  cases h with
  | slice ht he hn hl hz hs hc =>
    rename_i elt l z cells es
    obtain ⟨json, x, hx, htx, hst, hmx⟩ := (text_field hg he).1 ht
    obtain ⟨Kz, hz⟩ := hz
    obtain ⟨fresh, h1, _⟩ := storage_sliceCells hs
    obtain ⟨stop, h2, h3⟩ := text_loop_complete he htx elt.nullLike rfl hc 0
    have hm : mkSlice (0 + es.length) (es ++ cells.drop es.length) = .slice es (cells.drop es.length) := by simp [mkSlice]
    have hrun : ∃ fld', runExtr (Γ.methods (max Kz 1)) f.x 0 (.arr l) g = .ok (.done (.ok (.slice es (cells.drop es.length))) fld') := by
      have hz' := (zeroT_mono (fun n => methods_mono Γ (Nat.le_max_left Kz 1) n) elt).eq_of_ok hz
      have h2' := (sliceLoop_mono (fun i a c => elemRound_mono (fun n => methods_mono Γ (Nat.le_max_right Kz 1) n)
        (fun i v fld => runExtr_mono (fun n => methods_mono Γ (Nat.le_max_right Kz 1) n) x i v fld) _ _ _ i a c) l 0 cells).eq_of_ok h2
      rw [hx]
      simp only [runExtr, JV.getArr, hz', Out.ok_bind, h1, h2']
      cases stop with
      | fin => exact ⟨_, by rw [hm]; rfl⟩
      | brk e => exact ⟨_, by simp only [textExtr_declares htx, if_true, hm]; rfl⟩
      | ret e => exact absurd rfl (h3 e)
    obtain ⟨fld', hrun⟩ := hrun
    refine ⟨max Kz 1, ?_⟩
    rw [runField_looks hg hl (by simp), hrun]
    have hcv := (convT_mono (fun n => methods_mono Γ (Nat.le_max_right Kz 1) n) _ _).eq_of_ok
      (convT_is_ok ht (by simp) (by simp) (by simp) (.slice es (cells.drop es.length)))
    simp only [Out.ok_bind, hmx, Option.bind_none, hst, storeField, hcv, Out.pure_eq]
  | array ht he hn hl hz hc hh =>
    rename_i elt l z es
    obtain ⟨json, x, hx, htx, hen, hst, hmx⟩ := (text_field hg he).2 _ ht
    obtain ⟨Kz, hz⟩ := hz
    obtain ⟨stop, h2, h3⟩ := text_loop_complete he htx false hen.symm hc 0
    have hrun : ∃ fld', runExtr (Γ.methods (max Kz 1)) f.x 0 (.arr l) g
        = .ok (.done (.ok (.arr (es ++ List.replicate (l.length - es.length) z))) fld') := by
      have hz' := (zeroT_mono (fun n => methods_mono Γ (Nat.le_max_left Kz 1) n) elt).eq_of_ok hz
      have h2' := (sliceLoop_mono (fun i a c => elemRound_mono (fun n => methods_mono Γ (Nat.le_max_right Kz 1) n)
        (fun i v fld => runExtr_mono (fun n => methods_mono Γ (Nat.le_max_right Kz 1) n) x i v fld) _ _ _ i a c) l 0
          (List.replicate l.length z)).eq_of_ok h2
      rw [hx]
      simp only [runExtr, JV.getArr, hz', Out.ok_bind, h2', ne_eq, not_true, if_false, List.drop_replicate]
      cases stop with
      | fin => exact ⟨_, rfl⟩
      | brk e => exact ⟨_, by simp only [textExtr_declares htx, if_true]; rfl⟩
      | ret e => exact absurd rfl (h3 e)
    obtain ⟨fld', hrun⟩ := hrun
    refine ⟨max Kz 1, ?_⟩
    rw [runField_looks hg hl (by simp), hrun]
    have hcv := (convT_mono (fun n => methods_mono Γ (Nat.le_max_right Kz 1) n) _ _).eq_of_ok
      (convT_is_ok ht (by simp) (by simp) (by simp) (.arr (es ++ List.replicate (l.length - es.length) z)))
    simp only [Out.ok_bind, hmx, Option.bind_none, hst]
    generalize fd.typ = t at hcv hh
    cases t with
    | star u =>
      simp only [pointee] at hcv
      simp only [Holds] at hh
      simp only [textFieldStore, storeField, hcv, Out.ok_bind, Out.pure_eq, hh]
    | _ =>
      simp only [pointee] at hcv
      simp only [Holds] at hh
      simp only [textFieldStore, storeField, hcv, Out.ok_bind, Out.pure_eq, hh]

/-! ## the theorems -/

/-- the same by position -/
theorem cut_elements {elt : TExpr} {l : List JV} {cells es : List GoVal} (h : Cut Γ elt l cells es) :
    (es.length = l.length ∧ ∀ (i : Nat) (a : JV) (w : GoVal), l[i]? = some a → es[i]? = some w → ElementOf Γ elt a w) ∨
    (∃ k s, es.length = k + 1 ∧ l[k]? = some (.str s) ∧ (∀ w, ¬ ElementOf Γ elt (.str s) w) ∧ es[k]? = cells[k]? ∧
      ∀ (i : Nat) (a : JV) (w : GoVal), i < k → l[i]? = some a → es[i]? = some w → ElementOf Γ elt a w) := by
  induction h with
  | all => exact .inl ⟨rfl, by simp⟩
  | next ha _ ih =>
    rcases ih with ⟨h1, h2⟩ | ⟨k, s, h1, h2, h3, h4, h5⟩
    · refine .inl ⟨by simp [h1], fun i a w ha' hw => ?_⟩
      cases i with
      | zero => simp at ha' hw; subst ha'; subst hw; exact ha
      | succ i => simp at ha' hw; exact h2 i a w ha' hw
    · refine .inr ⟨k + 1, s, by simp [h1], by simpa using h2, h3, by simpa using h4, fun i a w hi ha' hw => ?_⟩
      cases i with
      | zero => simp at ha' hw; subst ha'; subst hw; exact ha
      | succ i => simp at ha' hw; exact h5 i a w (by omega) ha' hw
  | cut ha => exact .inr ⟨0, _, rfl, rfl, ha, rfl, fun i _ _ hi => absurd hi (by omega)⟩

/-- **C10 and C16 for the element types that lose errors.**  A field is a slice of times, of UUIDs
or of pointers to them, and the document has an array for it.  When decoding reports success, the
slice holds one element per member up to the first member that is not an element of the type, or
for all members.  That first bad member is a string, its place in the slice holds what the storage
held there before, and the members after it are ignored. -/
theorem C16_cut {n : Nat} {doc : JV} {l : List JV} {fd : FieldDecl} {old new : GoVal} {elt : TExpr}
    (h : FieldAfter Γ n doc fd old new) (hn : fd.tags.jsonName ≠ str "-") (hn' : fd.tags.jsonName ≠ [])
    (ht : Is Γ fd.typ (.slice elt)) (he : TextElem Γ elt) (hw : doc.get fd.tags.jsonName = some (.arr l)) :
    ∃ z cells es, ZeroOf Γ elt z ∧ Storage old l.length z cells ∧ new = .slice es (cells.drop es.length) ∧
      ((es.length = l.length ∧ ∀ (i : Nat) (a : JV) (w : GoVal), l[i]? = some a → es[i]? = some w → ElementOf Γ elt a w) ∨
       (∃ k s, es.length = k + 1 ∧ l[k]? = some (.str s) ∧ (∀ w, ¬ ElementOf Γ elt (.str s) w) ∧ es[k]? = cells[k]? ∧
          ∀ (i : Nat) (a : JV) (w : GoVal), i < k → l[i]? = some a → es[i]? = some w → ElementOf Γ elt a w)) := by
  obtain ⟨strict, fields, gs, gs', i, hd, hi, ho, hnew, hf⟩ := h
  obtain ⟨gs1, gs1', k, f, g, g', e1, e2, h4, h5, hgen, hstep, _⟩ := fills_field hd hf hi
  cases e1; cases e2
  rw [ho] at h4; cases h4
  rw [hnew] at h5; cases h5
  cases f with
  | none => exact absurd (genFieldFill_none hgen) hn
  | some f =>
    have hl : Looks fd.tags.jsonName doc (.arr l) := Or.inr ⟨hn', hw⟩
    have key : ∀ {w : JV}, Looks fd.tags.jsonName doc w → w = .arr l := by
      intro w h
      have a := looks_iff.2 hl
      rw [looks_iff.2 h] at a
      exact Option.some.inj a
    have hcut : CutResult Γ fd doc old new := by
      rcases cut_step hgen ⟨elt, he, .inl ht⟩ hstep with h | h
      · exfalso
        rcases h.1 with ⟨_, h⟩ | ⟨_, h⟩
        · rw [hw] at h; cases h
        · cases key h
      · exact h
    cases hcut with
    | array ht' =>
      rw [is_pointee ht (by simp)] at ht'
      cases is_unique ht ht' (by simp) (by simp) (by simp) (by simp) (by simp) (by simp)
    | slice ht' he' _ hl' hz hs hc =>
      cases is_unique ht ht' (by simp) (by simp) (by simp) (by simp) (by simp) (by simp)
      cases key hl'
      exact ⟨_, _, _, hz, hs, rfl, cut_elements hc⟩

/-- **Decoding a struct, exactly, with fields that lose errors among the others.**  Decoding
succeeds, and leaves `gs'`, exactly when the document is an object the type accepts and each field
has the result that C03 and the other properties give, or, if it is a slice or array of times or
UUIDs, that array cut at the first text that is not one. -/
theorem C16_struct_exact {n : Nat} {strict : Bool} {fields : List FieldDecl} (hd : Γ.decl n = some (.struct strict fields))
    (hdec : HasDecoder Γ n) (hf : ∀ fd ∈ fields, KeepsErrors Γ (pointee fd.typ) ∨ TextField Γ fd.typ) {v : JV} {gs gs' : List GoVal} :
    Fills Γ n v (.struct gs) none (.struct gs') ↔
      Acceptable (jsonNames fields) strict v ∧ gs.length = fields.length ∧ gs'.length = fields.length ∧
      ∀ (i : Nat) (fd : FieldDecl) (old new : GoVal), fields[i]? = some fd → gs[i]? = some old → gs'[i]? = some new →
        FieldResult Γ fd v old new ∨ CutResult Γ fd v old new := by
  constructor
  · intro h
    obtain ⟨gs1, gs1', k, fs, e1, e2, hg, h | h⟩ := fills_struct hd h
    · obtain ⟨h1, h2, _⟩ := h
      exact absurd ((validate_iff _ _ _).1 h2.symm) h1
    · cases e1; cases e2
      obtain ⟨l1, l2, h3⟩ := runFields_ok h.2
      have hl := genFields_length hg
      refine ⟨h.1, by omega, by omega, ?_⟩
      intro i fd old new hi ho hn
      obtain ⟨f, hf', hgen⟩ := genFields_get hg hi
      obtain ⟨g, g', h4, h5, h6⟩ := h3 i f hf'
      rw [ho] at h4; cases h4
      rw [hn] at h5; cases h5
      rcases hf fd (List.mem_of_getElem? hi) with hke | hT
      · exact .inl ((field_step_iff hgen).1 ⟨k, h6⟩ hke)
      · cases f with
        | none =>
          simp only [stepField, Out.ok.injEq, Prod.mk.injEq, true_and] at h6
          subst h6
          exact .inl (.hidden (genFieldFill_none hgen))
        | some f => exact (cut_step hgen hT h6).imp And.right id
  · rintro ⟨hacc, l1, l2, h⟩
    obtain ⟨d, k, ir, hd', hir⟩ := hdec
    rw [hd] at hd'; cases hd'
    simp only [genFill] at hir
    obtain ⟨fs, hg, _⟩ := Out.bind_eq_ok.1 hir
    have hl := genFields_length hg
    obtain ⟨K, hK⟩ := runFields_of (Γ := Γ) (v := v) fs gs gs' (by omega) (by omega) (by
      intro i f g g' hf h1 h2
      have hi : i < fields.length := by
        rw [← hl]; exact (List.getElem?_eq_some_iff.1 hf).1
      obtain ⟨f', h7, h8⟩ := genFields_get hg (List.getElem?_eq_getElem hi)
      rw [hf] at h7; cases h7
      rcases h i _ g g' (List.getElem?_eq_getElem hi) h1 h2 with h | h
      · exact (field_step_iff h8).2 h
      · cases f with
        | none =>
          cases h with
          | slice _ _ hn => exact absurd (genFieldFill_none h8) hn
          | array _ _ hn => exact absurd (genFieldFill_none h8) hn
        | some f => exact cut_step_complete h8 h)
    refine ⟨max k K + 1, ?_⟩
    rw [methods_struct hd, genFields_lift (Nat.le_max_left k K) hg]
    have hK' := (runFields_mono (fun n => methods_mono Γ (Nat.le_max_right k K) n) v fs gs).eq_of_ok hK
    simp only [Out.ok_bind, runFill, (validate_iff _ _ _).2 hacc, hK', Out.pure_eq]

end
namespace Examples
open Sample
attribute [local instance] Sample.ext

set_option maxRecDepth 200000 in
/-- **A time from an earlier decode passes for a new one.**  {"times":["T2","bad"]} is decoded into a
variable that has [T1,T5] from an earlier decode.  No error is reported and the slice is [T2,T5]. -/
theorem C16_stale_time :
    Fills Γ 28 (.obj [(str "times", .arr [.str (str "T1"), .str (str "T5")])]) (.struct [.nil]) none
      (.struct [.slice [.time ⟨1, 0⟩, .time ⟨5, 0⟩] []]) ∧
    Fills Γ 28 (.obj [(str "times", .arr [.str (str "T2"), .str (str "bad")])]) (.struct [.slice [.time ⟨1, 0⟩, .time ⟨5, 0⟩] []]) none
      (.struct [.slice [.time ⟨2, 0⟩, .time ⟨5, 0⟩] []]) := ⟨⟨5, rfl⟩, ⟨5, rfl⟩⟩

/-- type Maps struct { L []map[string]int8 `json:"l"` } -/
def mapsEnv : Env where
  decl
    | 0 => some (.struct false [⟨.slice (.map (.prim .int8)), tag "l"⟩])
    | _ => none
  ext := fun _ => .unsupp

set_option maxRecDepth 200000 in
/-- **Maps as elements lose errors too.**  {"l":[{"a":1},{"a":"x"},{"b":2}]} is decoded without an error: the slice has a nil map
for the second element and ends there.  (An element that is not an object at all is reported.) -/
theorem C16_map_is_swallowed :
    Fills mapsEnv 0 (.obj [(str "l", .arr [.obj [(str "a", .num (str "1"))], .obj [(str "a", .str (str "x"))], .obj [(str "b", .num (str "2"))]])])
      (.struct [.nil]) none (.struct [.slice [.map [(str "a", .int 1)], .nil] [.nil]]) ∧
    ∃ e, Fills mapsEnv 0 (.obj [(str "l", .arr [.obj [(str "a", .num (str "1"))], .num (str "1")])]) (.struct [.nil]) (some e) (.struct [.nil]) :=
  ⟨⟨5, rfl⟩, _, ⟨5, rfl⟩⟩

set_option maxRecDepth 200000 in
/-- hypotheses of `C16_cut` -/
example : FieldAfter Γ 28 (.obj [(str "times", .arr [.str (str "T2"), .str (str "bad"), .null])]) ⟨.slice .time, tag "times"⟩
    (.slice [.time ⟨1, 0⟩, .time ⟨5, 0⟩] [.time ⟨7, 0⟩]) (.slice [.time ⟨2, 0⟩, .time ⟨5, 0⟩] [.time ⟨7, 0⟩]) ∧
    Is Γ (.slice .time) (.slice .time) ∧ TextElem Γ .time :=
  ⟨⟨false, _, [.slice [.time ⟨1, 0⟩, .time ⟨5, 0⟩] [.time ⟨7, 0⟩]], [.slice [.time ⟨2, 0⟩, .time ⟨5, 0⟩] [.time ⟨7, 0⟩]], 0, rfl, rfl, rfl, rfl,
    ⟨5, rfl⟩⟩, .self _, .inl (.self _)⟩

/-- type Log struct { Times []*time.Time `json:"times"`; Span [2]time.Time `json:"span"`; IDs []uuid.UUID `json:"ids"`; N int8 `json:"n"` } -/
def logEnv : Env where
  decl
    | 0 => some (.struct false [⟨.slice (.star .time), tag "times"⟩, ⟨.array 2 .time, tag "span"⟩, ⟨.slice .uuid, tag "ids"⟩, ⟨.prim .int8, tag "n"⟩])
    | _ => none
  ext := fun _ => .loop

/-- hypotheses of `C16_struct_exact` -/
theorem log_fields : HasDecoder logEnv 0 ∧
    ∀ fd ∈ [(⟨.slice (.star .time), tag "times"⟩ : FieldDecl), ⟨.array 2 .time, tag "span"⟩, ⟨.slice .uuid, tag "ids"⟩, ⟨.prim .int8, tag "n"⟩],
      KeepsErrors logEnv (pointee fd.typ) ∨ TextField logEnv fd.typ := by
  refine ⟨⟨_, 4, _, rfl, rfl⟩, ?_⟩
  intro fd h
  simp only [List.mem_cons, List.not_mem_nil, or_false] at h
  rcases h with rfl | rfl | rfl | rfl
  · exact .inr ⟨_, .inl (.self _), .inl (.self _)⟩
  · exact .inr ⟨_, .inl (.self _), .inr ⟨_, .self _⟩⟩
  · exact .inr ⟨_, .inr (.self _), .inl (.self _)⟩
  · exact .inl (keepsErrors_prim (.self _))

set_option maxRecDepth 200000 in
/-- {"times":["T2",null,"bad","T4"],"span":["T3","bad"],"ids":["bad"],"n":3}: three arrays are cut, no error is reported -/
theorem log_cut : Fills logEnv 0 (.obj [(str "times", .arr [.str (str "T2"), .null, .str (str "bad"), .str (str "T4")]),
      (str "span", .arr [.str (str "T3"), .str (str "bad")]), (str "ids", .arr [.str (str "bad")]), (str "n", .num (str "3"))])
    (.struct [.nil, .arr [.time ⟨8, 0⟩, .time ⟨9, 0⟩], .nil, .int 0]) none
    (.struct [.slice [.ptr (.time ⟨2, 0⟩), .nil, .nil] [.nil], .arr [.time ⟨3, 0⟩, .time ⟨0, 0⟩], .slice [.uuid (List.replicate 16 0)] [], .int 3]) :=
  ⟨5, rfl⟩

end Examples
end VJ
