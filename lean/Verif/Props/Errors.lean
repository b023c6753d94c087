import Verif.Proof.Errors
import Verif.Proof.Hints
import Verif.Props.Text

/-!
# C17, C43: what errors say
-/

namespace VJ
set_option linter.unusedSectionVars false

section
variable [Ext]

/-! ## C17 -/

/-- **C17, partial** (types in a `TracedSet`: no embedded structs, byte fields or lists of strings,
times and the like; for those see the witnesses below).  Whenever a decode fails, with whatever
document and receiver, the path of the error leads to a part of the document, and that part
cannot be decoded for the cause the error gives. -/
theorem C17_error_paths_partial {Γ : Env} {S : Nat → Prop} (hT : TracedSet Γ S) {n : Nat} (hn : S n) {doc : JV}
    {old new : GoVal} {e : Err} (h : Fills Γ n doc old (some e) new) : Blames Γ [] (.named n) doc e := by
  obtain ⟨k, h⟩ := h
  exact calls_told hT k n doc old e new hn h [] _ (.named n)

/-- **C17 on text, partial**: the same for `UnmarshalJSON` on the text of a document. -/
theorem C17_error_paths_text_partial {Γ : Env} {S : Nat → Prop} (hT : TracedSet Γ S) {n : Nat} (hn : S n) {data : Str} {doc : JV}
    (hd : Document doc data) (hdep : DepthLe 300 doc) {old new : GoVal} {e : Err} (h : Unmarshals Γ n data old (some e) new) :
    Blames Γ [] (.named n) doc e :=
  C17_error_paths_partial hT hn ((unmarshals_document hd hdep).1 h)

/-- **C17, what holds for all types, partial** (all but anonymous struct types).  Whenever a decode fails, with
whatever document and receiver, some part of the document cannot be decoded for the cause the error gives, and the
names in the path of the error are on the way to this part and in their order.  Missing: for types that are not in a
`TracedSet` names may be left out, and empty names and the word (root) put in. -/
theorem C17_cause_partial {Γ : Env} {S : Nat → Prop} (hS : NamedSet Γ S) {n : Nat} (hn : S n) {doc : JV}
    {old new : GoVal} {e : Err} (h : Fills Γ n doc old (some e) new) : Hints Γ [] (.named n) doc e := by
  obtain ⟨k, h⟩ := h
  exact calls_hint hS k n doc old e new hn h [] _ (.named n)

/-- the same for `UnmarshalJSON` on the text of a document -/
theorem C17_cause_text_partial {Γ : Env} {S : Nat → Prop} (hS : NamedSet Γ S) {n : Nat} (hn : S n) {data : Str} {doc : JV}
    (hd : Document doc data) (hdep : DepthLe 300 doc) {old new : GoVal} {e : Err} (h : Unmarshals Γ n data old (some e) new) :
    Hints Γ [] (.named n) doc e :=
  C17_cause_partial hS hn ((unmarshals_document hd hdep).1 h)

/-! ## C43: errors of nested types -/

theorem inside_eq (p : Str) (e : Err) : newParsingError p e = e.inside p := by
  obtain ⟨path, c⟩ := e
  cases path <;> rfl

theorem plan_nested {Γ : Env} {f : Fld} {path : PathE} {x : Extr} {b : Bool} {m : Nat} (h : Plan Γ f path x b) (hc : Calls Γ f.expr m) :
    (x = .nestedFresh f.expr ∧ ¬ (f.hasField = true ∧ f.isStar = false)) ∨ (x = .nestedInPlace f.expr ∧ f.hasField = true ∧ f.isStar = false) := by
  cases h with
  | prim h _ => exact absurd hc (primName_noCalls h m)
  | fresh _ h => exact Or.inl ⟨rfl, h⟩
  | inPlace _ h => exact Or.inr ⟨rfl, h⟩
  | anon h => rw [h] at hc; cases hc
  | time h => exact (calls_no hc h (by simp) (by simp) (by simp) (by simp)).elim
  | uuid h => exact (calls_no hc h (by simp) (by simp) (by simp) (by simp)).elim
  | bytes h => exact (calls_no hc h (by simp) (by simp) (by simp) (by simp)).elim
  | fixedBytes h => exact (calls_no hc h (by simp) (by simp) (by simp) (by simp)).elim
  | slice h => exact (calls_no hc h (by simp) (by simp) (by simp) (by simp)).elim
  | array h => exact (calls_no hc h (by simp) (by simp) (by simp) (by simp)).elim
  | map h => exact (calls_no hc h (by simp) (by simp) (by simp) (by simp)).elim

theorem fillT_fills {Γ : Env} {t : TExpr} {m k : Nat} (hc : Calls Γ t m) {v : JV} {s s' : GoVal} {e : Option Err}
    (h : fillT (Γ.methods k) t v s = .ok (e, s')) : Fills Γ m v s e s' := by
  have hn := pointee_nameOf hc
  cases hn with
  | named => exact ⟨k, h⟩
  | sel => exact ⟨k, h⟩

theorem zeroT_is {Γ : Env} {t : TExpr} {m k : Nat} (hc : Calls Γ t m) {z : GoVal} (h : zeroT (Γ.methods k) t = .ok z) : ZeroIs Γ m z := by
  have hn := pointee_nameOf hc
  cases hn with
  | named => exact ⟨k, h⟩
  | sel => exact ⟨k, h⟩

/-- what the code for one field of a struct does with a member that is there -/
theorem single_run {Γ : Env} {n : Nat} {fd : FieldDecl} (hm : SingleField Γ n fd) {doc w : JV}
    (hv : Acceptable (jsonNames [fd]) false doc) (hn : fd.tags.jsonName ≠ str "-") (hn' : fd.tags.jsonName ≠ [])
    (hw : doc.get fd.tags.jsonName = some w) (hnn : fd.typ.nullLike = true → w ≠ .null) {old s' : GoVal} {e : Option Err}
    (h : Fills Γ n doc (.struct [old]) e s') :
    ∃ k f new tv, s' = .struct [new] ∧ genFieldFill Γ k fd = .ok (some f) ∧ runExtr (Γ.methods k) f.x 0 w old = .ok tv ∧
      (∀ e0 x, tv = .ret e0 x → e = some e0 ∧ new = x) ∧
      (∀ e0 x, tv = .done (.error e0) x → e = some (newParsingError fd.tags.jsonName e0) ∧ new = x) ∧
      (∀ val x, tv = .done (.ok val) x → (∃ c, f.max.bind (exceeds · val) = some c) ∨
        (e = none ∧ storeField (Γ.methods k) f.store val x = .ok new)) := by
  obtain ⟨gs, gs', k, fs, hs, rfl, hg, h | h⟩ := fills_struct hm h
  · exact absurd hv h.1
  cases hs
  obtain ⟨f, hf, hgen⟩ := genFields_get hg (i := 0) (fd := fd) rfl
  have hl := genFields_length hg
  match fs, hl with
  | [f0], _ =>
    simp only [List.getElem?_cons_zero, Option.some.injEq] at hf
    subst hf
    cases f0 with
    | none => exact absurd (genFieldFill_none hgen) hn
    | some f =>
      obtain ⟨hj, _, r, _, _, _, _, hnl, _⟩ := genFieldFill_some hgen
      rw [prepare_nullLike] at hnl
      have hnull : (f.nullable && w.isNull) = false := by
        cases hb : fd.typ.nullLike with
        | false => rw [hnl, hb]; rfl
        | true =>
          have := hnn hb
          cases w <;> simp_all [JV.isNull]
      obtain ⟨⟨e', g'⟩, h1, h2⟩ := Out.bind_eq_ok.1 h.2
      have hres : e' = e ∧ gs' = [g'] := by
        cases e' <;> simp [runFields] at h2 <;> simp [h2]
      obtain ⟨rfl, rfl⟩ := hres
      unfold runField at h1
      simp only [hj, hn', if_false, hw, hnull, Bool.false_eq_true] at h1
      obtain ⟨tv, h3, h4⟩ := Out.bind_eq_ok.1 h1
      refine ⟨k, f, g', tv, rfl, hgen, h3, ?_, ?_, ?_⟩
      · rintro e0 x rfl
        simp only [Out.pure_eq, Out.ok.injEq, Prod.mk.injEq] at h4
        exact ⟨h4.1.symm, h4.2.symm⟩
      · rintro e0 x rfl
        simp only at h4
        split at h4
        · simp only [Out.pure_eq, Out.ok.injEq, Prod.mk.injEq] at h4
          exact ⟨h4.1.symm, h4.2.symm⟩
        · cases h4
      · rintro val x rfl
        simp only at h4
        split at h4
        · rename_i c hc
          exact Or.inl ⟨c, hc⟩
        · obtain ⟨r', h5, h6⟩ := Out.bind_eq_ok.1 h4
          simp only [Out.pure_eq, Out.ok.injEq, Prod.mk.injEq] at h6
          obtain ⟨rfl, rfl⟩ := h6
          exact Or.inr ⟨rfl, h5⟩

theorem noMax {Γ : Env} {k : Nat} {fd : FieldDecl} {f : FieldFill} (hgen : genFieldFill Γ k fd = .ok (some f))
    (hc : ∀ p, ¬ IsPrim Γ (pointee fd.typ) p) : f.max = none := by
  obtain ⟨_, _, _, _, _, _, _, _, _, hmax⟩ := genFieldFill_some hgen
  rw [hmax]
  split
  · rfl
  · have hrefx := prepare_resolve Γ true fd.typ fd.tags false false
    rw [prepare_expr] at hrefx
    generalize (Fld.prepare Γ true fd.typ fd.tags false false).refx = rx at hrefx
    cases rx with
    | prim p => exact absurd (resolve_prim_iff.1 hrefx.symm) (hc p)
    | _ => rfl

theorem calls_noMax {Γ : Env} {k m : Nat} {fd : FieldDecl} {f : FieldFill} (hgen : genFieldFill Γ k fd = .ok (some f))
    (hc : Calls Γ (pointee fd.typ) m) : f.max = none :=
  noMax hgen fun _ hp => absurd hc (primName_noCalls (.base hp) m)

theorem is_notPrim {Γ : Env} {t u : TExpr} (h : Is Γ t u) (h1 : ∀ n, u ≠ .named n) (h2 : ∀ n, u ≠ .sel n) (h3 : ∀ p, u ≠ .prim p)
    (p : Prim) : ¬ IsPrim Γ t p := fun hp => primName_is (.base hp) h h1 h2 h3

theorem fieldPlan_calls {Γ : Env} {fd : FieldDecl} {x : Extr} {st : Store} {m : Nat} (h : FieldPlan Γ fd x st) (hc : Calls Γ (pointee fd.typ) m) :
    (x = .nestedInPlace fd.typ ∧ st = .filled ∧ pointee fd.typ = fd.typ) ∨
    (∃ t, fd.typ = .star t ∧ x = .nestedFresh t ∧ st = .ref t) := by
  have hstar := prepare_isStar_eq Γ true fd.typ fd.tags false
  have hfield : (Fld.prepare Γ true fd.typ fd.tags false false).hasField = true := rfl
  cases h with
  | @ptr t ht h =>
    refine Or.inr ⟨t, ht, ?_, rfl⟩
    have hne : (Fld.prepare Γ true fd.typ fd.tags false false).isStar = true := by rw [hstar]; exact star_ne_pointee.2 ⟨_, ht⟩
    rcases plan_nested h (by rw [prepare_expr]; exact hc) with ⟨rfl, _⟩ | ⟨_, _, h2⟩
    · rw [prepare_expr, ht]; rfl
    · rw [hne] at h2; cases h2
  | filled ht h =>
    have hpt : pointee fd.typ = fd.typ := by
      generalize fd.typ = t at ht
      cases t <;> first | rfl | exact absurd rfl (ht _)
    rcases plan_nested h (by rw [prepare_expr]; exact hc) with ⟨rfl, _⟩ | ⟨rfl, _, _⟩
    · have : (Fld.prepare Γ true fd.typ fd.tags false false).isStar = false := by rw [hstar, hpt]; simp
      rename_i hno
      exact absurd ⟨hfield, this⟩ hno
    · exact Or.inl ⟨by rw [prepare_expr, hpt], rfl, hpt⟩
  | val ht h =>
    have hpt : pointee fd.typ = fd.typ := by
      generalize fd.typ = t at ht
      cases t <;> first | rfl | exact absurd rfl (ht _)
    have hst : (Fld.prepare Γ true fd.typ fd.tags false false).isStar = false := by rw [hstar, hpt]; simp
    cases h with
    | fresh _ hno => exact absurd ⟨hfield, hst⟩ hno
    | prim h _ => rw [prepare_expr] at h; exact absurd hc (primName_noCalls h m)
    | anon h => rw [prepare_expr] at h; rw [h] at hc; cases hc
    | time h => rw [prepare_expr] at h; exact (calls_no hc h (by simp) (by simp) (by simp) (by simp)).elim
    | uuid h => rw [prepare_expr] at h; exact (calls_no hc h (by simp) (by simp) (by simp) (by simp)).elim
    | bytes h => rw [prepare_expr] at h; exact (calls_no hc h (by simp) (by simp) (by simp) (by simp)).elim
    | fixedBytes h => rw [prepare_expr] at h; exact (calls_no hc h (by simp) (by simp) (by simp) (by simp)).elim
    | slice h => rw [prepare_expr] at h; exact (calls_no hc h (by simp) (by simp) (by simp) (by simp)).elim
    | array h => rw [prepare_expr] at h; exact (calls_no hc h (by simp) (by simp) (by simp) (by simp)).elim
    | map h => rw [prepare_expr] at h; exact (calls_no hc h (by simp) (by simp) (by simp) (by simp)).elim
  | named h => exact (calls_no hc h (by simp) (by simp) (by simp) (by simp)).elim

/-- **C43.**  Decoding a field whose type has its own decoder is decoding the member alone with
that decoder: it succeeds or fails alike, the error is the same with the field's name put
before the path, and the field holds the same afterwards. -/
theorem C43_nested {Γ : Env} {n m : Nat} {fd : FieldDecl} (hs : SingleField Γ n fd) {doc w : JV}
    (hv : Acceptable (jsonNames [fd]) false doc) (hn : fd.tags.jsonName ≠ str "-") (hn' : fd.tags.jsonName ≠ [])
    (hc : Calls Γ fd.typ m) (hw : doc.get fd.tags.jsonName = some w) {old s' : GoVal} {e : Option Err}
    (h : Fills Γ n doc (.struct [old]) e s') :
    ∃ e0 new, Fills Γ m w old e0 new ∧ e = e0.map (·.inside fd.tags.jsonName) ∧ s' = .struct [new] := by
  have hpt : pointee fd.typ = fd.typ := by
    generalize fd.typ = t at hc
    cases hc <;> rfl
  have hnl : fd.typ.nullLike = false := by
    generalize fd.typ = t at hc
    cases hc <;> rfl
  obtain ⟨k, f, new, tv, rfl, hgen, hrun, h1, h2, h3⟩ := single_run hs hv hn hn' hw (by rw [hnl]; simp) h
  rcases fieldPlan_calls (field_plan hgen) (by rw [hpt]; exact hc) with ⟨hx, hst, _⟩ | ⟨t, ht, _⟩
  · rw [hx] at hrun
    simp only [runExtr] at hrun
    obtain ⟨⟨e0, x⟩, h4, h5⟩ := Out.bind_eq_ok.1 hrun
    simp only [Out.pure_eq, Out.ok.injEq] at h5
    have hf := fillT_fills hc h4
    cases e0 with
    | none =>
      refine ⟨none, x, hf, ?_⟩
      rcases h3 _ _ h5.symm with ⟨c, hcc⟩ | ⟨rfl, hsto⟩
      · rw [calls_noMax hgen (by rw [hpt]; exact hc)] at hcc; cases hcc
      · rw [hst] at hsto; cases hsto; exact ⟨rfl, rfl⟩
    | some e0 =>
      obtain ⟨rfl, rfl⟩ := h2 _ _ h5.symm
      exact ⟨some e0, _, hf, by rw [inside_eq]; rfl, rfl⟩
  · rw [ht] at hpt
    have := congrArg sizeOf hpt
    simp [pointee] at this

/-- **C43, pointers.**  … and for a pointer field: the decoder works on a new value, and after an
error the pointer is what it was. -/
theorem C43_nested_ptr {Γ : Env} {n m : Nat} {fd : FieldDecl} (hs : SingleField Γ n fd) {doc w : JV} {t : TExpr}
    (hv : Acceptable (jsonNames [fd]) false doc) (hn : fd.tags.jsonName ≠ str "-") (hn' : fd.tags.jsonName ≠ [])
    (ht : fd.typ = .star t) (hc : Calls Γ t m) (hw : doc.get fd.tags.jsonName = some w) (hnn : w ≠ .null) {old s' : GoVal} {e : Option Err}
    (h : Fills Γ n doc (.struct [old]) e s') :
    ∃ z e0 x, ZeroIs Γ m z ∧ Fills Γ m w z e0 x ∧ e = e0.map (·.inside fd.tags.jsonName) ∧
      (e0 = none → ∃ y, ConvIs Γ m x y ∧ s' = .struct [.ptr y]) ∧ (e0 ≠ none → s' = .struct [old]) := by
  have hpt : pointee fd.typ = t := by rw [ht]; rfl
  obtain ⟨k, f, new, tv, rfl, hgen, hrun, h1, h2, h3⟩ := single_run hs hv hn hn' hw (fun _ => hnn) h
  rcases fieldPlan_calls (field_plan hgen) (by rw [hpt]; exact hc) with ⟨_, _, h'⟩ | ⟨t', ht', hx, hst⟩
  · rw [hpt, ht] at h'
    have := congrArg sizeOf h'
    simp at this
  · rw [ht] at ht'
    cases ht'
    rw [hx] at hrun
    simp only [runExtr] at hrun
    obtain ⟨z, hz, hrun⟩ := Out.bind_eq_ok.1 hrun
    obtain ⟨⟨e0, x⟩, h4, h5⟩ := Out.bind_eq_ok.1 hrun
    simp only [Out.pure_eq, Out.ok.injEq] at h5
    have hf := fillT_fills hc h4
    refine ⟨z, e0, x, zeroT_is hc hz, hf, ?_⟩
    cases e0 with
    | none =>
      rcases h3 _ _ h5.symm with ⟨c, hcc⟩ | ⟨rfl, hsto⟩
      · rw [calls_noMax hgen (by rw [hpt]; exact hc)] at hcc; cases hcc
      · rw [hst] at hsto
        simp only [storeField] at hsto
        obtain ⟨y, hy, h6⟩ := Out.bind_eq_ok.1 hsto
        cases h6
        refine ⟨rfl, fun _ => ⟨y, ?_, rfl⟩, by simp⟩
        have hn := pointee_nameOf hc
        cases hn with
        | named => exact ⟨k, hy⟩
        | sel => exact ⟨k, hy⟩
    | some e0 =>
      obtain ⟨rfl, rfl⟩ := h2 _ _ h5.symm
      exact ⟨by rw [inside_eq]; rfl, by simp, fun _ => rfl⟩

/-- what the template of a type with its own decoder leaves -/
theorem nested_run {Γ : Env} {f : Fld} {path : PathE} {x : Extr} {b : Bool} {m : Nat} (h : Plan Γ f path x b) (hc : Calls Γ f.expr m)
    {k i : Nat} {v : JV} {c : GoVal} {tv : TV} (hr : runExtr (Γ.methods k) x i v c = .ok tv) :
    (∃ val c', tv = .done (.ok val) c') ∨ ∃ e0 old new c', tv = .done (.error e0) c' ∧ Fills Γ m v old (some e0) new ∧
      (x = .nestedInPlace f.expr → old = c) ∧ (x = .nestedFresh f.expr → ZeroIs Γ m old) := by
  rcases plan_nested h hc with ⟨rfl, _⟩ | ⟨rfl, _⟩
  · simp only [runExtr] at hr
    obtain ⟨z, hz, hr⟩ := Out.bind_eq_ok.1 hr
    obtain ⟨⟨e0, w⟩, h4, h5⟩ := Out.bind_eq_ok.1 hr
    simp only [Out.pure_eq, Out.ok.injEq] at h5
    subst h5
    cases e0 with
    | none => exact Or.inl ⟨_, _, rfl⟩
    | some e0 => exact Or.inr ⟨e0, z, w, _, rfl, fillT_fills hc h4, by simp, fun _ => zeroT_is hc hz⟩
  · simp only [runExtr] at hr
    obtain ⟨⟨e0, w⟩, h4, h5⟩ := Out.bind_eq_ok.1 hr
    simp only [Out.pure_eq, Out.ok.injEq] at h5
    subst h5
    cases e0 with
    | none => exact Or.inl ⟨_, _, rfl⟩
    | some e0 => exact Or.inr ⟨e0, c, w, _, rfl, fillT_fills hc h4, by simp, by simp⟩

theorem elemRound_nested {Γ : Env} {f : Fld} {path : PathE} {x : Extr} {b : Bool} {m : Nat} (h : Plan Γ f path x b) (hc : Calls Γ f.expr m)
    {k : Nat} {nullable brk : Bool} {st : ElemStore} {i : Nat} {a : JV} {c w : GoVal} {e : Err}
    (hr : elemRound (Γ.methods k) nullable brk st (runExtr (Γ.methods k) x) i a c = .ok (.ret e w) ∨
      elemRound (Γ.methods k) nullable brk st (runExtr (Γ.methods k) x) i a c = .ok (.brk e w)) :
    ∃ e0 old new, Fills Γ m a old (some e0) new ∧ e = e0.inside (natStr i) := by
  have key : ∀ r, elemRound (Γ.methods k) nullable brk st (runExtr (Γ.methods k) x) i a c = .ok r → r = .ret e w ∨ r = .brk e w →
      ∃ e0 old new, Fills Γ m a old (some e0) new ∧ e = e0.inside (natStr i) := by
    intro r hr hcc
    simp only [elemRound] at hr
    split at hr
    · simp only [Out.ok.injEq] at hr
      subst hr
      rcases hcc with h | h <;> cases h
    · obtain ⟨tv, h1, h2⟩ := Out.bind_eq_ok.1 hr
      rcases nested_run h hc h1 with ⟨val, c', rfl⟩ | ⟨e0, old, new, c', rfl, hf, _⟩
      · simp only at h2
        obtain ⟨w', _, h2⟩ := Out.bind_eq_ok.1 h2
        simp only [Out.pure_eq, Out.ok.injEq] at h2
        subst h2
        rcases hcc with h | h <;> cases h
      · simp only at h2
        split at h2
        · simp only [Out.pure_eq, Out.ok.injEq] at h2
          subst h2
          rcases hcc with h | h <;> cases h
          exact ⟨e0, old, new, hf, inside_eq _ _⟩
        · cases h2
  rcases hr with hr | hr
  · exact key _ hr (Or.inl rfl)
  · exact key _ hr (Or.inr rfl)

/-- **C43, lists.**  When a slice or array field of such a type (or of pointers to it) fails on a
JSON array of the right length, the decoder fails on one of the elements alone, and the error is that
error with the name of the field and the index put before the path. -/
theorem C43_nested_list_error {Γ : Env} {n m : Nat} {fd : FieldDecl} (hs : SingleField Γ n fd) {doc : JV} {l : List JV} {elt : TExpr}
    (hv : Acceptable (jsonNames [fd]) false doc) (hn : fd.tags.jsonName ≠ str "-") (hn' : fd.tags.jsonName ≠ [])
    (ht : Is Γ fd.typ (.slice elt) ∨ Is Γ fd.typ (.array l.length elt)) (hc : Calls Γ (pointee elt) m)
    (hw : doc.get fd.tags.jsonName = some (.arr l)) {old s' : GoVal} {e : Err} (h : Fills Γ n doc (.struct [old]) (some e) s') :
    ∃ i a e0 x y, l[i]? = some a ∧ Fills Γ m a x (some e0) y ∧ e = (e0.inside (natStr i)).inside fd.tags.jsonName := by
  have hpt : pointee fd.typ = fd.typ := by
    generalize fd.typ = t at ht
    rcases ht with h | h <;> cases h <;> rfl
  obtain ⟨k, f, new, tv, rfl, hgen, hrun, h1, h2, h3⟩ := single_run hs hv hn hn' hw (by simp) h
  have hloop : ∀ {x : Extr} {b nullable brk : Bool} {st : ElemStore} {cells cells' : List GoVal} {stop : Stop} {n : Nat} {e1 : Err},
      Plan Γ (Fld.prepare Γ true elt {} false false) .index x b →
      sliceLoop (elemRound (Γ.methods k) nullable brk st (runExtr (Γ.methods k) x)) 0 l cells = .ok (stop, n, cells') →
      stop = .ret e1 ∨ stop = .brk e1 →
      ∃ i a e0 x y, l[i]? = some a ∧ Fills Γ m a x (some e0) y ∧ e1 = e0.inside (natStr i) := by
    intro x b nullable brk st cells cells' stop n e1 hp hl hst
    obtain ⟨j, a, hj, e0, x', y, h4, h5⟩ := sliceLoop_told
      (R := fun i a e => ∃ e0 old new, Fills Γ m a old (some e0) new ∧ e = e0.inside (natStr i))
      (fun i a c e w hr => elemRound_nested hp (by rw [prepare_expr]; exact hc) hr) hl hst
    rw [Nat.zero_add] at h5
    exact ⟨j, a, e0, x', y, hj, h4, h5⟩
  have hnoRet : ∀ {x : Extr} {b nullable brk : Bool} {st : ElemStore} {cells cells' : List GoVal} {n : Nat} {e1 : Err},
      Plan Γ (Fld.prepare Γ true elt {} false false) .index x b →
      sliceLoop (elemRound (Γ.methods k) nullable brk st (runExtr (Γ.methods k) x)) 0 l cells = .ok (.ret e1, n, cells') → False := by
    intro x b nullable brk st cells cells' n e1 hp hl
    refine (sliceLoop_stop (P := fun _ => False) (Q := fun _ => True) (fun i a c r hr => ?_) hl).1 e1 rfl
    refine ⟨?_, by simp⟩
    rintro e w rfl
    simp only [elemRound] at hr
    split at hr
    · cases hr
    · obtain ⟨tv, h1, h2⟩ := Out.bind_eq_ok.1 hr
      rcases nested_run hp (by rw [prepare_expr]; exact hc) h1 with ⟨val, c', rfl⟩ | ⟨e0, _, _, c', rfl, _⟩
      · obtain ⟨w', _, h2⟩ := Out.bind_eq_ok.1 h2
        cases h2
      · simp only at h2
        split at h2 <;> cases h2
  have hplan : ∃ b, Plan Γ (Fld.prepare Γ true fd.typ fd.tags false false) (.const fd.tags.jsonName) f.x b := by
    have hfp := field_plan hgen
    generalize f.x = x at hfp
    generalize f.store = st at hfp
    cases hfp with
    | ptr _ h => exact ⟨_, h⟩
    | filled _ h => exact ⟨_, h⟩
    | val _ h => exact ⟨_, h⟩
    | named h =>
      rw [hpt] at h
      rcases ht with h' | h'
      · have := is_unique h h' (by simp) (by simp) (by simp) (by simp) (by simp) (by simp)
        cases this
      · have := is_unique h h' (by simp) (by simp) (by simp) (by simp) (by simp) (by simp)
        cases this
  have hmax : f.max = none := by
    refine noMax hgen fun p => ?_
    rw [hpt]
    rcases ht with h | h
    · exact is_notPrim h (by simp) (by simp) (by simp) p
    · exact is_notPrim h (by simp) (by simp) (by simp) p
  have hend : ∀ {e0 : Err} {x : GoVal}, tv = .done (.error e0) x → e = newParsingError fd.tags.jsonName e0 := by
    intro e0 x htv
    exact Option.some.inj (h2 _ _ htv).1
  have hok : ∀ {val x : GoVal}, tv = .done (.ok val) x → False := by
    intro val x htv
    rcases h3 _ _ htv with ⟨c, hc⟩ | ⟨h, _⟩
    · rw [hmax] at hc; cases hc
    · cases h
  obtain ⟨b, hp⟩ := hplan
  generalize hfx : f.x = x at hp hrun
  have hexp : (Fld.prepare Γ true fd.typ fd.tags false false).expr = fd.typ := by rw [prepare_expr, hpt]
  have hcl : ∀ {u : TExpr}, Is Γ (Fld.prepare Γ true fd.typ fd.tags false false).expr u → (∀ p, u ≠ .prim p) → (∀ n, u ≠ .named n) →
      (∀ n, u ≠ .sel n) → u = .slice elt ∨ u = .array l.length elt := by
    intro u hu h1 h2 h3
    rw [hexp] at hu
    rcases ht with h | h
    · exact Or.inl (is_unique hu h h1 h2 h3 (by simp) (by simp) (by simp))
    · exact Or.inr (is_unique hu h h1 h2 h3 (by simp) (by simp) (by simp))
  have hnc : ∀ m', ¬ Calls Γ (Fld.prepare Γ true fd.typ fd.tags false false).expr m' := by
    intro m' hc'
    rw [hexp] at hc'
    rcases ht with h | h
    · exact calls_no hc' h (by simp) (by simp) (by simp) (by simp)
    · exact calls_no hc' h (by simp) (by simp) (by simp) (by simp)
  have hnp : ∀ p, ¬ PrimName Γ (Fld.prepare Γ true fd.typ fd.tags false false).expr p := by
    intro p hp'
    rw [hexp] at hp'
    rcases ht with h | h
    · exact primName_is hp' h (by simp) (by simp) (by simp)
    · exact primName_is hp' h (by simp) (by simp) (by simp)
  have hbyte : elt ≠ .prim .byte := by
    rintro rfl
    cases hc
  cases hp with
  | prim h _ => exact absurd h (hnp _)
  | fresh h => exact absurd h (hnc _)
  | inPlace h => exact absurd h (hnc _)
  | anon h =>
    rw [hexp] at h
    rw [h] at ht
    rcases ht with h | h <;> cases h
  | time h => rcases hcl h (by simp) (by simp) (by simp) with h | h <;> cases h
  | uuid h => rcases hcl h (by simp) (by simp) (by simp) with h | h <;> cases h
  | bytes h =>
    rcases hcl h (by simp) (by simp) (by simp) with h | h <;> cases h
    exact absurd rfl hbyte
  | fixedBytes h =>
    rcases hcl h (by simp) (by simp) (by simp) with h | h <;> cases h
    exact absurd rfl hbyte
  | map h => rcases hcl h (by simp) (by simp) (by simp) with h | h <;> cases h
  | slice h _ _ _ hx =>
    rcases hcl h (by simp) (by simp) (by simp) with h | h <;> cases h
    simp only [runExtr, JV.getArr] at hrun
    obtain ⟨z, _, hrun⟩ := Out.bind_eq_ok.1 hrun
    obtain ⟨⟨fresh, cells⟩, _, hrun⟩ := Out.bind_eq_ok.1 hrun
    obtain ⟨⟨stop, n', cells'⟩, hl, hrun⟩ := Out.bind_eq_ok.1 hrun
    cases stop with
    | fin =>
      simp only [Out.pure_eq, Out.ok.injEq] at hrun
      exact (hok hrun.symm).elim
    | ret e1 => exact (hnoRet hx hl).elim
    | brk e1 =>
      simp only at hrun
      split at hrun
      · simp only [Out.pure_eq, Out.ok.injEq] at hrun
        exact (hok hrun.symm).elim
      · simp only [Out.pure_eq, Out.ok.injEq] at hrun
        obtain ⟨i, a, e0, x', y, h4, h5, h6⟩ := hloop hx hl (Or.inr rfl)
        exact ⟨i, a, e0, x', y, h4, h5, by rw [hend hrun.symm, h6, inside_eq]⟩
  | array h _ _ hx =>
    rcases hcl h (by simp) (by simp) (by simp) with h | h <;> cases h
    simp only [runExtr, JV.getArr, ne_eq, not_true, if_false] at hrun
    obtain ⟨z, _, hrun⟩ := Out.bind_eq_ok.1 hrun
    obtain ⟨⟨stop, n', cells'⟩, hl, hrun⟩ := Out.bind_eq_ok.1 hrun
    cases stop with
    | fin =>
      simp only [Out.pure_eq, Out.ok.injEq] at hrun
      exact (hok hrun.symm).elim
    | ret e1 => exact (hnoRet hx hl).elim
    | brk e1 =>
      simp only at hrun
      split at hrun
      · simp only [Out.pure_eq, Out.ok.injEq] at hrun
        exact (hok hrun.symm).elim
      · simp only [Out.pure_eq, Out.ok.injEq] at hrun
        obtain ⟨i, a, e0, x', y, h4, h5, h6⟩ := hloop hx hl (Or.inr rfl)
        exact ⟨i, a, e0, x', y, h4, h5, by rw [hend hrun.symm, h6, inside_eq]⟩

theorem mapLoop_nested {Γ : Env} {f : Fld} {path : PathE} {x : Extr} {b : Bool} {m k : Nat} (h : Plan Γ f path x b) (hc : Calls Γ f.expr m)
    {star : Bool} {val : TExpr} :
    ∀ {kvs : List (Str × JV)} {l l' : List (Str × GoVal)} {e : Err},
      mapLoop (Γ.methods k) star val (fun v => runExtr (Γ.methods k) x 0 v .nil) kvs l = .ok (some e, l') →
      ∃ key a e0 old new, (key, a) ∈ kvs ∧ Fills Γ m a old (some e0) new ∧ e = e0.inside key
  | [], l, l', e, hr => by simp [mapLoop] at hr
  | (key, a) :: rest, l, l', e, hr => by
    have rec' : ∀ {m0 : List (Str × GoVal)}, mapLoop (Γ.methods k) star val (fun v => runExtr (Γ.methods k) x 0 v .nil) rest m0 = .ok (some e, l') →
        ∃ key' a' e0 old new, (key', a') ∈ (key, a) :: rest ∧ Fills Γ m a' old (some e0) new ∧ e = e0.inside key' := by
      intro m0 h0
      obtain ⟨k', a', e0, x, y, h1, h2⟩ := mapLoop_nested h hc h0
      exact ⟨k', a', e0, x, y, List.mem_cons_of_mem _ h1, h2⟩
    simp only [mapLoop] at hr
    split at hr
    · exact rec' hr
    · obtain ⟨tv, h1, h2⟩ := Out.bind_eq_ok.1 hr
      rcases nested_run h hc h1 with ⟨w, c', rfl⟩ | ⟨e0, x, y, c', rfl, hf, _⟩
      · simp only at h2
        obtain ⟨w', _, h2⟩ := Out.bind_eq_ok.1 h2
        exact rec' h2
      · simp only [Out.pure_eq, Out.ok.injEq, Prod.mk.injEq, Option.some.injEq] at h2
        obtain ⟨rfl, rfl⟩ := h2
        exact ⟨key, a, e0, x, y, List.mem_cons_self, hf, inside_eq _ _⟩

/-- **C43, maps.**  When a map field with such values (or pointers to them) fails on a JSON
object, the decoder fails on one of the values alone, and the error is that error with
the name of the field and the key put before the path. -/
theorem C43_nested_map_error {Γ : Env} {n m : Nat} {fd : FieldDecl} (hs : SingleField Γ n fd) {doc : JV} {kvs : List (Str × JV)} {val : TExpr}
    (hv : Acceptable (jsonNames [fd]) false doc) (hn : fd.tags.jsonName ≠ str "-") (hn' : fd.tags.jsonName ≠ [])
    (ht : Is Γ fd.typ (.map val)) (hc : Calls Γ (pointee val) m)
    (hw : doc.get fd.tags.jsonName = some (.obj kvs)) {old s' : GoVal} {e : Err} (h : Fills Γ n doc (.struct [old]) (some e) s') :
    ∃ key a e0 x y, (key, a) ∈ kvs ∧ Fills Γ m a x (some e0) y ∧ e = (e0.inside key).inside fd.tags.jsonName := by
  have hpt : pointee fd.typ = fd.typ := by
    generalize fd.typ = t at ht
    cases ht <;> rfl
  obtain ⟨k, f, new, tv, rfl, hgen, hrun, h1, h2, h3⟩ := single_run hs hv hn hn' hw (by simp) h
  have hplan : ∃ b, Plan Γ (Fld.prepare Γ true fd.typ fd.tags false false) (.const fd.tags.jsonName) f.x b := by
    have hfp := field_plan hgen
    generalize f.x = x at hfp
    generalize f.store = st at hfp
    cases hfp with
    | ptr _ h => exact ⟨_, h⟩
    | filled _ h => exact ⟨_, h⟩
    | val _ h => exact ⟨_, h⟩
    | named h =>
      rw [hpt] at h
      have := is_unique h ht (by simp) (by simp) (by simp) (by simp) (by simp) (by simp)
      cases this
  have hmax : f.max = none := by
    refine noMax hgen fun p => ?_
    rw [hpt]
    exact is_notPrim ht (by simp) (by simp) (by simp) p
  obtain ⟨b, hp⟩ := hplan
  generalize hfx : f.x = x at hp hrun
  have hexp : (Fld.prepare Γ true fd.typ fd.tags false false).expr = fd.typ := by rw [prepare_expr, hpt]
  have hcl : ∀ {u : TExpr}, Is Γ (Fld.prepare Γ true fd.typ fd.tags false false).expr u → (∀ p, u ≠ .prim p) → (∀ n, u ≠ .named n) →
      (∀ n, u ≠ .sel n) → u = .map val := by
    intro u hu h1 h2 h3
    rw [hexp] at hu
    exact is_unique hu ht h1 h2 h3 (by simp) (by simp) (by simp)
  have hnc : ∀ m', ¬ Calls Γ (Fld.prepare Γ true fd.typ fd.tags false false).expr m' := by
    intro m' hc'
    rw [hexp] at hc'
    exact calls_no hc' ht (by simp) (by simp) (by simp) (by simp)
  cases hp with
  | prim h _ =>
    rw [hexp] at h
    exact (primName_is h ht (by simp) (by simp) (by simp)).elim
  | fresh h => exact absurd h (hnc _)
  | inPlace h => exact absurd h (hnc _)
  | anon h =>
    rw [hexp] at h
    rw [h] at ht
    cases ht
  | time h => cases hcl h (by simp) (by simp) (by simp)
  | uuid h => cases hcl h (by simp) (by simp) (by simp)
  | bytes h => cases hcl h (by simp) (by simp) (by simp)
  | fixedBytes h => cases hcl h (by simp) (by simp) (by simp)
  | slice h => cases hcl h (by simp) (by simp) (by simp)
  | array h => cases hcl h (by simp) (by simp) (by simp)
  | map h _ _ hx =>
    cases hcl h (by simp) (by simp) (by simp)
    simp only [runExtr, JV.getObj] at hrun
    obtain ⟨m0, _, hrun⟩ := Out.bind_eq_ok.1 hrun
    obtain ⟨⟨e', l'⟩, hl, hrun⟩ := Out.bind_eq_ok.1 hrun
    cases e' with
    | none =>
      simp only [Out.pure_eq, Out.ok.injEq] at hrun
      rcases h3 _ _ hrun.symm with ⟨c, hc⟩ | ⟨h, _⟩
      · rw [hmax] at hc; cases hc
      · cases h
    | some e' =>
      simp only [Out.pure_eq, Out.ok.injEq] at hrun
      obtain ⟨key, a, e0, x', y, h4, h5, h6⟩ := mapLoop_nested hx (by rw [prepare_expr]; exact hc) hl
      exact ⟨key, a, e0, x', y, h4, h5, by rw [Option.some.inj (h2 _ _ hrun.symm).1, h6, inside_eq]⟩

/-! ## What the right paths of a struct look like -/

theorem dotted_cons (p : Str) (ps : List Str) : ∃ q, dotted (p :: ps) = p ++ q := by
  cases ps with
  | nil => exact ⟨[], by simp [dotted]⟩
  | cons q qs => exact ⟨_, rfl⟩

/-- A right path starts with the name of a field, possibly of an embedded struct. -/
theorem blames_path {Γ : Env} {L : Str} {n : Nat} {v : JV} {p : Str} {c : Cause} {strict : Bool} {fields : List FieldDecl}
    (hd : Γ.decl n = some (.struct strict fields)) (h : Blames Γ L (.named n) v ⟨some p, c⟩) :
    (∃ fd ∈ fields, ∃ q, p = fd.tags.jsonName ++ q ∧ (q = [] ∨ fd.tags.jsonName ≠ [])) ∨
    ∃ fd ∈ fields, fd.tags.jsonName = [] ∧ Blames Γ fd.tags.layout fd.typ v ⟨some p, c⟩ := by
  obtain ⟨place, tail, L', t', v', c', h1, h2, h3⟩ := h
  have hno : ∀ {u : TExpr}, ¬ Is Γ (.named n) u ∨ u = .named n := by
    intro u
    by_cases hu : Is Γ (.named n) u
    · cases hu with
      | self => exact Or.inr rfl
      | named h => rw [hd] at h; cases h
    · exact Or.inl hu
  cases h1 with
  | here =>
    left
    cases h2 with
    | required ht hd' hf hr hm =>
      cases ht
      rw [hd] at hd'
      cases hd'
      simp only [List.nil_append, errorAt, Err.mk.injEq, Option.some.injEq] at h3
      exact ⟨_, hf, [], by simpa [dotted] using h3.1, Or.inl rfl⟩
    | twice ht hd' hk ho =>
      cases ht
      rw [hd] at hd'
      cases hd'
      obtain ⟨fd, hf, rfl⟩ := List.mem_map.1 hk
      simp only [List.nil_append, errorAt, Err.mk.injEq, Option.some.injEq] at h3
      exact ⟨_, hf, [], by simpa [dotted] using h3.1, Or.inl rfl⟩
    | foreign ht hd' => cases ht; rw [hd] at hd'; cases hd'
    | _ => simp [errorAt] at h3
  | name ht hd' => cases ht; rw [hd] at hd'; cases hd'
  | elem ht => rcases ht with h | ⟨_, h⟩ <;> rcases hno with h' | h' <;> first | exact absurd h h' | cases h'
  | entry h => rcases hno with h' | h' <;> first | exact absurd h h' | cases h'
  | field ht hd' hf hh hne hg h =>
    left
    cases ht
    rw [hd] at hd'
    cases hd'
    simp only [List.cons_append, errorAt, Err.mk.injEq, Option.some.injEq] at h3
    obtain ⟨q, hq⟩ := dotted_cons _ _
    exact ⟨_, hf, q, h3.1.trans hq, Or.inr hne⟩
  | embedded ht hd' hf hne h =>
    right
    cases ht
    rw [hd] at hd'
    cases hd'
    exact ⟨_, hf, hne, _, _, _, _, _, _, h, h2, h3⟩

/-- An error without a path is about the object as such. -/
theorem blames_root {Γ : Env} {L : Str} {n : Nat} {v : JV} {c : Cause} {strict : Bool} {fields : List FieldDecl}
    (hd : Γ.decl n = some (.struct strict fields)) (hne : ∀ fd ∈ fields, fd.tags.jsonName ≠ []) (h : Blames Γ L (.named n) v ⟨none, c⟩) :
    Wrong Γ L (.named n) v [] c := by
  obtain ⟨place, tail, L', t', v', c', h1, h2, h3⟩ := h
  have hpt : place ++ tail = [] ∧ c = c' := by
    cases hp : place ++ tail with
    | nil => rw [hp] at h3; simp only [errorAt, Err.mk.injEq] at h3; exact ⟨rfl, h3.2⟩
    | cons q qs => rw [hp] at h3; simp [errorAt] at h3
  obtain ⟨hpt, rfl⟩ := hpt
  rw [List.append_eq_nil_iff] at hpt
  obtain ⟨rfl, rfl⟩ := hpt
  cases h1 with
  | here => exact h2
  | name ht hd' => cases ht; rw [hd] at hd'; cases hd'
  | embedded ht hd' hf hn => cases ht; rw [hd] at hd'; cases hd'; exact absurd hn (hne _ hf)

end

/-! ## Examples -/

namespace Examples
open Sample
attribute [local instance] Sample.ext

/-- Base, []int16, map[string]*Base, Temp, Warm, *Base and []Base in a struct, map[string]int8, Blob -/
def tracedNames (n : Nat) : Prop := n = 2 ∨ n = 20 ∨ n = 21 ∨ n = 24 ∨ n = 26 ∨ n = 4 ∨ n = 31 ∨ n = 35 ∨ n = 54 ∨ n = 40

theorem traced_set : TracedSet Γ tracedNames := by
  refine ⟨?_, ?_, ?_⟩
  · intro n d t m hn hd ht hm
    rcases hn with rfl | rfl | rfl | rfl | rfl | rfl | rfl | rfl | rfl | rfl <;> cases hd <;>
      simp [Decl.types, base, tag, TExpr.names] at ht hm <;> (try subst ht) <;> simp [TExpr.names, tracedNames] at hm ⊢ <;>
      (try (first | omega | simp [hm]))
  · intro n d t hn hd ht
    rcases hn with rfl | rfl | rfl | rfl | rfl | rfl | rfl | rfl | rfl | rfl <;> cases hd <;>
      simp [Decl.types, base] at ht <;> subst ht <;> rfl
  · intro n d hn hd
    have hf : ∀ (u : TExpr), (∀ elt, u ≠ .slice elt) → (∀ n elt, u ≠ .array n elt) → (∀ n, u ≠ .named n) → FieldTraced Γ u := by
      intro u h1 h2 h3 elt h
      rcases h with h | ⟨n, h⟩ <;> cases h
      · exact absurd rfl (h1 _)
      · exact absurd rfl (h3 _)
      · exact absurd rfl (h2 _ _)
      · exact absurd rfl (h3 _)
    rcases hn with rfl | rfl | rfl | rfl | rfl | rfl | rfl | rfl | rfl | rfl <;> cases hd
    · intro fd hfd _
      simp only [base, List.mem_singleton] at hfd
      subst hfd
      exact ⟨by decide, hf _ (by simp [pointee]) (by simp [pointee]) (by simp [pointee])⟩
    · exact Or.inl ⟨.int8, by simp, .base (.self _)⟩
    · exact Or.inl ⟨.int8, by simp, .base (.named rfl)⟩
    · exact Or.inr (Or.inl ⟨.int16, .base (.self _)⟩)
    · trivial
    · exact Or.inl rfl
    · intro fd hfd _
      simp only [List.mem_singleton] at hfd
      subst hfd
      exact ⟨by decide, hf _ (by simp [pointee]) (by simp [pointee]) (by simp [pointee])⟩
    · intro fd hfd _
      simp only [List.mem_singleton] at hfd
      subst hfd
      refine ⟨by decide, ?_⟩
      intro elt h
      simp only [pointee] at h
      rcases h with h | ⟨n, h⟩ <;> cases h <;> rename_i h <;> cases h
    · intro fd hfd _
      simp only [List.mem_singleton] at hfd
      subst hfd
      refine ⟨by decide, ?_⟩
      intro elt h
      simp only [pointee] at h
      rcases h with h | ⟨n, h⟩ <;> cases h
      exact Or.inr ⟨2, .struct rfl⟩
    · exact Or.inr (Or.inr ⟨2, .struct rfl⟩)

/-- {"l":[{},{"rev":"x"}]} -/
def badRev : JV := .obj [(str "l", .arr [.obj [], .obj [(str "rev", .str (str "x"))]])]

set_option maxRecDepth 200000 in
/-- `C17_error_paths_partial` on {"l":[{},{"rev":"x"}]}: the path is l.1.rev -/
theorem badRev_fails : Fills Γ 54 badRev (.struct [.nil]) (some ⟨some (str "l.1.rev"), .wrongType .number .string⟩)
    (.struct [.nil]) := ⟨5, rfl⟩

/-- … and this is what it means: the value at l.1.rev is not a number -/
example : Blames Γ [] (.named 54) badRev ⟨some (str "l.1.rev"), .wrongType .number .string⟩ :=
  C17_error_paths_partial traced_set (by simp [tracedNames]) badRev_fails

/-- Doc, Holder, a list of strings, nested lists and a named string, with the types they use -/
def pathNames (n : Nat) : Prop := n = 3 ∨ n = 2 ∨ n = 0 ∨ n = 5 ∨ n = 4 ∨ n = 13 ∨ n = 53 ∨ n = 38

theorem path_set : NamedSet Γ pathNames := by
  refine ⟨?_, ?_⟩
  · intro n d t m hn hd ht hm
    rcases hn with rfl | rfl | rfl | rfl | rfl | rfl | rfl | rfl <;> cases hd <;>
      simp [Decl.types, base, doc, user, holder] at ht <;> (try rcases ht with rfl | rfl | rfl | rfl | rfl | rfl) <;>
      (try rcases ht with rfl | rfl | rfl) <;> (try subst ht) <;> simp [TExpr.names, pathNames] at hm ⊢ <;> simp [hm]
  · intro n d t hn hd ht
    rcases hn with rfl | rfl | rfl | rfl | rfl | rfl | rfl | rfl <;> cases hd <;>
      simp [Decl.types, base, doc, user, holder] at ht <;> (try rcases ht with rfl | rfl | rfl | rfl | rfl | rfl) <;>
      (try rcases ht with rfl | rfl | rfl) <;> (try subst ht) <;> rfl

set_option maxRecDepth 200000 in
/-- `C17_cause_partial` on {"tags":["x",1]}, where the path is 1: some part of the document is not a string -/
example : Hints Γ [] (.named 13) (.obj [(str "tags", .arr [.str (str "x"), .num (str "1")])]) ⟨some (str "1"), .wrongType .string .number⟩ :=
  C17_cause_partial (new := _) path_set (by simp [pathNames]) (old := .struct [.nil]) ⟨5, rfl⟩

set_option maxRecDepth 200000 in
/-- … on {"blob":1}, where there is no path … -/
example : Hints Γ [] (.named 5) (.obj [(str "blob", .num (str "1"))]) ⟨none, .wrongType .string .number⟩ :=
  C17_cause_partial (new := _) path_set (by simp [pathNames]) (old := .struct [.nil]) ⟨5, rfl⟩

set_option maxRecDepth 200000 in
/-- … and on {"rev":""}, with an embedded struct -/
example : Hints Γ [] (.named 3) (.obj [(str "rev", .str [])]) ⟨some (str ".rev"), .wrongType .number .string⟩ :=
  C17_cause_partial (new := _) path_set (by simp [pathNames]) (old := .struct [.struct [.int 0], .nil, .nil]) ⟨5, rfl⟩

/-- `Hints` is not always true: the path may not name a member that is not on the way -/
example : ¬ Abridges [str "b"] [str "a"] := by
  intro h
  cases h with
  | skip _ h => cases h with | filler hs _ => rcases hs with hs | hs <;> exact absurd hs (by decide)
  | filler hs _ => rcases hs with hs | hs <;> exact absurd hs (by decide)

/-- C43 on the same document -/
example : ∃ i a e0 x y, ([.obj [], .obj [(str "rev", .str (str "x"))]] : List JV)[i]? = some a ∧ Fills Γ 2 a x (some e0) y ∧
    (⟨some (str "l.1.rev"), .wrongType .number .string⟩ : Err) = (e0.inside (natStr i)).inside (str "l") :=
  C43_nested_list_error (Γ := Γ) (n := 54) (fd := ⟨.slice (.named 2), tag "l"⟩) rfl ⟨_, rfl, by decide, by simp⟩ (by decide) (by decide) (Or.inl (.self _))
    (.struct rfl) rfl badRev_fails

set_option maxRecDepth 200000 in
/-- C43 on a pointer: {"b":{"rev":"x"}} fails with b.rev and keeps the pointer -/
example : Fills Γ 35 (.obj [(str "b", .obj [(str "rev", .str (str "x"))])]) (.struct [.ptr (.struct [.int 1])])
    (some ⟨some (str "b.rev"), .wrongType .number .string⟩) (.struct [.ptr (.struct [.int 1])]) := ⟨5, rfl⟩

set_option maxRecDepth 200000 in
/-- **C17 does not hold for slices of strings**: {"tags":["x",1]} fails with path 1, without the name
of the field; no member is called 1. -/
theorem C17_strings_lose_field : ∃ doc e new, Fills Γ 13 doc (.struct [.nil]) (some e) new ∧ e.path = some (str "1") ∧
    ¬ Blames Γ [] (.named 13) doc e := by
  refine ⟨.obj [(str "tags", .arr [.str (str "x"), .num (str "1")])], ⟨some (str "1"), .wrongType .string .number⟩, _, ⟨5, rfl⟩, rfl, ?_⟩
  intro h
  rcases blames_path rfl h with ⟨fd, hf, q, hq, _⟩ | ⟨fd, hf, hn, _⟩ <;> simp only [List.mem_singleton] at hf <;> subst hf
  · exact absurd hq (by show (str "1") ≠ (str "tags") ++ q; simp [str])
  · exact absurd hn (by decide)

set_option maxRecDepth 200000 in
/-- **C17 does not hold for nested slices**: {"n":[[],1]} fails with an empty path. -/
theorem C17_nested_slices_lose_path : ∃ doc e new, Fills Γ 53 doc (.struct [.nil]) (some e) new ∧ e.path = some [] ∧
    ¬ Blames Γ [] (.named 53) doc e := by
  refine ⟨.obj [(str "n", .arr [.arr [], .num (str "1")])], ⟨some [], .wrongType .array .number⟩, _, ⟨5, rfl⟩, rfl, ?_⟩
  intro h
  rcases blames_path rfl h with ⟨fd, hf, q, hq, _⟩ | ⟨fd, hf, hn, _⟩ <;> simp only [List.mem_singleton] at hf <;> subst hf
  · exact absurd hq (by show ([] : Str) ≠ (str "n") ++ q; simp [str])
  · exact absurd hn (by decide)

set_option maxRecDepth 200000 in
/-- **C17 does not hold for byte fields**: {"blob":1} fails without a path, as if the object were
wrong. -/
theorem C17_bytes_lose_path : ∃ doc e new, Fills Γ 5 doc (.struct [.nil]) (some e) new ∧ e.path = none ∧
    ¬ Blames Γ [] (.named 5) doc e := by
  refine ⟨.obj [(str "blob", .num (str "1"))], ⟨none, .wrongType .string .number⟩, _, ⟨5, rfl⟩, rfl, ?_⟩
  intro h
  have h := blames_root rfl (by intro fd hf; simp only [holder, List.mem_singleton] at hf; subst hf; decide) h
  generalize hv : JV.obj [(str "blob", JV.num (str "1"))] = v at h
  generalize hc : Cause.wrongType JT.string JT.number = c at h
  generalize ht : ([] : List Str) = tail at h
  cases h with
  | type hw hn =>
    rw [← hv] at hc
    simp [JV.type] at hc
  | foreign hn hd => cases hn; cases hd
  | _ => simp_all

set_option maxRecDepth 200000 in
/-- **C17 does not hold for embedded structs**: {"rev":""} fails with path .rev, with a dot before
the name. -/
theorem C17_embedded_leading_dot : ∃ doc e old new, Fills Γ 3 doc old (some e) new ∧ e.path = some (str ".rev") ∧
    ¬ Blames Γ [] (.named 3) doc e := by
  refine ⟨.obj [(str "rev", .str [])], ⟨some (str ".rev"), .wrongType .number .string⟩, .struct [.struct [.int 0], .nil, .nil], _, ⟨5, rfl⟩, rfl, ?_⟩
  have hne : ∀ q, str ".rev" ≠ str "owner" ++ q ∧ str ".rev" ≠ str "when" ++ q ∧ str ".rev" ≠ str "rev" ++ q := by
    intro q
    simp [str]
  intro h
  rcases blames_path rfl h with ⟨fd, hf, q, hq, hq'⟩ | ⟨fd, hf, hn, h⟩ <;> simp only [doc, List.mem_cons, List.not_mem_nil, or_false] at hf
  · rcases hf with rfl | rfl | rfl
    · rcases hq' with rfl | h
      · exact absurd hq (by decide)
      · exact h rfl
    · exact (hne q).1 hq
    · exact (hne q).2.1 hq
  · rcases hf with rfl | rfl | rfl
    · rcases blames_path rfl h with ⟨fd, hf, q, hq, _⟩ | ⟨fd, hf, hn, _⟩ <;> simp only [base, List.mem_singleton] at hf <;> subst hf
      · exact (hne q).2.2 hq
      · exact absurd hn (by decide)
    · exact absurd hn (by decide)
    · exact absurd hn (by decide)

/-- **C17 does not hold for named strings**: a number given for a `type Name string` fails with the
path (root). -/
theorem C17_named_string_root : ∃ doc e new, Fills Γ 38 doc (.str []) (some e) new ∧ e.path = some (str "(root)") ∧
    ¬ Blames Γ [] (.named 38) doc e := by
  refine ⟨.num (str "1"), ⟨some (str "(root)"), .wrongType .string .number⟩, _, ⟨5, rfl⟩, rfl, ?_⟩
  rintro ⟨place, tail, L', t', v', c', h1, h2, h3⟩
  have hw : ∀ {L t v tail c}, Wrong Γ L t v tail c → (t = .named 38 ∨ t = .prim .string) → tail = [] := by
    intro L t v tail c h ht
    cases h with
    | required hn hd => rcases ht with rfl | rfl <;> cases hn; cases hd
    | twice hn hd => rcases ht with rfl | rfl <;> cases hn; cases hd
    | foreign hn hd => rcases ht with rfl | rfl <;> cases hn; cases hd
    | _ => rfl
  have hr : ∀ {L v place L' t' v'}, LeadsTo Γ L (.prim .string) v place L' t' v' → v = .num (str "1") → place = [] ∧ t' = .prim .string := by
    intro L v place L' t' v' h hv
    generalize ht : TExpr.prim .string = t at h
    cases h with
    | here => exact ⟨rfl, rfl⟩
    | ptr => cases ht
    | name hn => subst ht; cases hn
    | elem => cases hv
    | entry => cases hv
    | field hn => subst ht; cases hn
    | embedded hn => subst ht; cases hn
  have : place ++ tail = [] := by
    generalize hv : JV.num (str "1") = v at h1
    cases h1 with
    | here => rw [hw h2 (Or.inl rfl)]; rfl
    | name hn hd _ h =>
      cases hn
      cases hd
      obtain ⟨rfl, rfl⟩ := hr h hv.symm
      rw [hw h2 (Or.inr rfl)]; rfl
    | elem => cases hv
    | entry => cases hv
    | field hn hd => cases hn; cases hd
    | embedded hn hd => cases hn; cases hd
  rw [this] at h3
  cases h3

end Examples
end VJ
