import Verif.Proof.StructIff

/-!
# Decoding types declared as something other than a struct
-/

namespace VJ
set_option linter.unusedSectionVars false
set_option linter.unusedSimpArgs false

variable [Ext]

theorem methods_fill {Γ : Env} {n k : Nat} {d : Decl} (hd : Γ.decl n = some d) (v : JV) (s : GoVal) :
    (Γ.methods (k + 1) n).fill v s = (genFill Γ k d >>= fun ir => runFill (Γ.methods k) ir v s) := by
  simp [Env.methods, hd, declMethods]

theorem genFill_lift {Γ : Env} {k K : Nat} (hk : k ≤ K) {d : Decl} {ir : FillIR}
    (h : genFill Γ k d = .ok ir) : genFill Γ K d = .ok ir := by
  induction hk with
  | refl => exact h
  | step _ ih => exact (genFill_mono Γ _ d).eq_of_ok ih

/-- generation gives the same code whatever the bound -/
theorem genFill_unique {Γ : Env} {k K : Nat} {d : Decl} {ir ir' : FillIR} (h : genFill Γ k d = .ok ir)
    (h' : genFill Γ K d = .ok ir') : ir = ir' := by
  have a := genFill_lift (Nat.le_max_left k K) h
  have b := genFill_lift (Nat.le_max_right k K) h'
  rw [a] at b; cases b; rfl

/-- a decode of a type, given the code generated for it -/
theorem fills_iff_ir {Γ : Env} {n k : Nat} {d : Decl} {ir : FillIR} (hd : Γ.decl n = some d) (hg : genFill Γ k d = .ok ir)
    {v : JV} {s s' : GoVal} {e : Option Err} :
    Fills Γ n v s e s' ↔ ∃ K, runFill (Γ.methods K) ir v s = .ok (e, s') := by
  constructor
  · rintro ⟨K, h⟩
    cases K with
    | zero => simp [Env.methods, Methods.loop] at h
    | succ K =>
      rw [methods_fill hd] at h
      obtain ⟨ir', h1, h2⟩ := Out.bind_eq_ok.1 h
      rw [genFill_unique h1 hg] at h2
      exact ⟨K, h2⟩
  · rintro ⟨K, h⟩
    refine ⟨max k K + 1, ?_⟩
    rw [methods_fill hd, genFill_lift (Nat.le_max_left k K) hg, Out.ok_bind]
    exact (runFill_mono (fun n => methods_mono Γ (Nat.le_max_right k K) n) ir v s).eq_of_ok h

/-- elements of named collections: what the template and the conversion do -/
theorem elem_sound {Γ : Env} {K k : Nat} {elt : TExpr} {r : TVGen} {path : PathE}
    (hr : typedValue Γ k (Fld.prepare Γ false elt {} false true) path = .ok r) (hns : r.isStarType = false)
    (hke : KeepsErrors Γ (pointee elt)) (hx : ∀ a b c d e g, r.x ≠ .slice a b c d e g)
    {i : Nat} {a : JV} {fld val fld' w : GoVal} (h : runExtr (Γ.methods K) r.x i a fld = .ok (.done (.ok val) fld'))
    (hw : convT (Γ.methods K) (pointee elt) val = .ok w) : DecodesNew Γ [] (pointee elt) a w := by
  have hel := prepare_expr Γ false elt {} false true
  have hhf : (Fld.prepare Γ false elt {} false true).hasField = false := rfl
  have htags : (Fld.prepare Γ false elt {} false true).tags = {} := rfl
  have hrefx := prepare_resolve Γ false elt {} false true
  generalize Fld.prepare Γ false elt {} false true = el at hr hel hhf htags hrefx
  have hS : ExtrSound Γ K el r := extr_sound hr hrefx (hel ▸ hke) hns
  have hnf : r.filled = false := by
    cases hfl : r.filled with
    | false => rfl
    | true => have := (filled_spec hr hfl).1; rw [hhf] at this; cases this
  have hnst : ¬ Stored Γ el.expr := by
    intro hsd
    rcases stored_spec hr hrefx hsd with ⟨⟨a, b, c, d, e, g, hxx⟩, _⟩ | ⟨h, _⟩
    · exact hx _ _ _ _ _ _ hxx
    · rw [hhf] at h; cases h
  rw [← hel] at hw
  have := ((hS i a fld val fld' h).2 hnf w hw).1 hnst
  rw [htags, hel] at this
  exact this

theorem elem_complete {Γ : Env} {k : Nat} {elt : TExpr} {r : TVGen} {path : PathE}
    (hr : typedValue Γ k (Fld.prepare Γ false elt {} false true) path = .ok r) (hns : r.isStarType = false)
    {a : JV} {w : GoVal} (h : DecodesNew Γ [] (pointee elt) a w) (i : Nat) (fld : GoVal) :
    ∃ K val fld', runExtr (Γ.methods K) r.x i a fld = .ok (.done (.ok val) fld') ∧
      convT (Γ.methods K) (pointee elt) val = .ok w := by
  have hel := prepare_expr Γ false elt {} false true
  have hhf : (Fld.prepare Γ false elt {} false true).hasField = false := rfl
  have htags : (Fld.prepare Γ false elt {} false true).tags = {} := rfl
  have hrefx := prepare_resolve Γ false elt {} false true
  generalize Fld.prepare Γ false elt {} false true = el at hr hel hhf htags hrefx
  have hS : ExtrComplete Γ el r := extr_complete hr hrefx hns
  have hnf : r.filled = false := by
    cases hfl : r.filled with
    | false => rfl
    | true => have := (filled_spec hr hfl).1; rw [hhf] at this; cases this
  rw [← hel] at h ⊢
  have h' : DecodesNew Γ el.tags.layout el.expr a w := by rw [htags]; exact h
  exact hS.2 a w h' hnf i fld

/-- the loop of a named list ends well exactly if every element decodes -/
theorem list_iff {Γ : Env} {k : Nat} {elt : TExpr} {r : TVGen} {path : PathE}
    (hr : typedValue Γ k (Fld.prepare Γ false elt {} false true) path = .ok r) (hns : r.isStarType = false)
    (hst : ∀ u, elt ≠ .star u) (hx : ∀ a b c d e g, r.x ≠ .slice a b c d e g)
    {l : List JV} {cells cells' : List GoVal} (hc : cells.length = l.length) :
    ((∃ K n, sliceLoop (listRound (Γ.methods K) elt r.x) 0 l cells = .ok (.fin, n, cells')) → KeepsErrors Γ (pointee elt) →
      cells'.length = l.length ∧
      ∀ (i : Nat) (a : JV) (w : GoVal), l[i]? = some a → cells'[i]? = some w → DecodesNew Γ [] elt a w) ∧
    (cells'.length = l.length →
      (∀ (i : Nat) (a : JV) (w : GoVal), l[i]? = some a → cells'[i]? = some w → DecodesNew Γ [] elt a w) →
      ∃ K, sliceLoop (listRound (Γ.methods K) elt r.x) 0 l cells = .ok (.fin, l.length, cells')) := by
  have hpt : pointee elt = elt := by
    cases elt <;> first | rfl | exact absurd rfl (hst _)
  constructor
  · rintro ⟨K, n, h⟩ hke
    obtain ⟨_, hle, news, hlen, rfl, hnews⟩ := sliceLoop_fin h
    have hdrop : cells.drop l.length = [] := by simp [hc]
    rw [hdrop, List.append_nil]
    refine ⟨hlen, ?_⟩
    intro i a w ha hw
    have hi : i < cells.length := by rw [hc]; exact (List.getElem?_eq_some_iff.1 ha).1
    have := hnews i a _ w ha (List.getElem?_eq_getElem hi) hw
    simp only [listRound] at this
    obtain ⟨tv, h1, h2⟩ := Out.bind_eq_ok.1 this
    cases tv with
    | ret e f => simp at h2
    | done q f =>
      cases q with
      | error e => simp at h2
      | ok val =>
        simp only at h2
        obtain ⟨w', h3, h4⟩ := Out.bind_eq_ok.1 h2
        simp only [Out.pure_eq, Out.ok.injEq, Cell.store.injEq] at h4
        subst h4
        have := elem_sound hr hns hke hx h1 (w := w') (by rw [hpt]; exact h3)
        rw [hpt] at this; exact this
  · intro hlen h
    obtain ⟨K, hK⟩ := sliceLoop_complete (F := fun K => listRound (Γ.methods K) elt r.x)
      (fun K K' i a c hK => listRound_mono (methods_mono Γ hK) elt r.x i a c)
      (l := l) (i := 0) (cells := cells) (news := cells') (by omega) hlen (by
        intro j a c w ha _ hw
        have hd := h j a w ha hw
        rw [← hpt] at hd
        obtain ⟨K, val, fld', h1, h2⟩ := elem_complete hr hns hd (0 + j) .nil
        rw [hpt] at h2
        exact ⟨K, by simp only [listRound, h1, Out.ok_bind, h2, Out.pure_eq]⟩)
    refine ⟨K, ?_⟩
    have hdrop : cells.drop l.length = [] := by simp [hc]
    simpa [hdrop] using hK

/-- byte slices and byte arrays -/
theorem bytesFill_iff {len : Option Nat} {v : JV} {old new : GoVal}
    (hold : match len with | none => True | some n => ∃ b : List UInt8, old = .barr b ∧ b.length = n) :
    bytesFill len v old = .ok (none, new) ↔
      (v = .null ∧ new = old) ∨ ∃ s b, v = .str s ∧ Base64Text s b ∧
        match len with
        | none => new = .bytes b
        | some n => b.length = n ∧ new = .barr b := by
  unfold bytesFill
  cases v with
  | null => simp [JV.isNull, eq_comm]
  | str s =>
    simp only [JV.isNull, Bool.false_eq_true, if_false, JV.getStr]
    cases len with
    | none =>
      simp only
      constructor
      · intro h
        split at h
        · rename_i hb
          simp only [Out.ok.injEq, Prod.mk.injEq, true_and] at h
          subst h
          exact Or.inr ⟨s, _, rfl, base64_decode.2 (Prod.ext rfl hb), rfl⟩
        · simp at h
      · rintro (⟨h, _⟩ | ⟨s', b, h, hb, rfl⟩)
        · cases h
        · cases h
          rw [base64_decode] at hb
          simp [hb]
    | some n =>
      obtain ⟨ob, rfl, hn⟩ := hold
      simp only
      constructor
      · intro h
        split at h
        · cases h
        · rename_i hle
          split at h
          · simp at h
          · rename_i hb
            split at h
            · simp at h
            · rename_i hl
              simp only [ne_eq, Decidable.not_not, Bool.not_eq_true, Bool.not_eq_false] at hb hl
              simp only [Out.ok.injEq, Prod.mk.injEq, true_and] at h
              refine Or.inr ⟨s, (b64Decode s).1, rfl, base64_decode.2 (Prod.ext rfl hb), hl, ?_⟩
              rw [← h, hl, ← hn]; simp
      · rintro (⟨h, _⟩ | ⟨s', b, h, hb, hl, rfl⟩)
        · cases h
        · cases h
          rw [base64_decode] at hb
          simp [hb, hl, ← hn]
  | _ => simp [JV.isNull, JV.getStr]

theorem isCollection_calls {Γ : Env} {t : TExpr} (ht : t.isCollection = true) (n : Nat) : ¬ Calls Γ t n := by
  intro h
  cases h <;> cases ht

theorem stop_err_none {s : Stop} : s.err = none ↔ s = .fin := by cases s <;> simp [Stop.err]

/-- the code generated for a declared type that is not a collection -/
theorem genFill_transit {Γ : Env} {k : Nat} {t : TExpr} {ir : FillIR} (ht : t.isCollection = false)
    (hg : genFill Γ k (.alias t) = .ok ir) :
    (∀ u, t ≠ .star u) ∧ ∃ r, typedValue Γ k (Fld.prepare Γ false t {} true false) (.const (str "(root)")) = .ok r ∧
      r.isStarType = false ∧ ir = .transit t r.x := by
  have key : ∀ t' : TExpr, t = t' → (∀ u, t' ≠ .star u) →
      (typedValue Γ k (Fld.prepare Γ false t' {} true false) (.const (str "(root)")) >>= fun r =>
        if r.isStarType then .unsupp else Out.ok (.transit t' r.x)) = .ok ir →
      (∀ u, t ≠ .star u) ∧ ∃ r, typedValue Γ k (Fld.prepare Γ false t {} true false) (.const (str "(root)")) = .ok r ∧
      r.isStarType = false ∧ ir = .transit t r.x := by
    rintro t' rfl hs h
    refine ⟨hs, ?_⟩
    obtain ⟨r, h1, h2⟩ := Out.bind_eq_ok.1 h
    split at h2
    · cases h2
    · rename_i hn
      simp only [Out.ok.injEq] at h2
      exact ⟨r, h1, by simpa using hn, h2.symm⟩
  cases t with
  | star u => simp [genFill] at hg
  | structT => simp [genFill] at hg
  | slice _ => cases ht
  | array _ _ => cases ht
  | map _ => cases ht
  | prim p => exact key _ rfl (by simp) hg
  | named n => exact key _ rfl (by simp) hg
  | sel n => exact key _ rfl (by simp) hg
  | time => exact key _ rfl (by simp) hg
  | uuid => exact key _ rfl (by simp) hg

theorem calls_not_stored {Γ : Env} {t : TExpr} {n : Nat} (hc : Calls Γ t n) : ¬ Stored Γ t := by
  intro h
  have hf := calls_final hc
  rcases h with ⟨elt, _, hi⟩ | ⟨val, hi⟩ <;>
    rw [is_resolve hi (by simp) (by simp) (by simp)] at hf <;> simp at hf

theorem transit_iff {Γ : Env} {n : Nat} {t : TExpr} (hd : Γ.decl n = some (.alias t)) (hdec : HasDecoder Γ n)
    (ht : t.isCollection = false) {v : JV} {old new : GoVal} :
    (Fills Γ n v old none new → KeepsErrors Γ t → NamedResult Γ t v old new) ∧
    (NamedResult Γ t v old new → Fills Γ n v old none new) := by
  obtain ⟨d, k, ir, hd', hg⟩ := hdec
  rw [hd] at hd'; cases hd'
  have hfi := fun e s' => fills_iff_ir (v := v) (s := old) (e := e) (s' := s') hd hg
  obtain ⟨hst, r, hr, hns, rfl⟩ := genFill_transit ht hg
  have hel : (Fld.prepare Γ false t {} true false).expr = t := by
    rw [prepare_expr]; cases t <;> first | rfl | exact absurd rfl (hst _)
  have hhf : (Fld.prepare Γ false t {} true false).hasField = false := rfl
  have htags : (Fld.prepare Γ false t {} true false).tags = {} := rfl
  have hrefx := prepare_resolve Γ false t {} true false
  generalize Fld.prepare Γ false t {} true false = el at hr hel hhf htags hrefx
  have hnf : r.filled = false := by
    cases hfl : r.filled with
    | false => rfl
    | true => have := (filled_spec hr hfl).1; rw [hhf] at this; cases this
  have hlay : el.tags.layout = [] := by rw [htags]
  rw [hfi]
  constructor
  · rintro ⟨K, h⟩ hke
    simp only [runFill] at h
    obtain ⟨tv, h1, h2⟩ := Out.bind_eq_ok.1 h
    have hS : ExtrSound Γ K el r := extr_sound hr hrefx (by rw [hel]; exact hke) hns
    cases tv with
    | ret e f => simp at h2
    | done q f =>
      cases q with
      | error e => simp at h2
      | ok val =>
        simp only at h2
        obtain ⟨w, h3, h4⟩ := Out.bind_eq_ok.1 h2
        simp only [Out.pure_eq, Out.ok.injEq, Prod.mk.injEq, true_and] at h4
        subst h4
        have := (hS 0 v old val f h1).2 hnf w (by rw [hel]; exact h3)
        rw [hel, hlay] at this
        by_cases hc : ∃ m, Calls Γ t m
        · obtain ⟨m, hc⟩ := hc
          exact .fresh hc (this.1 (calls_not_stored hc))
        · have hc' : ∀ m, ¬ Calls Γ t m := fun m h => hc ⟨m, h⟩
          exact .other ht hc' (this.2 (Or.inr hc'))
  · intro h
    have hC : ExtrComplete Γ el r := extr_complete hr hrefx hns
    have fin : ∀ (K : Nat) (val fld' w : GoVal), runExtr (Γ.methods K) r.x 0 v old = .ok (.done (.ok val) fld') →
        convT (Γ.methods K) t val = .ok w → ∃ K, runFill (Γ.methods K) (.transit t r.x) v old = .ok (none, w) := by
      intro K val fld' w h1 h2
      exact ⟨K, by simp only [runFill, h1, Out.ok_bind, h2, Out.pure_eq]⟩
    cases h with
    | null h => rw [ht] at h; cases h
    | bytes => cases ht
    | fixedBytes => cases ht
    | slice => cases ht
    | array => cases ht
    | map => cases ht
    | fresh hc h =>
      rw [← hlay, ← hel] at h
      obtain ⟨K, val, fld', h1, h2⟩ := hC.2 v new h hnf 0 old
      exact fin K val fld' new h1 (by rw [← hel]; exact h2)
    | other _ hc h =>
      rw [← hlay, ← hel] at h
      obtain ⟨K, val, fld', h1, h2, h3⟩ := hC.1 v old new h (Or.inr (by rw [hel]; exact hc)) 0
      exact fin K val fld' new h1 (by rw [← hel]; exact h3 hnf)

/-- the code generated for a named slice or array -/
theorem genFill_list {Γ : Env} {k : Nat} {elt : TExpr} {len : Option Nat} {ir : FillIR} (hb : elt ≠ .prim .byte)
    (hg : genFill Γ k (.alias (match len with | none => .slice elt | some n => .array n elt)) = .ok ir) :
    (∀ u, elt ≠ .star u) ∧ ∃ r, typedValue Γ k (Fld.prepare Γ false elt {} false true) .index = .ok r ∧
      r.isStarType = false ∧ (∀ a b c d e g, r.x ≠ .slice a b c d e g) ∧ ir = .list len elt r.x := by
  have hb' : elt.isByte = false := by
    cases h : elt.isByte with
    | false => rfl
    | true => exact absurd (isByte_iff.1 h) hb
  have hstar := prepare_isStar Γ false elt {} true
  generalize hel : Fld.prepare Γ false elt {} false true = el at hstar
  cases len
  all_goals
    simp only [genFill, hb', hel, Bool.false_eq_true, if_false] at hg
    split at hg
    · cases hg
    · rename_i hs
      have hst : ∀ u, elt ≠ .star u := by
        rcases hstar with ⟨h, _⟩ | ⟨_, _, h⟩
        · exact absurd h hs
        · exact h
      refine ⟨hst, ?_⟩
      obtain ⟨r, h1, h2⟩ := Out.bind_eq_ok.1 hg
      split at h2
      · cases h2
      · rename_i hn
        refine ⟨r, h1, by simpa using hn, ?_⟩
        generalize r.x = x at h2 ⊢
        cases x <;> simp at h2 ⊢ <;> exact h2.symm

theorem genFill_mapT {Γ : Env} {k : Nat} {val : TExpr} {ir : FillIR} (hg : genFill Γ k (.alias (.map val)) = .ok ir) :
    ∃ r, typedValue Γ k (Fld.prepare Γ false val {} false true) .index = .ok r ∧
      r.isStarType = false ∧ (∀ a b c d e g, r.x ≠ .slice a b c d e g) ∧
      ir = .map (Fld.prepare Γ false val {} false true).isStar (pointee val) r.x := by
  simp only [genFill] at hg
  obtain ⟨r, h1, h2⟩ := Out.bind_eq_ok.1 hg
  refine ⟨r, h1, ?_⟩
  have hel := prepare_expr Γ false val {} false true
  split at h2
  · cases h2
  · rename_i hn
    refine ⟨by simpa using hn, ?_⟩
    rw [← hel]
    generalize Fld.prepare Γ false val {} false true = el at h2 ⊢
    generalize r.x = x at h2 ⊢
    cases x <;> simp only at h2 <;> first
      | (cases h2; done)
      | (cases hs : el.isStar <;> rw [hs] at h2 <;> simp only [if_true, if_false, Bool.false_eq_true] at h2
         · simp only [Out.pure_eq, Out.ok.injEq] at h2; exact ⟨by simp, h2.symm⟩
         · split at h2 <;> first
             | (simp only [Out.pure_eq, Out.ok.injEq] at h2; exact ⟨by simp, h2.symm⟩)
             | cases h2)

theorem array_iff {Γ : Env} {n : Nat} {elt : TExpr} {len : Option Nat} (hb : elt ≠ .prim .byte)
    (hd : Γ.decl n = some (.alias (match len with | none => .slice elt | some n => .array n elt))) (hdec : HasDecoder Γ n)
    {v : JV} {old new : GoVal} (hold : match len with | none => True | some n => ∃ es : List GoVal, old = .arr es ∧ es.length = n) :
    (Fills Γ n v old none new → KeepsErrors Γ (pointee elt) →
      NamedResult Γ (match len with | none => .slice elt | some n => .array n elt) v old new) ∧
    (NamedResult Γ (match len with | none => .slice elt | some n => .array n elt) v old new →
      (len = none → ∃ z, ZeroOf Γ elt z) → Fills Γ n v old none new) := by
  obtain ⟨d, k, ir, hd', hg⟩ := hdec
  rw [hd] at hd'; cases hd'
  have hfi := fun e s' => fills_iff_ir (v := v) (s := old) (e := e) (s' := s') hd hg
  obtain ⟨hst, r, hr, hns, hx, rfl⟩ := genFill_list hb hg
  rw [hfi]
  constructor
  · rintro ⟨K, h⟩ hke
    cases len with
    | none =>
      simp only [runFill] at h
      split at h
      · rename_i hn
        simp only [Out.ok.injEq, Prod.mk.injEq, true_and] at h
        subst h
        cases v <;> first | exact .null rfl | simp [JV.isNull] at hn
      · cases v with
        | arr l =>
          simp only [JV.getArr] at h
          obtain ⟨z, hz, h⟩ := Out.bind_eq_ok.1 h
          obtain ⟨⟨stop, n', cells⟩, h1, h2⟩ := Out.bind_eq_ok.1 h
          simp only [Out.pure_eq, Out.ok.injEq, Prod.mk.injEq] at h2
          obtain ⟨h2, rfl⟩ := h2
          rw [stop_err_none] at h2; subst h2
          obtain ⟨h3, h4⟩ := (list_iff hr hns hst hx (cells := List.replicate l.length z) (by simp)).1 ⟨K, n', h1⟩ hke
          exact .slice hb h3 h4
        | _ => simp [JV.getArr] at h
    | some len =>
      obtain ⟨es, rfl, hes⟩ := hold
      simp only [runFill] at h
      split at h
      · rename_i hn
        simp only [Out.ok.injEq, Prod.mk.injEq, true_and] at h
        subst h
        cases v <;> first | exact .null rfl | simp [JV.isNull] at hn
      · cases v with
        | arr l =>
          simp only [JV.getArr] at h
          split at h
          · simp at h
          · rename_i hl
            have hl : len = l.length := by simpa using hl
            obtain ⟨⟨stop, n', cells⟩, h1, h2⟩ := Out.bind_eq_ok.1 h
            simp only [Out.pure_eq, Out.ok.injEq, Prod.mk.injEq] at h2
            obtain ⟨h2, rfl⟩ := h2
            rw [stop_err_none] at h2; subst h2
            obtain ⟨h3, h4⟩ := (list_iff hr hns hst hx (cells := es) (by omega)).1 ⟨K, n', h1⟩ hke
            exact .array hb hl.symm (by omega) h4
        | _ => simp [JV.getArr] at h
  · intro h hz
    cases len with
    | none =>
      cases h with
      | null => exact ⟨0, by simp [runFill, JV.isNull]⟩
      | bytes => exact absurd rfl hb
      | @slice _ l _ _ _ hlen h =>
        obtain ⟨z, Kz, hz⟩ := hz rfl
        obtain ⟨K, hK⟩ := (list_iff hr hns hst hx (cells := List.replicate l.length z) (by simp)).2 hlen h
        refine ⟨max Kz K, ?_⟩
        have hz' := zeroT_lift (Nat.le_max_left Kz K) hz
        have hK' := (sliceLoop_mono (listRound_mono (fun n => methods_mono Γ (Nat.le_max_right Kz K) n) elt r.x) l 0
          (List.replicate l.length z)).eq_of_ok hK
        simp only [runFill, JV.isNull, JV.getArr, hz', Out.ok_bind, hK', Out.pure_eq, Stop.err, Bool.false_eq_true, if_false]
      | fresh hc => exact absurd hc (isCollection_calls rfl _)
      | other ht => cases ht
    | some len =>
      obtain ⟨es, rfl, hes⟩ := hold
      cases h with
      | null => exact ⟨0, by simp [runFill, JV.isNull]⟩
      | fixedBytes => exact absurd rfl hb
      | @array _ _ l _ _ _ hl hlen h =>
        obtain ⟨K, hK⟩ := (list_iff hr hns hst hx (cells := es) (by omega)).2 (by omega) h
        refine ⟨K, ?_⟩
        simp only [runFill, JV.isNull, JV.getArr, Out.ok_bind, hK, Out.pure_eq, Stop.err, Bool.false_eq_true, if_false]
        rw [if_neg (by omega)]
      | fresh hc => exact absurd hc (isCollection_calls rfl _)
      | other ht => cases ht

theorem map_iff {Γ : Env} {n : Nat} {val : TExpr} (hd : Γ.decl n = some (.alias (.map val))) (hdec : HasDecoder Γ n)
    {v : JV} {old new : GoVal} :
    (Fills Γ n v old none new → KeepsErrors Γ (pointee val) → NamedResult Γ (.map val) v old new) ∧
    (NamedResult Γ (.map val) v old new → Fills Γ n v old none new) := by
  obtain ⟨d, k, ir, hd', hg⟩ := hdec
  rw [hd] at hd'; cases hd'
  have hfi := fun e s' => fills_iff_ir (v := v) (s := old) (e := e) (s' := s') hd hg
  obtain ⟨r, hr, hns, hx, rfl⟩ := genFill_mapT hg
  have hstar := prepare_isStar Γ false val {} true
  rw [hfi]
  constructor
  · rintro ⟨K, h⟩ hke
    simp only [runFill] at h
    split at h
    · rename_i hn
      simp only [Out.ok.injEq, Prod.mk.injEq, true_and] at h
      subst h
      cases v <;> first | exact .null rfl | simp [JV.isNull] at hn
    · cases v with
      | obj kvs =>
        simp only [JV.getObj] at h
        obtain ⟨⟨e, m⟩, hm, h2⟩ := Out.bind_eq_ok.1 h
        simp only [Out.pure_eq, Out.ok.injEq, Prod.mk.injEq] at h2
        obtain ⟨rfl, rfl⟩ := h2
        obtain ⟨news, hlen, rfl, hnews⟩ := mapLoop_ok hm
        refine .map hlen ?_ ?_
        · rintro j key w' ⟨u, rfl⟩ hkv hw'
          rcases hnews j key .null w' hkv hw' with ⟨_, _, h⟩ | ⟨h, _⟩
          · exact h
          · rcases hstar with ⟨hs, _⟩ | ⟨_, _, hs⟩
            · exact absurd ⟨hs, rfl⟩ h
            · exact absurd rfl (hs u)
        · intro j key a w' hkv hw' hnn
          rcases hnews j key a w' hkv hw' with ⟨hs, rfl, _⟩ | ⟨_, w0, fl, w1, h1, h2, h3⟩
          · rcases hstar with ⟨_, h⟩ | ⟨h, _⟩
            · exact absurd rfl (hnn ⟨_, h⟩)
            · rw [h] at hs; cases hs
          · have hd := elem_sound hr hns hke hx h1 h2
            rcases hstar with ⟨hs, h⟩ | ⟨hs, h, _⟩
            · rw [hs] at h3
              simp only [if_true] at h3
              subst h3
              rw [h]
              refine .other ?_ fun _ => .ptr hd
              intro n hc; cases hc
            · rw [hs] at h3
              simp only [Bool.false_eq_true, if_false] at h3
              subst h3
              rw [h]; exact hd
      | _ => simp [JV.getObj] at h
  · intro h
    cases h with
    | null => exact ⟨0, by simp [runFill, JV.isNull]⟩
    | map hlen hnull helem =>
      rename_i kvs news
      obtain ⟨K, hK⟩ := mapLoop_complete (Γ := Γ) (star := (Fld.prepare Γ false val {} false true).isStar)
        (val := pointee val) (x := r.x) (m := []) hlen (by
        intro j key a w hkv hw
        rcases hstar with ⟨hs, ht⟩ | ⟨hs, ht, hns'⟩
        · by_cases ha : a = .null
          · subst ha
            exact Or.inl ⟨hs, rfl, hnull j key w ⟨_, ht⟩ hkv hw⟩
          · right
            refine ⟨fun h => ha h.2, ?_⟩
            have hd := helem j key a w hkv hw (fun _ => ha)
            rw [ht] at hd
            cases hd with
            | call hc => cases hc
            | other _ hd =>
              have := hd .nil
              obtain ⟨w0, rfl, hd2⟩ := decodes_ptr_inv this (is_resolve (.self _) (by simp) (by simp) (by simp))
              obtain ⟨K, val', fld', h1, h2⟩ := elem_complete hr hns hd2 0 .nil
              exact ⟨K, val', fld', _, h1, h2, by simp [hs]⟩
        · right
          refine ⟨by simp [hs], ?_⟩
          have hd := helem j key a w hkv hw (fun ⟨u, hu⟩ => absurd hu (hns' u))
          rw [ht] at hd
          obtain ⟨K, val', fld', h1, h2⟩ := elem_complete hr hns hd 0 .nil
          exact ⟨K, val', fld', _, h1, h2, by simp [hs]⟩)
      refine ⟨K, ?_⟩
      simp only [runFill, JV.isNull, JV.getObj, hK, Out.ok_bind, Out.pure_eq, Bool.false_eq_true, if_false]
    | fresh hc => exact absurd hc (isCollection_calls rfl _)
    | other ht => cases ht

/-- **What the decoder of a declared type does**, given the declaration alone. -/
theorem named_iff {Γ : Env} {n : Nat} {t : TExpr} (hd : Γ.decl n = some (.alias t)) (hdec : HasDecoder Γ n)
    {v : JV} {old new : GoVal} (hold : FixedSize t old) :
    (Fills Γ n v old none new → NamedKeepsErrors Γ t → NamedResult Γ t v old new) ∧
    (NamedResult Γ t v old new → (∀ elt, t = .slice elt → ∃ z, ZeroOf Γ elt z) → Fills Γ n v old none new) := by
  cases t with
  | slice elt =>
    by_cases hb : elt = .prim .byte
    · subst hb
      obtain ⟨d, k, ir, hd', hg⟩ := hdec
      rw [hd] at hd'; cases hd'
      have hfi := fills_iff_ir (v := v) (s := old) (e := none) (s' := new) hd hg
      have : ir = .bytes none := by simpa [genFill, TExpr.isByte, eq_comm] using hg
      subst this
      rw [hfi]
      simp only [runFill, bytesFill_iff (len := none) trivial]
      constructor
      · rintro ⟨_, ⟨rfl, rfl⟩ | ⟨s, b, rfl, hb, rfl⟩⟩ _
        · exact .null rfl
        · exact .bytes hb
      · intro h _
        cases h with
        | null => exact ⟨0, Or.inl ⟨rfl, rfl⟩⟩
        | bytes h => exact ⟨0, Or.inr ⟨_, _, rfl, h, rfl⟩⟩
        | slice hb => exact absurd rfl hb
        | fresh hc => exact absurd hc (isCollection_calls rfl _)
        | other ht => cases ht
    · obtain ⟨h1, h2⟩ := array_iff (len := none) (v := v) (old := old) (new := new) hb hd hdec trivial
      exact ⟨h1, fun h hz => h2 h fun _ => hz _ rfl⟩
  | array len elt =>
    by_cases hb : elt = .prim .byte
    · subst hb
      obtain ⟨d, k, ir, hd', hg⟩ := hdec
      rw [hd] at hd'; cases hd'
      have hfi := fills_iff_ir (v := v) (s := old) (e := none) (s' := new) hd hg
      have : ir = .bytes (some len) := by simpa [genFill, TExpr.isByte, eq_comm] using hg
      subst this
      have hold' : ∃ b : List UInt8, old = .barr b ∧ b.length = len := by simpa [FixedSize] using hold
      rw [hfi]
      simp only [runFill, bytesFill_iff (len := some len) hold']
      constructor
      · rintro ⟨_, ⟨rfl, rfl⟩ | ⟨s, b, rfl, hb, hl, rfl⟩⟩ _
        · exact .null rfl
        · exact .fixedBytes hb hl
      · intro h _
        cases h with
        | null => exact ⟨0, Or.inl ⟨rfl, rfl⟩⟩
        | fixedBytes h hl => exact ⟨0, Or.inr ⟨_, _, rfl, h, hl, rfl⟩⟩
        | array hb => exact absurd rfl hb
        | fresh hc => exact absurd hc (isCollection_calls rfl _)
        | other ht => cases ht
    · have hold' : ∃ es : List GoVal, old = .arr es ∧ es.length = len := by simpa [FixedSize, hb] using hold
      obtain ⟨h1, h2⟩ := array_iff (len := some len) (v := v) (old := old) (new := new) hb hd hdec hold'
      exact ⟨h1, fun h _ => h2 h fun h => by cases h⟩
  | map val =>
    obtain ⟨h1, h2⟩ := map_iff (v := v) (old := old) (new := new) hd hdec
    exact ⟨h1, fun h _ => h2 h⟩
  | star u =>
    obtain ⟨h1, h2⟩ := transit_iff (v := v) (old := old) (new := new) hd hdec rfl
    exact ⟨h1, fun h _ => h2 h⟩
  | prim p =>
    obtain ⟨h1, h2⟩ := transit_iff (v := v) (old := old) (new := new) hd hdec rfl
    exact ⟨h1, fun h _ => h2 h⟩
  | named p =>
    obtain ⟨h1, h2⟩ := transit_iff (v := v) (old := old) (new := new) hd hdec rfl
    exact ⟨h1, fun h _ => h2 h⟩
  | sel p =>
    obtain ⟨h1, h2⟩ := transit_iff (v := v) (old := old) (new := new) hd hdec rfl
    exact ⟨h1, fun h _ => h2 h⟩
  | time =>
    obtain ⟨h1, h2⟩ := transit_iff (v := v) (old := old) (new := new) hd hdec rfl
    exact ⟨h1, fun h _ => h2 h⟩
  | uuid =>
    obtain ⟨h1, h2⟩ := transit_iff (v := v) (old := old) (new := new) hd hdec rfl
    exact ⟨h1, fun h _ => h2 h⟩
  | structT =>
    obtain ⟨h1, h2⟩ := transit_iff (v := v) (old := old) (new := new) hd hdec rfl
    exact ⟨h1, fun h _ => h2 h⟩

end VJ
