import Verif.Proof.AsNew
import Verif.Spec.Repeat

/-!
# Decoding the same document again: proofs
-/

namespace VJ
set_option linter.unusedSectionVars false

/-! ### maps -/

theorem mapSet_twice (k : Str) (v w : GoVal) : ∀ m, mapSet k v (mapSet k w m) = mapSet k v m
  | [] => by simp [mapSet]
  | (a, b) :: m => by
    by_cases h : a = k
    · simp [mapSet, h]
    · simp [mapSet, h, mapSet_twice k v w m]

theorem mapSet_comm {k k' : Str} (hk : k ≠ k') (v v' : GoVal) : ∀ m, k ∈ m.map (·.1) →
    mapSet k v (mapSet k' v' m) = mapSet k' v' (mapSet k v m)
  | [], h => by simp at h
  | (a, b) :: m, h => by
    by_cases h1 : a = k
    · subst h1
      simp [mapSet, hk]
    · by_cases h2 : a = k'
      · subst h2
        simp [mapSet, h1]
      · simp only [mapSet, h1, h2, if_false]
        rw [mapSet_comm hk v v' m ?_]
        rw [List.map_cons, List.mem_cons] at h
        exact h.resolve_left fun h => h1 h.symm

theorem mem_mapSet (k : Str) (v : GoVal) : ∀ m, k ∈ (mapSet k v m).map (·.1)
  | [] => by simp [mapSet]
  | (a, b) :: m => by
    by_cases h : a = k
    · simp [mapSet, h]
    · simp only [mapSet, h, if_false, List.map_cons, List.mem_cons]
      exact Or.inr (mem_mapSet k v m)

theorem mem_mapSet_of {a k : Str} {v : GoVal} : ∀ {m}, a ∈ m.map (·.1) → a ∈ (mapSet k v m).map (·.1)
  | [], h => by simp at h
  | (b, w) :: m, h => by
    by_cases hb : b = k
    · simpa [mapSet, hb] using h
    · simp only [mapSet, hb, if_false, List.map_cons, List.mem_cons] at h ⊢
      rcases h with h | h
      · exact Or.inl h
      · exact Or.inr (mem_mapSet_of h)

theorem mem_setAll_of {a : Str} : ∀ {l m}, a ∈ m.map (·.1) → a ∈ (setAll m l).map (·.1)
  | [], _, h => h
  | (k, v) :: l, m, h => mem_setAll_of (l := l) (m := mapSet k v m) (mem_mapSet_of h)

theorem mem_setAll {a : Str × GoVal} : ∀ {l m}, a ∈ l → a.1 ∈ (setAll m l).map (·.1)
  | (k, v) :: l, m, h => by
    rcases List.mem_cons.1 h with rfl | h
    · exact mem_setAll_of (l := l) (m := mapSet k v m) (mem_mapSet k v m)
    · exact mem_setAll (l := l) (m := mapSet k v m) h

theorem setAll_over (k : Str) (v w : GoVal) : ∀ l m, (∀ a ∈ l, a.1 ∈ m.map (·.1)) →
    mapSet k v (setAll (mapSet k w m) l) = mapSet k v (setAll m l)
  | [], m, _ => mapSet_twice k v w m
  | (a, b) :: l, m, h => by
    show mapSet k v (setAll (mapSet a b (mapSet k w m)) l) = mapSet k v (setAll (mapSet a b m) l)
    by_cases ha : a = k
    · subst ha; rw [mapSet_twice]
    · rw [mapSet_comm ha b w m (h (a, b) (by simp))]
      exact setAll_over k v w l _ fun x hx => mem_mapSet_of (h x (by simp [hx]))

theorem setAll_append (m l l' : List (Str × GoVal)) : setAll m (l ++ l') = setAll (setAll m l) l' := by
  simp [setAll, List.foldl_append]

/-- the same assignments once more change nothing -/
theorem setAll_again (m : List (Str × GoVal)) (l : List (Str × GoVal)) : setAll (setAll m l) l = setAll m l := by
  have key : ∀ r : List (Str × GoVal), setAll (setAll m r.reverse) r.reverse = setAll m r.reverse := by
    intro r
    induction r with
    | nil => rfl
    | cons a r ih =>
      obtain ⟨k, v⟩ := a
      rw [List.reverse_cons, setAll_append, setAll_append]
      show mapSet k v (setAll (mapSet k v (setAll m r.reverse)) r.reverse) = mapSet k v (setAll m r.reverse)
      rw [setAll_over k v v r.reverse _ fun a ha => mem_setAll ha, ih]
  simpa using key l.reverse

section
variable [Ext] {Γ : Env} {S : Nat → Prop}

theorem mapLoop_again {M : Nat → Methods} {star : Bool} {val : TExpr} {x : JV → Out TV} : ∀ {kvs : List (Str × JV)} {m m' : List (Str × GoVal)}
    {e : Option Err}, mapLoop M star val x kvs m = .ok (e, m') →
    ∃ l, m' = setAll m l ∧ ∀ m2, mapLoop M star val x kvs m2 = .ok (e, setAll m2 l)
  | [], m, m', e, h => by
    simp only [mapLoop, Out.ok.injEq, Prod.mk.injEq] at h
    obtain ⟨rfl, rfl⟩ := h
    exact ⟨[], rfl, fun m2 => rfl⟩
  | (key, v) :: rest, m, m', e, h => by
    simp only [mapLoop] at h ⊢
    split at h
    · rename_i hs
      obtain ⟨l, h1, h2⟩ := mapLoop_again h
      refine ⟨(key, .nil) :: l, h1, fun m2 => ?_⟩
      rw [if_pos hs, h2]
      rfl
    · rename_i hs
      obtain ⟨tv, h1, h2⟩ := Out.bind_eq_ok.1 h
      cases tv with
      | ret _ _ => cases h2
      | done r c =>
        cases r with
        | error e' =>
          simp only [Out.pure_eq, Out.ok.injEq, Prod.mk.injEq] at h2
          obtain ⟨rfl, rfl⟩ := h2
          exact ⟨[], rfl, fun m2 => by rw [if_neg hs, h1]; rfl⟩
        | ok w =>
          simp only at h2
          obtain ⟨w', h3, h4⟩ := Out.bind_eq_ok.1 h2
          obtain ⟨l, h5, h6⟩ := mapLoop_again h4
          refine ⟨(key, if star then .ptr w' else w') :: l, h5, fun m2 => ?_⟩
          rw [if_neg hs, h1]
          simp only [Out.ok_bind, h3, h6]
          rfl

theorem mapLoop_idem {M : Nat → Methods} {star : Bool} {val : TExpr} {x : JV → Out TV} {kvs : List (Str × JV)} {m m' : List (Str × GoVal)}
    {e : Option Err} (h : mapLoop M star val x kvs m = .ok (e, m')) : mapLoop M star val x kvs m' = .ok (e, m') := by
  obtain ⟨l, rfl, h2⟩ := mapLoop_again h
  rw [h2, setAll_again]

/-! ### loops -/

theorem sliceLoop_idem {f : Nat → JV → GoVal → Out Cell} {d : Bool}
    (hs : ∀ i a c w, f i a c = .ok (.store w) → f i a w = .ok (.store w))
    (hb : d = true → ∀ i a c e w, f i a c = .ok (.brk e w) → f i a w = .ok (.brk e w)) :
    ∀ {l : List JV} {i n : Nat} {cells cells' : List GoVal} {stop : Stop}, sliceLoop f i l cells = .ok (stop, n, cells') →
      (stop = .fin ∨ (d = true ∧ ∃ e, stop = .brk e)) → sliceLoop f i l cells' = .ok (stop, n, cells') ∧ cells'.length = cells.length
  | [], i, n, cells, cells', stop, h, _ => by
    simp only [sliceLoop, Out.ok.injEq, Prod.mk.injEq] at h ⊢
    obtain ⟨rfl, rfl, rfl⟩ := h
    exact ⟨by simp, rfl⟩
  | a :: as, i, n, [], cells', stop, h, _ => by cases h
  | a :: as, i, n, c :: cs, cells', stop, h, hst => by
    simp only [sliceLoop] at h
    obtain ⟨cell, h1, h2⟩ := Out.bind_eq_ok.1 h
    cases cell with
    | store w =>
      simp only at h2
      obtain ⟨⟨s, n', cs'⟩, h3, h4⟩ := Out.bind_eq_ok.1 h2
      simp only [Out.pure_eq, Out.ok.injEq, Prod.mk.injEq] at h4
      obtain ⟨rfl, rfl, rfl⟩ := h4
      obtain ⟨h5, h6⟩ := sliceLoop_idem hs hb h3 hst
      simp only [sliceLoop, hs _ _ _ _ h1, Out.ok_bind, h5]
      exact ⟨rfl, by simp [h6]⟩
    | ret e w =>
      simp only [Out.pure_eq, Out.ok.injEq, Prod.mk.injEq] at h2
      obtain ⟨rfl, rfl, rfl⟩ := h2
      rcases hst with hst | ⟨_, _, hst⟩ <;> cases hst
    | brk e w =>
      simp only [Out.pure_eq, Out.ok.injEq, Prod.mk.injEq] at h2
      obtain ⟨rfl, rfl, rfl⟩ := h2
      rcases hst with hst | ⟨hd, _, _⟩
      · cases hst
      · simp only [sliceLoop, hb hd _ _ _ _ _ h1, Out.ok_bind]
        exact ⟨rfl, rfl⟩

/-! ### templates -/

/-- what is known of the methods at this depth of calls -/
def CallsRepeat (Γ : Env) (S : Nat → Prop) (k : Nat) : Prop :=
  ∀ n v s s', S n → (Γ.methods k n).fill v s = .ok (none, s') → (Γ.methods k n).fill v s' = .ok (none, s')

/-- a template that does not look at the place gives the same in another place, and leaves it alone -/
theorem runExtr_else {M : Nat → Methods} {x : Extr} (hx : x.usesPlace = false) {i : Nat} {v : JV} {c c' : GoVal} {r : Except Err GoVal}
    (h : runExtr M x i v c = .ok (.done r c')) (w : GoVal) : c' = c ∧ runExtr M x i v w = .ok (.done r w) := by
  cases x with
  | nestedInPlace | slice | map => cases hx
  | int | uint | float | bool | strUnchecked =>
    simp only [runExtr, Out.ok.injEq, TV.done.injEq] at h ⊢
    exact ⟨h.2.symm, h.1, trivial⟩
  | strChecked path =>
    simp only [runExtr] at h ⊢
    cases hg : v.getStr with
    | ok s => rw [hg] at h; simp only [Out.ok.injEq, TV.done.injEq] at h ⊢; exact ⟨h.2.symm, h.1, trivial⟩
    | error c => rw [hg] at h; simp at h
  | time json layout =>
    simp only [runExtr] at h ⊢
    cases hg : v.getStr with
    | ok s => rw [hg] at h; simp only [Out.ok.injEq, TV.done.injEq] at h ⊢; exact ⟨h.2.symm, h.1, trivial⟩
    | error c => rw [hg] at h; simp at h
  | uuid json =>
    simp only [runExtr] at h ⊢
    cases hg : v.getStr with
    | ok s => rw [hg] at h; simp only [Out.ok.injEq, TV.done.injEq] at h ⊢; exact ⟨h.2.symm, h.1, trivial⟩
    | error c => rw [hg] at h; simp at h
  | nestedFresh t =>
    simp only [runExtr] at h ⊢
    obtain ⟨z, h1, h2⟩ := Out.bind_eq_ok.1 h
    obtain ⟨⟨e, y⟩, h3, h4⟩ := Out.bind_eq_ok.1 h2
    simp only [Out.pure_eq, Out.ok.injEq, TV.done.injEq] at h4
    simp only [h1, h3, Out.ok_bind, Out.pure_eq, Out.ok.injEq, TV.done.injEq]
    exact ⟨h4.2.symm, h4.1, trivial⟩
  | bytes len =>
    simp only [runExtr] at h ⊢
    obtain ⟨⟨e, d⟩, h3, h4⟩ := Out.bind_eq_ok.1 h
    simp only [h3, Out.ok_bind]
    cases e with
    | some e => simp at h4
    | none =>
      simp only [Out.pure_eq, Out.ok.injEq, TV.done.injEq] at h4 ⊢
      exact ⟨h4.2.symm, h4.1, trivial⟩
  | array json len elt x brk st =>
    simp only [runExtr] at h ⊢
    cases hg : v.getArr with
    | error c => rw [hg] at h; simp at h
    | ok l =>
      rw [hg] at h
      simp only at h ⊢
      split at h
      · simp at h
      · rename_i hl
        rw [if_neg hl]
        obtain ⟨z, h1, h2⟩ := Out.bind_eq_ok.1 h
        obtain ⟨⟨stop, n, cells⟩, h3, h4⟩ := Out.bind_eq_ok.1 h2
        simp only [h1, h3, Out.ok_bind]
        cases stop with
        | fin =>
          simp only [Out.pure_eq, Out.ok.injEq, TV.done.injEq] at h4 ⊢
          exact ⟨h4.2.symm, h4.1, trivial⟩
        | ret e => simp at h4
        | brk e =>
          simp only at h4 ⊢
          split at h4
          · rename_i hd
            rw [if_pos hd]
            simp only [Out.pure_eq, Out.ok.injEq, TV.done.injEq] at h4 ⊢
            exact ⟨h4.2.symm, h4.1, trivial⟩
          · rename_i hd
            rw [if_neg hd]
            simp only [Out.pure_eq, Out.ok.injEq, TV.done.injEq] at h4 ⊢
            exact ⟨h4.2.symm, h4.1, trivial⟩

theorem RepeatSet.alias (hP : RepeatSet Γ S) {n : Nat} {t : TExpr} (hn : S n) (hd : Γ.decl n = some (.alias t)) : Good S t :=
  ⟨fun m hm => hP.closed n _ t m hn hd (by simp [Decl.types]) hm, hP.noAnon n _ t hn hd (by simp [Decl.types])⟩

theorem RepeatSet.field (hP : RepeatSet Γ S) {n : Nat} {strict : Bool} {fields : List FieldDecl} {fd : FieldDecl} (hn : S n)
    (hd : Γ.decl n = some (.struct strict fields)) (hf : fd ∈ fields) : Good S fd.typ :=
  ⟨fun m hm => hP.closed n _ fd.typ m hn hd (by simp only [Decl.types, List.mem_map]; exact ⟨fd, hf, rfl⟩) hm,
    hP.noAnon n _ fd.typ hn hd (by simp only [Decl.types, List.mem_map]; exact ⟨fd, hf, rfl⟩)⟩

theorem RepeatSet.is (hP : RepeatSet Γ S) {t u : TExpr} (h : Good S t) (hi : Is Γ t u) : Good S u := by
  cases hi with
  | self => exact h
  | named hd => exact hP.alias (h.name (.named _)) hd

/-- a value, or the error met on the way -/
def outcome (w : GoVal) : Option Err → Except Err GoVal
  | none => .ok w
  | some e => .error e

/-- where a template leaves its result -/
def Kept (M : Nat → Methods) (t : TExpr) (b : Bool) (val c' w : GoVal) : Prop :=
  if b then w = c' else convT M t val = .ok w

theorem extr_again (hP : RepeatSet Γ S) {f : Fld} {path : PathE} {x : Extr} {b : Bool} (h : Plan Γ f path x b) (hg : Good S f.expr)
    {k : Nat} (hk : CallsRepeat Γ S k) (i : Nat) (v : JV) (c : GoVal) :
    (∀ val c' w, runExtr (Γ.methods k) x i v c = .ok (.done (.ok val) c') → Kept (Γ.methods k) f.expr b val c' w →
      ∃ w', runExtr (Γ.methods k) x i v w = .ok (.done (.ok val) w') ∧ (b = true → w' = w)) ∧
    (x.declaresErr = true → ∀ e c', runExtr (Γ.methods k) x i v c = .ok (.done (.error e) c') →
      runExtr (Γ.methods k) x i v c' = .ok (.done (.error e) c')) := by
  have noPlace : ∀ {x : Extr} {i : Nat} {v : JV} {c : GoVal} {t : TExpr}, x.usesPlace = false →
      (∀ val c' w, runExtr (Γ.methods k) x i v c = .ok (.done (.ok val) c') → Kept (Γ.methods k) t false val c' w →
        ∃ w', runExtr (Γ.methods k) x i v w = .ok (.done (.ok val) w') ∧ (false = true → w' = w)) ∧
      (x.declaresErr = true → ∀ e c', runExtr (Γ.methods k) x i v c = .ok (.done (.error e) c') →
        runExtr (Γ.methods k) x i v c' = .ok (.done (.error e) c')) := by
    intro x i v c t hx
    refine ⟨fun val c' w h _ => ⟨w, (runExtr_else hx h w).2, fun h => by cases h⟩, fun _ e c' h => (runExtr_else hx h c').2⟩
  induction h generalizing c i v with
  | prim h hx => exact noPlace (Plan.noPlace.prim_noPlace hx)
  | fresh h hf => exact noPlace rfl
  | @inPlace f path n h hf =>
    have hn := pointee_nameOf h
    have he : ∀ s, fillT (Γ.methods k) f.expr v s = (Γ.methods k n).fill v s := by
      intro s
      generalize f.expr = e at hn
      cases hn <;> rfl
    simp only [runExtr, he]
    refine ⟨fun val c' w h hw => ?_, fun h => by cases h⟩
    obtain ⟨⟨e, y⟩, h1, h2⟩ := Out.bind_eq_ok.1 h
    simp only [Out.pure_eq, Out.ok.injEq, TV.done.injEq] at h2
    cases e with
    | some e => simp at h2
    | none =>
      simp only [Except.ok.injEq] at h2
      obtain ⟨rfl, rfl⟩ := h2
      have hw : w = y := hw
      subst hw
      refine ⟨w, ?_, fun _ => rfl⟩
      rw [hk n v c w (hg.name hn) h1]
      rfl
  | anon h => have := hg.noAnon; rw [h] at this; cases this
  | time | uuid | bytes | fixedBytes | array => exact noPlace rfl
  | @slice f path elt x b h hb ha hf hx ih =>
    have hgs : Good S elt := (hP.is hg h).slice
    have hpe : (Fld.prepare Γ true elt {} false false).expr = pointee elt := prepare_expr ..
    have hstar : (∃ u, elt = .star u) → x.usesPlace = false := by
      rintro ⟨u, rfl⟩
      exact hx.star_noPlace (by rw [hpe]; exact hgs.pointee.noAnon) rfl rfl
    refine ⟨fun val c' w h1 hw => ?_, fun h => by cases h⟩
    have hw : w = val := convT_is h (by simp) (by simp) (by simp) hw
    subst hw
    simp only [runExtr] at h1 ⊢
    cases hga : v.getArr with
    | error c => rw [hga] at h1; simp at h1
    | ok l =>
      rw [hga] at h1
      simp only at h1 ⊢
      obtain ⟨z, h2, h3⟩ := Out.bind_eq_ok.1 h1
      obtain ⟨⟨g, cells⟩, h4, h5⟩ := Out.bind_eq_ok.1 h3
      obtain ⟨⟨stop, n, cells'⟩, h6, h7⟩ := Out.bind_eq_ok.1 h5
      have hround : ∀ i a c cell, elemRound (Γ.methods k) elt.nullLike (pointee elt != .prim .string) (elemStore elt b) (runExtr (Γ.methods k) x) i a c = .ok cell →
          (∀ w, cell = .store w → elemRound (Γ.methods k) elt.nullLike (pointee elt != .prim .string) (elemStore elt b) (runExtr (Γ.methods k) x) i a w = .ok cell) ∧
          (x.declaresErr = true → ∀ e w, cell = .brk e w →
            elemRound (Γ.methods k) elt.nullLike (pointee elt != .prim .string) (elemStore elt b) (runExtr (Γ.methods k) x) i a w = .ok cell) := by
        intro i a c cell hc
        simp only [elemRound] at hc ⊢
        split at hc
        · rename_i hn
          simp only [hn, if_true]
          exact ⟨fun w _ => hc, fun _ e w _ => hc⟩
        · rename_i hn
          simp only [hn]
          obtain ⟨tv, q1, q2⟩ := Out.bind_eq_ok.1 hc
          cases tv with
          | ret e c' =>
            simp only [Out.pure_eq, Out.ok.injEq] at q2
            subst q2
            exact ⟨(fun w h => by cases h), (fun _ e w h => by cases h)⟩
          | done r c' =>
            cases r with
            | error e =>
              simp only at q2
              split at q2
              · rename_i hbr
                simp only [Out.pure_eq, Out.ok.injEq] at q2
                subst q2
                refine ⟨(fun w h => by cases h), fun hd e' w h => ?_⟩
                cases h
                simp only [Bool.false_eq_true, if_false, (ih (by rw [hpe]; exact hgs.pointee) i a c).2 hd _ _ q1, Out.ok_bind, hbr, if_true]
                rfl
              · cases q2
            | ok val =>
              simp only at q2
              obtain ⟨w, q3, q4⟩ := Out.bind_eq_ok.1 q2
              simp only [Out.pure_eq, Out.ok.injEq] at q4
              subst q4
              refine ⟨fun w' h => ?_, fun _ e w h => by cases h⟩
              cases h
              cases hu : x.usesPlace with
              | false =>
                have hbf : b = false := by
                  cases b with
                  | false => rfl
                  | true => rw [hx.filled (by rw [hpe]; exact hgs.pointee.noAnon)] at hu; cases hu
                subst hbf
                simp only [Bool.false_eq_true, if_false, (runExtr_else hu q1 w).2, Out.ok_bind]
                have : storeElem (Γ.methods k) (elemStore elt false) val w = storeElem (Γ.methods k) (elemStore elt false) val c' := by
                  cases elt <;> rfl
                rw [this, q3]
                rfl
              | true =>
                have hes : elemStore elt b = if b then .filled else .val elt := by
                  cases elt with
                  | star u => rw [hstar ⟨u, rfl⟩] at hu; cases hu
                  | _ => rfl
                have hpt : pointee elt = elt := by
                  cases elt with
                  | star u => rw [hstar ⟨u, rfl⟩] at hu; cases hu
                  | _ => rfl
                rw [hes] at q3 ⊢
                have hkept : Kept (Γ.methods k) (Fld.prepare Γ true elt {} false false).expr b val c' w := by
                  rw [hpe, hpt]
                  cases b with
                  | true => simp only [storeElem, if_true, Out.ok.injEq] at q3; exact q3.symm
                  | false => exact q3
                obtain ⟨w', q5, q6⟩ := (ih (by rw [hpe]; exact hgs.pointee) i a c).1 val c' w q1 hkept
                simp only [Bool.false_eq_true, if_false, q5, Out.ok_bind]
                cases b with
                | true => rw [q6 rfl]; rfl
                | false =>
                  simp only [storeElem, Bool.false_eq_true, if_false] at q3 ⊢
                  rw [q3]
                  rfl
      have hlen : l.length ≤ cells.length := by
        cases c <;> simp only [sliceCells] at h4
        all_goals first
          | cases h4; simp
          | (split at h4 <;> cases h4 <;> simp; omega)
          | cases h4
      have fin : (stop = .fin ∨ (x.declaresErr = true ∧ ∃ e, stop = .brk e)) → w = mkSlice n cells' →
          sliceLoop (elemRound (Γ.methods k) elt.nullLike (pointee elt != .prim .string) (elemStore elt b) (runExtr (Γ.methods k) x)) 0 l cells' = .ok (stop, n, cells') ∧
          sliceCells l.length z w = .ok (false, cells') := by
        intro hst hwv
        obtain ⟨h8, h9⟩ := sliceLoop_idem (d := x.declaresErr) (fun i a c w h => (hround i a c _ h).1 w rfl) (fun hd i a c e w h => (hround i a c _ h).2 hd e w rfl) h6 hst
        have h9 : cells'.length = cells.length := h9
        refine ⟨h8, ?_⟩
        subst hwv
        simp only [mkSlice, sliceCells]
        rw [if_neg (by rw [← List.length_append, List.take_append_drop]; omega), List.take_append_drop]
      cases stop with
      | fin =>
        simp only [Out.pure_eq, Out.ok.injEq, TV.done.injEq, Except.ok.injEq] at h7
        obtain ⟨f1, f2⟩ := fin (Or.inl rfl) h7.1.symm
        simp only [h2, Out.ok_bind, f2, f1, Out.pure_eq, h7.1]
        exact ⟨_, rfl, fun h => by cases h⟩
      | ret e => simp at h7
      | brk e =>
        simp only at h7
        split at h7
        · rename_i hd
          simp only [Out.pure_eq, Out.ok.injEq, TV.done.injEq, Except.ok.injEq] at h7
          obtain ⟨f1, f2⟩ := fin (Or.inr ⟨hd, _, rfl⟩) h7.1.symm
          simp only [h2, Out.ok_bind, f2, f1, Out.pure_eq, h7.1, hd, if_true]
          exact ⟨_, rfl, fun h => by cases h⟩
        · simp at h7
  | @map f path val x b h hf hs hx ih =>
    have key : ∀ {c c' : GoVal} {r : Except Err GoVal}, runExtr (Γ.methods k) (.map f.tags.jsonName (val != pointee val) (pointee val) x) i v c = .ok (.done r c') →
        ∃ (m : List (Str × GoVal)) (e : Option Err) (kvs : List (Str × JV)), v.getObj = .ok kvs ∧
          mapLoop (Γ.methods k) (val != pointee val) (pointee val) (fun v => runExtr (Γ.methods k) x 0 v .nil) kvs m = .ok (e, m) ∧
          r = outcome (.map m) e ∧ (c' = .map m ∨ (c' = .nil ∧ c = .nil)) := by
      intro c c' r h1
      simp only [runExtr] at h1
      cases hgo : v.getObj with
      | error e => rw [hgo] at h1; simp at h1
      | ok kvs =>
        rw [hgo] at h1
        simp only at h1
        obtain ⟨m0, h2, h3⟩ := Out.bind_eq_ok.1 h1
        obtain ⟨⟨e, m⟩, h4, h5⟩ := Out.bind_eq_ok.1 h3
        refine ⟨m, e, kvs, rfl, mapLoop_idem h4, ?_⟩
        have hc' : (if m0.2 = true then c else GoVal.map m) = c' ∧ r = outcome (.map m) e := by
          cases e with
          | none => simp only [Out.pure_eq, Out.ok.injEq, TV.done.injEq] at h5; exact ⟨h5.2, h5.1.symm⟩
          | some e => simp only [Out.pure_eq, Out.ok.injEq, TV.done.injEq] at h5; exact ⟨h5.2, h5.1.symm⟩
        refine ⟨hc'.2, ?_⟩
        rw [← hc'.1]
        cases c with
        | nil => cases h2; exact Or.inr ⟨rfl, rfl⟩
        | map m1 => cases h2; exact Or.inl rfl
        | _ => cases h2
    constructor
    · intro val' c' w h1 hw
      have hw : w = val' := convT_is h (by simp) (by simp) (by simp) hw
      subst hw
      obtain ⟨m, e, kvs, hgo, h2, h3, _⟩ := key h1
      cases e with
      | some e => cases h3
      | none =>
        cases h3
        refine ⟨.map m, ?_, fun h => by cases h⟩
        simp only [runExtr, hgo, Out.ok_bind, h2]
        rfl
    · intro _ e c' h1
      obtain ⟨m, e', kvs, hgo, h2, h3, h4⟩ := key h1
      cases e' with
      | none => cases h3
      | some e' =>
        cases h3
        rcases h4 with rfl | ⟨rfl, rfl⟩
        · simp only [runExtr, hgo, Out.ok_bind, h2]
          rfl
        · exact h1

/-! ### fields -/

theorem field_again (hP : RepeatSet Γ S) {kg : Nat} {fd : FieldDecl} {f : FieldFill} (hgen : genFieldFill Γ kg fd = .ok (some f))
    (hg : Good S fd.typ) {k : Nat} (hk : CallsRepeat Γ S k) {v : JV} {c w : GoVal}
    (h : runField (Γ.methods k) f v c = .ok (none, w)) : runField (Γ.methods k) f v w = .ok (none, w) := by
  have hpe : (Fld.prepare Γ true fd.typ fd.tags false false).expr = pointee fd.typ := prepare_expr ..
  have hrun : ∀ a val c', runExtr (Γ.methods k) f.x 0 a c = .ok (.done (.ok val) c') → storeField (Γ.methods k) f.store val c' = .ok w →
      ∃ w', runExtr (Γ.methods k) f.x 0 a w = .ok (.done (.ok val) w') ∧ storeField (Γ.methods k) f.store val w' = .ok w := by
    intro a val c' h1 h2
    have hp := field_plan hgen
    generalize f.x = x at hp h1
    generalize f.store = st at hp h2
    cases hp with
    | ptr ht h =>
      have hu : x.usesPlace = false := by
        refine h.star_noPlace (by rw [hpe]; exact hg.pointee.noAnon) ?_ rfl
        rw [prepare_isStar_eq, star_ne_pointee]; exact ⟨_, ht⟩
      exact ⟨w, (runExtr_else hu h1 w).2, h2⟩
    | filled ht hpl =>
      have hpt : pointee fd.typ = fd.typ := by cases h : fd.typ <;> first | rfl | exact absurd h (ht _)
      simp only [storeField, Out.ok.injEq] at h2
      subst h2
      obtain ⟨w', h3, h4⟩ := (extr_again hP hpl (by rw [hpe]; exact hg.pointee) hk 0 a c).1 val c' c' h1 rfl
      exact ⟨w', h3, by rw [h4 rfl]; rfl⟩
    | val ht hpl =>
      have hpt : pointee fd.typ = fd.typ := by cases h : fd.typ <;> first | rfl | exact absurd h (ht _)
      obtain ⟨w', h3, _⟩ := (extr_again hP hpl (by rw [hpe]; exact hg.pointee) hk 0 a c).1 val c' w h1 (by rw [hpe, hpt]; exact h2)
      exact ⟨w', h3, h2⟩
    | named h hx hu =>
      have hu : x.usesPlace = false := by
        rcases hx with ⟨p, _, hx⟩ | ⟨_, l, _, rfl⟩ | ⟨_, rfl⟩
        · exact Plan.noPlace.prim_noPlace hx
        · rfl
        · rfl
      refine ⟨w, (runExtr_else hu h1 w).2, ?_⟩
      split at h2 <;> rename_i hif <;> simp only [hif] <;> exact h2
  simp only [runField] at h ⊢
  split at h
  · rename_i a ha
    obtain ⟨tv, h1, h2⟩ := Out.bind_eq_ok.1 h
    cases tv with
    | ret e c' => simp at h2
    | done r c' =>
      cases r with
      | error e => simp only at h2; split at h2 <;> simp at h2
      | ok val =>
        simp only at h2
        split at h2
        · simp at h2
        · rename_i hmax
          obtain ⟨w', h3, h4⟩ := Out.bind_eq_ok.1 h2
          simp only [Out.pure_eq, Out.ok.injEq, Prod.mk.injEq, true_and] at h4
          subst h4
          obtain ⟨w'', h5, h6⟩ := hrun a val c' h1 h3
          simp only [h5, Out.ok_bind, hmax, h6]
          rfl
  · cases hdf : f.dflt with
    | nothing => rfl
    | required => rw [hdf] at h; simp at h
    | value d o =>
      rw [hdf] at h
      simp only at h ⊢
      split at h
      · rename_i hq
        split at h <;> rename_i ho <;> simp only [hq, ho, if_true, if_false] <;> first | rfl | exact h
      · rename_i hq
        split at h <;> rename_i ho <;> simp only [hq, ho, if_false] <;> first | rfl | exact h

theorem fields_again {M : Nat → Methods} {v : JV} : ∀ {fs : List (Option FieldFill)} {gs gs' : List GoVal},
    (∀ f, some f ∈ fs → ∀ c w, runField M f v c = .ok (none, w) → runField M f v w = .ok (none, w)) →
    runFields M v fs gs = .ok (none, gs') → runFields M v fs gs' = .ok (none, gs')
  | [], [], gs', _, h => by
    simp only [runFields, Out.ok.injEq, Prod.mk.injEq, true_and] at h
    subst h
    rfl
  | [], _ :: _, gs', _, h => by simp [runFields] at h
  | none :: fs, [], gs', _, h => by simp [runFields] at h
  | some f :: fs, [], gs', _, h => by simp [runFields] at h
  | none :: fs, g :: gs, gs', hf, h => by
    simp only [runFields] at h
    obtain ⟨⟨e, r⟩, h1, h2⟩ := Out.bind_eq_ok.1 h
    simp only [Out.pure_eq, Out.ok.injEq, Prod.mk.injEq] at h2
    obtain ⟨rfl, rfl⟩ := h2
    have := fields_again (fun f hm => hf f (by simp [hm])) h1
    simp only [runFields, this, Out.ok_bind, Out.pure_eq]
  | some f :: fs, g :: gs, gs', hf, h => by
    simp only [runFields] at h
    obtain ⟨⟨e, g'⟩, h0, h⟩ := Out.bind_eq_ok.1 h
    cases e with
    | some e => simp at h
    | none =>
      simp only at h
      obtain ⟨⟨e, r⟩, h1, h2⟩ := Out.bind_eq_ok.1 h
      simp only [Out.pure_eq, Out.ok.injEq, Prod.mk.injEq] at h2
      obtain ⟨rfl, rfl⟩ := h2
      have := fields_again (fun f hm => hf f (by simp [hm])) h1
      simp only [runFields, hf f (by simp) g g' h0, this, Out.ok_bind, Out.pure_eq]

/-! ### declared types -/

theorem listRound_again {M : Nat → Methods} {elt : TExpr} {x : Extr} {i : Nat} {a : JV} {c w : GoVal}
    (h : listRound M elt x i a c = .ok (.store w)) : listRound M elt x i a w = .ok (.store w) := by
  simp only [listRound] at h ⊢
  obtain ⟨tv, h1, h2⟩ := Out.bind_eq_ok.1 h
  rw [h1]
  cases tv with
  | ret e _ => simp at h2
  | done r _ =>
    cases r with
    | error e => simp at h2
    | ok val => exact h2

theorem bytesFill_again {len : Option Nat} {v : JV} {d d' : GoVal} (h : bytesFill len v d = .ok (none, d')) :
    bytesFill len v d' = .ok (none, d') := by
  simp only [bytesFill] at h ⊢
  split at h
  · rename_i hn
    rw [if_pos hn]
  · rename_i hn
    rw [if_neg hn]
    cases hg : v.getStr with
    | error c => rw [hg] at h; simp at h
    | ok s =>
      rw [hg] at h
      simp only at h ⊢
      cases len with
      | none =>
        simp only at h ⊢
        exact h
      | some n =>
        simp only at h ⊢
        cases d with
        | barr old =>
          simp only at h
          split at h
          · cases h
          · rename_i hle
            split at h
            · simp at h
            · rename_i hok
              split at h
              · simp at h
              · rename_i hlen
                simp only [Out.ok.injEq, Prod.mk.injEq, true_and] at h
                subst h
                simp only [if_neg hle, if_neg hok, if_neg hlen, List.drop_left]
        | _ => cases h

theorem decl_again (hP : RepeatSet Γ S) {k n : Nat} (hn : S n) (hk : CallsRepeat Γ S k) {d : Decl} (hd : Γ.decl n = some d) {s s' : GoVal}
    {ir : FillIR} (hg : genFill Γ k d = .ok ir) {v : JV} (h : runFill (Γ.methods k) ir v s = .ok (none, s')) :
    runFill (Γ.methods k) ir v s' = .ok (none, s') := by
  cases d with
  | struct strict fields =>
    simp only [genFill] at hg
    obtain ⟨fs, hfs, hir⟩ := Out.bind_eq_ok.1 hg
    simp only [Out.pure_eq, Out.ok.injEq] at hir
    subst hir
    cases s with
    | struct gs =>
      simp only [runFill] at h
      cases hv : validate (fields.map (·.tags.jsonName)) strict v with
      | some e => rw [hv] at h; simp at h
      | none =>
        rw [hv] at h
        simp only at h
        obtain ⟨⟨e, gs'⟩, h1, h2⟩ := Out.bind_eq_ok.1 h
        simp only [Out.pure_eq, Out.ok.injEq, Prod.mk.injEq] at h2
        obtain ⟨rfl, rfl⟩ := h2
        have := fields_again (fun f hm c w hc => ?_) h1
        · simp only [runFill, hv, this, Out.ok_bind, Out.pure_eq]
        · obtain ⟨i, hi⟩ := List.getElem?_of_mem hm
          have hil : i < fields.length := by
            have := (List.getElem?_eq_some_iff.1 hi).1
            rw [genFields_length hfs] at this
            exact this
          obtain ⟨f', h3, h4⟩ := genFields_get hfs (List.getElem?_eq_getElem hil)
          rw [hi] at h3
          cases h3
          exact field_again hP h4 (hP.field hn hd (List.getElem_mem hil)) hk hc
    | _ => cases h
  | alias t =>
    have hgt : Good S t := hP.alias hn hd
    by_cases hcoll : t.isCollection = true
    · cases t with
      | slice elt =>
        by_cases hb : elt = .prim .byte
        · subst hb
          simp [genFill, TExpr.isByte] at hg
          subst hg
          simp only [runFill] at h ⊢
          exact bytesFill_again h
        · obtain ⟨_, r, hr, hns, _, rfl⟩ := genFill_list (len := none) hb hg
          simp only [runFill] at h ⊢
          split at h
          · rename_i hnull
            rw [if_pos hnull]
          · rename_i hnull
            rw [if_neg hnull]
            cases hga : v.getArr with
            | error c => rw [hga] at h; simp at h
            | ok l => rw [hga] at h; exact h
      | array len elt =>
        by_cases hb : elt = .prim .byte
        · subst hb
          simp [genFill, TExpr.isByte] at hg
          subst hg
          simp only [runFill] at h ⊢
          exact bytesFill_again h
        · obtain ⟨_, r, hr, hns, _, rfl⟩ := genFill_list (len := some len) hb hg
          simp only [runFill] at h ⊢
          split at h
          · rename_i hnull
            rw [if_pos hnull]
          · rename_i hnull
            rw [if_neg hnull]
            cases hga : v.getArr with
            | error c => rw [hga] at h; simp at h
            | ok l =>
              rw [hga] at h
              simp only at h ⊢
              split at h
              · simp at h
              · rename_i hl
                rw [if_neg hl]
                cases s with
                | arr cells0 =>
                  simp only at h
                  obtain ⟨⟨stop, m, cells⟩, h1, h2⟩ := Out.bind_eq_ok.1 h
                  simp only [Out.pure_eq, Out.ok.injEq, Prod.mk.injEq] at h2
                  obtain ⟨h2, rfl⟩ := h2
                  cases stop with
                  | fin =>
                    have := (sliceLoop_idem (f := listRound (Γ.methods k) elt r.x) (d := false) (fun i a c w h => listRound_again h) (fun h => by cases h) h1 (Or.inl rfl)).1
                    simp only [this, Out.ok_bind, Out.pure_eq, Stop.err]
                  | ret e => cases h2
                  | brk e => cases h2
                | _ => cases h
      | map val =>
        obtain ⟨r, hr, hns, _, rfl⟩ := genFill_mapT hg
        simp only [runFill] at h ⊢
        split at h
        · rename_i hnull
          rw [if_pos hnull]
        · rename_i hnull
          rw [if_neg hnull]
          cases hgo : v.getObj with
          | error c => rw [hgo] at h; simp at h
          | ok l => rw [hgo] at h; exact h
      | _ => cases hcoll
    · have hcoll : t.isCollection = false := by simpa using hcoll
      obtain ⟨hnst, r, hr, hns, rfl⟩ := genFill_transit hcoll hg
      have hx := typedValue_plan hr (prepare_resolve ..) hns
      have hpt : pointee t = t := by cases t <;> first | rfl | exact absurd rfl (hnst _)
      have hpe : (Fld.prepare Γ false t {} true false).expr = t := by rw [prepare_expr, hpt]
      have hnf : r.filled = false := by
        cases hfl : r.filled with
        | false => rfl
        | true => have := (filled_spec hr hfl).1; cases this
      rw [hnf] at hx
      simp only [runFill] at h ⊢
      obtain ⟨tv, h1, h2⟩ := Out.bind_eq_ok.1 h
      cases tv with
      | ret e c => simp at h2
      | done q c =>
        cases q with
        | error e => simp at h2
        | ok val =>
          simp only at h2
          obtain ⟨w, h3, h4⟩ := Out.bind_eq_ok.1 h2
          simp only [Out.pure_eq, Out.ok.injEq, Prod.mk.injEq, true_and] at h4
          subst h4
          obtain ⟨w', h5, _⟩ := (extr_again hP hx (by rw [hpe]; exact hgt) hk 0 v s).1 val c w h1 (by rw [hpe]; exact h3)
          simp only [h5, Out.ok_bind, h3]
          rfl

theorem fill_again (hP : RepeatSet Γ S) (k : Nat) : CallsRepeat Γ S k := by
  induction k with
  | zero => intro n v s s' hn h; simp [Env.methods, Methods.loop] at h
  | succ k ih =>
    intro n v s s' hn h
    cases hd : Γ.decl n with
    | none =>
      rw [methods_none hd] at h ⊢
      exact hP.foreign n v s s' hn hd h
    | some d =>
      rw [methods_fill hd] at h ⊢
      obtain ⟨ir, h1, h2⟩ := Out.bind_eq_ok.1 h
      rw [h1]
      exact decl_again hP hn ih hd h1 h2

end

end VJ
