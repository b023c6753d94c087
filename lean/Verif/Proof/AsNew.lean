import Verif.Proof.Reset

/-!
# Decoding into a receiver that is as good as new

Side by side: the same document decoded into a receiver that is as good as new, and into a
new one.
-/

namespace VJ
set_option linter.unusedSectionVars false
set_option linter.unusedSimpArgs false

variable [Ext] {Γ : Env} {X : Nat → GoVal → Prop} {S : Nat → Prop}

/-- the two computations end alike, with related results -/
def Alike {α β : Type} (R : α → β → Prop) : Out α → Out β → Prop
  | .ok a, .ok b => R a b
  | .panic, .panic | .loop, .loop | .unsupp, .unsupp => True
  | _, _ => False

namespace Alike
variable {α β α' β' : Type}

theorem ok {R : α → β → Prop} {a : α} {b : β} (h : R a b) : Alike R (.ok a) (.ok b) := h

theorem refl {R : α → α → Prop} (h : ∀ a, R a a) (o : Out α) : Alike R o o := by
  cases o <;> first | exact h _ | trivial

theorem bind {R : α → β → Prop} {Q : α' → β' → Prop} {o : Out α} {o' : Out β} {f : α → Out α'} {f' : β → Out β'}
    (h : Alike R o o') (hf : ∀ a b, R a b → Alike Q (f a) (f' b)) : Alike Q (o >>= f) (o' >>= f') := by
  cases o <;> cases o' <;> first | exact hf _ _ h | trivial | exact h.elim

theorem bind_same {Q : α' → β' → Prop} {o : Out α} {f : α → Out α'} {f' : α → Out β'}
    (hf : ∀ a, o = .ok a → Alike Q (f a) (f' a)) : Alike Q (o >>= f) (o >>= f') := by
  cases o <;> first | exact hf _ rfl | trivial

theorem imp {R Q : α → β → Prop} {o : Out α} {o' : Out β} (h : Alike R o o') (hi : ∀ a b, R a b → Q a b) : Alike Q o o' := by
  cases o <;> cases o' <;> first | exact hi _ _ h | trivial | exact h.elim

end Alike

/-- the same error, or related values -/
def FillAlike (r r' : Option Err × GoVal) : Prop := r.1 = r'.1 ∧ (r.1 = none → SameButEmpty r.2 r'.2)

theorem FillAlike.refl (r : Option Err × GoVal) : FillAlike r r := ⟨rfl, fun _ => .refl _⟩

/-- templates that do not touch the place -/
def TVSame : TV → TV → Prop
  | .ret e _, .ret e' _ => e = e'
  | .done r _, .done r' _ => r = r'
  | _, _ => False

def TVAlike (b : Bool) : TV → TV → Prop
  | .ret e _, .ret e' _ => e = e'
  | .done (.error e) _, .done (.error e') _ => e = e'
  | .done (.ok v) f, .done (.ok v') f' => SameButEmpty v v' ∧ (b = true → SameButEmpty f f')
  | _, _ => False

theorem TVAlike.refl (b : Bool) (r : TV) : TVAlike b r r := by
  cases r with
  | ret e f => rfl
  | done r f =>
    cases r with
    | error e => rfl
    | ok v => exact ⟨.refl _, fun _ => .refl _⟩

theorem TVSame.refl (r : TV) : TVSame r r := by cases r <;> rfl

theorem runExtr_same {M : Nat → Methods} {x : Extr} (hx : x.usesPlace = false) (i : Nat) (v : JV) (c c' : GoVal) :
    Alike TVSame (runExtr M x i v c) (runExtr M x i v c') := by
  cases x with
  | nestedInPlace | slice | map => cases hx
  | int | uint | float | bool | strUnchecked => exact .ok rfl
  | strChecked path => simp only [runExtr]; split <;> exact .ok rfl
  | time | uuid => simp only [runExtr]; split <;> exact .ok rfl
  | nestedFresh t =>
    simp only [runExtr]
    refine .bind_same fun z _ => .bind_same fun r _ => ?_
    exact .ok rfl
  | bytes len =>
    simp only [runExtr]
    refine .bind_same fun r _ => ?_
    obtain ⟨e, d⟩ := r
    cases e <;> exact .ok rfl
  | array json len elt x brk st =>
    simp only [runExtr]
    cases v.getArr with
    | error c => exact .ok rfl
    | ok l =>
      simp only
      split
      · exact .ok rfl
      · refine .bind_same fun z _ => .bind_same fun r _ => ?_
        obtain ⟨stop, n, cells⟩ := r
        cases stop with
        | fin => exact .ok rfl
        | ret e => exact .ok rfl
        | brk e =>
          simp only
          split <;> exact .ok rfl

/-! ### the values -/

theorem asNew_same {t : TExpr} {v z : GoVal} (h : AsNew Γ t v) (hz : ZeroOf Γ t z) : SameButEmpty v z := by
  induction h generalizing z with
  | zero h => cases zeroOf_unique h hz; exact .refl _
  | slice => obtain ⟨k, hk⟩ := hz; cases hk; exact .emptySlice
  | bytes => obtain ⟨k, hk⟩ := hz; cases hk; exact .emptyBytes
  | map => obtain ⟨k, hk⟩ := hz; cases hk; exact .emptyMap
  | alias he hd h ih => exact ih ((zeroIs_alias hd).1 ((zeroOf_name he).1 hz))
  | @struct e n strict fields gs he hd hl h ih =>
    obtain ⟨zs, rfl, hzl, hzs⟩ := (zeroIs_struct hd).1 ((zeroOf_name he).1 hz)
    refine .struct (by omega) fun i v v' hv hv' => ?_
    obtain ⟨fd, hf⟩ : ∃ fd, fields[i]? = some fd := by
      have := (List.getElem?_eq_some_iff.1 hv).1
      exact ⟨_, List.getElem?_eq_getElem (by omega)⟩
    exact ih i fd v hf hv (hzs i fd v' hf hv')

/-- conversions keep the relation -/
theorem conv_alike {t : TExpr} {c : GoVal} (h : AsNew Γ t c) (hz : ¬ ZeroOf Γ t c) (k : Nat) {v v' : GoVal} (hs : SameButEmpty v v') :
    Alike SameButEmpty (convT (Γ.methods k) t v) (convT (Γ.methods k) t v') := by
  induction h generalizing k with
  | zero h => exact absurd h hz
  | slice => exact .ok hs
  | bytes => exact .ok hs
  | map => exact .ok hs
  | @alias e t n w he hd h ih =>
    have hz' : ¬ ZeroOf Γ t w := fun h' => hz ((zeroOf_name he).2 ((zeroIs_alias hd).2 h'))
    have : Alike SameButEmpty ((Γ.methods k n).conv v) ((Γ.methods k n).conv v') := by
      cases k with
      | zero => exact .refl .refl _
      | succ k => rw [methods_some hd]; exact ih hz' k
    cases he <;> exact this
  | @struct e n strict fields gs he hd hl h ih =>
    have : Alike SameButEmpty ((Γ.methods k n).conv v) ((Γ.methods k n).conv v') := by
      cases k with
      | zero => trivial
      | succ k => rw [methods_some hd]; exact .ok hs
    cases he <;> exact this

theorem exceeds_alike (m : MaxCheck) {v v' : GoVal} (hs : SameButEmpty v v') : exceeds m v = exceeds m v' := by
  cases hs <;> cases m <;> rfl

/-! ### kinds of types -/

theorem primName_is {t u : TExpr} {p : Prim} (h : PrimName Γ t p) (hi : Is Γ t u) (h1 : ∀ n, u ≠ .named n) (h2 : ∀ n, u ≠ .sel n)
    (h3 : ∀ q, u ≠ .prim q) : False := by
  cases hi with
  | self =>
    cases h with
    | base h => cases h with
      | self => exact h3 _ rfl
      | named => exact h1 _ rfl
      | sel => exact h2 _ rfl
    | chain => exact h1 _ rfl
  | named hd =>
    cases h with
    | base h => cases h with | named hd' => rw [hd] at hd'; cases hd'; exact h3 _ rfl
    | chain hd' h =>
      rw [hd] at hd'; cases hd'
      cases h with
      | self => exact h3 _ rfl
      | named => exact h1 _ rfl
      | sel => exact h2 _ rfl

theorem inert_noPlace {elt : TExpr} {path : PathE} {x : Extr} {b : Bool} (hi : Inert Γ elt) (hg : Good S elt)
    (h : Plan Γ (Fld.prepare Γ true elt {} false false) path x b) : x.usesPlace = false := by
  have hpe : (Fld.prepare Γ true elt {} false false).expr = pointee elt := prepare_expr ..
  have han : (Fld.prepare Γ true elt {} false false).expr.anon = false := by rw [hpe]; exact hg.pointee.noAnon
  cases hi with
  | ptr _ => exact h.star_noPlace han rfl rfl
  | @prim _ p hp =>
    have hp' : PrimName Γ (Fld.prepare Γ true elt {} false false).expr p := by rw [hpe, primName_pointee hp]; exact hp
    cases h with
    | prim h hx => exact Plan.noPlace.prim_noPlace hx
    | fresh | time | uuid | bytes | fixedBytes | array => rfl
    | inPlace h => exact absurd h (primName_noCalls hp' _)
    | anon h => rw [h] at han; cases han
    | slice h => exact (primName_is hp' h (by simp) (by simp) (by simp)).elim
    | map h => exact (primName_is hp' h (by simp) (by simp) (by simp)).elim
  | bytes hb =>
    have hb' : Is Γ (Fld.prepare Γ true elt {} false false).expr (.slice (.prim .byte)) := by
      rw [hpe, is_pointee hb (by simp)]; exact hb
    cases h with
    | prim h hx => exact Plan.noPlace.prim_noPlace hx
    | fresh | time | uuid | bytes | fixedBytes | array => rfl
    | inPlace h => exact absurd h (is_calls hb' (by simp) (by simp) (by simp) (by simp) _)
    | anon h => rw [h] at han; cases han
    | slice h hn => exact absurd (hasElem_unique (Or.inl h) (Or.inl hb')) hn
    | map h => have := is_unique h hb' (by simp) (by simp) (by simp) (by simp) (by simp) (by simp); cases this

theorem declares_loses {elt : TExpr} {path : PathE} {x : Extr} {b : Bool} (hg : Good S elt)
    (h : Plan Γ (Fld.prepare Γ true elt {} false false) path x b) (hd : x.declaresErr = true) : LosesErrors Γ elt := by
  have hpe : (Fld.prepare Γ true elt {} false false).expr = pointee elt := prepare_expr ..
  have han : (Fld.prepare Γ true elt {} false false).expr.anon = false := by rw [hpe]; exact hg.pointee.noAnon
  cases h with
  | @prim _ _ p _ h hx =>
    exfalso
    cases p <;> simp only [primExtraction, Out.ok.injEq, reduceCtorEq] at hx <;> first
      | (subst hx; cases hd)
      | (split at hx <;> cases hx <;> cases hd)
  | fresh | bytes | fixedBytes | array | slice | inPlace => cases hd
  | anon h => rw [h] at han; cases han
  | time h => rw [hpe] at h; exact Or.inl h
  | uuid h => rw [hpe] at h; exact Or.inr (Or.inl h)
  | map h => rw [hpe] at h; exact Or.inr (Or.inr ⟨_, h⟩)

theorem asNew_is {t u : TExpr} {c : GoVal} (h : AsNew Γ t c) (hi : Is Γ t u) : AsNew Γ u c := by
  cases hi with
  | self => exact h
  | @named n u hd =>
    cases h with
    | zero h => exact .zero ((zeroIs_alias hd).1 h)
    | alias he hd' h => cases he; rw [hd] at hd'; cases hd'; exact h
    | struct he hd' => cases he; rw [hd] at hd'; cases hd'

theorem zeroOf_of_is {t u : TExpr} {z : GoVal} (h : ZeroOf Γ t z) (hi : Is Γ t u) : ZeroOf Γ u z := by
  cases hi with
  | self => exact h
  | named hd => exact (zeroIs_alias hd).1 h

theorem asNew_name {e e' : TExpr} {n : Nat} {c : GoVal} (he : NameOf e n) (he' : NameOf e' n) (h : AsNew Γ e c) : AsNew Γ e' c := by
  cases h with
  | zero h => exact .zero ((zeroOf_name he').2 ((zeroOf_name he).1 h))
  | alias h1 hd h => cases he.inj h1; exact .alias he' hd h
  | struct h1 hd hl h => cases he.inj h1; exact .struct he' hd hl h
  | slice | bytes | map => cases he

/-! ### slices -/

def CellAlike (d : Bool) : Cell → Cell → Prop
  | .store w, .store w' => SameButEmpty w w'
  | .ret e _, .ret e' _ => e = e'
  | .brk e w, .brk e' w' => e = e' ∧ (d = true → SameButEmpty w w')
  | _, _ => False

theorem CellAlike.refl (d : Bool) (c : Cell) : CellAlike d c c := by
  cases c with
  | store w => exact SameButEmpty.refl _
  | ret => rfl
  | brk => exact ⟨rfl, fun _ => .refl _⟩

/-- same length, related elements -/
def Paired (cs cs' : List GoVal) : Prop :=
  cs.length = cs'.length ∧ ∀ (i : Nat) (v v' : GoVal), cs[i]? = some v → cs'[i]? = some v' → SameButEmpty v v'

theorem Paired.cons {w w' : GoVal} {cs cs' : List GoVal} (h : SameButEmpty w w') (ht : Paired cs cs') : Paired (w :: cs) (w' :: cs') := by
  refine ⟨by simp [ht.1], fun i v v' hv hv' => ?_⟩
  cases i with
  | zero => simp at hv hv'; subst hv; subst hv'; exact h
  | succ i => exact ht.2 i v v' (by simpa using hv) (by simpa using hv')

theorem Paired.nil : Paired [] [] := ⟨rfl, by simp⟩

def LoopAlike (d : Bool) (i : Nat) (r r' : Stop × Nat × List GoVal) : Prop :=
  r.1 = r'.1 ∧ r.2.1 = r'.2.1 ∧ i ≤ r.2.1 ∧
    ((r.1 = .fin ∨ d = true ∧ ∃ e, r.1 = .brk e) → Paired (r.2.2.take (r.2.1 - i)) (r'.2.2.take (r.2.1 - i)))

theorem sliceLoop_alike {d : Bool} {f : Nat → JV → GoVal → Out Cell} : ∀ (l : List JV) (i : Nat) (cells cells' : List GoVal),
    l.length ≤ cells.length → l.length ≤ cells'.length →
    (∀ j a (p p' : Nat) c c', cells[p]? = some c → cells'[p']? = some c' → Alike (CellAlike d) (f j a c) (f j a c')) →
    Alike (LoopAlike d i) (sliceLoop f i l cells) (sliceLoop f i l cells')
  | [], i, cells, cells', _, _, _ => by
    simp only [sliceLoop]
    exact .ok ⟨rfl, rfl, Nat.le_refl _, fun _ => by simp; exact .nil⟩
  | a :: as, i, [], _, h, _, _ => by cases h
  | a :: as, i, _ :: _, [], _, h, _ => by cases h
  | a :: as, i, c :: cs, c' :: cs', h1, h2, hf => by
    simp only [sliceLoop]
    refine Alike.bind (hf i a 0 0 c c' rfl rfl) fun r r' hr => ?_
    match r, r', hr with
    | .store w, .store w', hr =>
      refine Alike.bind (sliceLoop_alike as (i + 1) cs cs' (by simpa using h1) (by simpa using h2) fun j a p p' c c' hc hc' =>
        hf j a (p + 1) (p' + 1) c c' (by simpa using hc) (by simpa using hc')) fun q q' hq => ?_
      obtain ⟨s, n, cs1⟩ := q
      obtain ⟨s', n', cs1'⟩ := q'
      obtain ⟨hq1, hq2, hq3, hq4⟩ := hq
      refine .ok ⟨hq1, hq2, by simp only at hq3 ⊢; omega, fun hs => ?_⟩
      have := hq4 hs
      simp only at hq3 this ⊢
      obtain ⟨m, hm⟩ : ∃ m, n - i = m + 1 := ⟨n - i - 1, by omega⟩
      rw [hm, List.take_succ_cons, List.take_succ_cons]
      have hm' : n - (i + 1) = m := by omega
      rw [hm'] at this
      exact .cons hr this
    | .ret e w, .ret e' w', hr =>
      refine .ok ⟨by cases hr; rfl, rfl, Nat.le_succ _, fun hs => ?_⟩
      rcases hs with hs | ⟨_, e, hs⟩ <;> cases hs
    | .brk e w, .brk e' w', hr =>
      refine .ok ⟨by cases hr.1; rfl, rfl, Nat.le_succ _, fun hs => ?_⟩
      have hd : d = true := by rcases hs with hs | ⟨h, _⟩; cases hs; exact h
      have : i + 1 - i = 1 := by omega
      simp only [this, List.take_succ_cons, List.take_zero]
      exact .cons (hr.2 hd) .nil

theorem mkSlice_alike {n : Nat} {cs cs' : List GoVal} (h : Paired (cs.take n) (cs'.take n)) : SameButEmpty (mkSlice n cs) (mkSlice n cs') :=
  .slice h.1 h.2

/-! ### templates -/

/-- what is known of the methods at this depth of calls -/
def CallsAlike (Γ : Env) (S : Nat → Prop) (k : Nat) : Prop :=
  ∀ n s z v, S n → AsNew Γ (.named n) s → ZeroIs Γ n z →
    Alike FillAlike ((Γ.methods k n).fill v s) ((Γ.methods k n).fill v z)

theorem elemRound_alike {k : Nat} {elt : TExpr} {x : Extr} {b nullable brk : Bool} {c z : GoVal} {i : Nat} {a : JV}
    (hz : ZeroOf Γ elt z) (hst : (∃ u, elt = .star u) → x.usesPlace = false)
    (hb : b = true → x.usesPlace = true)
    (hc : c = z ∨ (x.declaresErr = false ∧ (x.usesPlace = true → AsNew Γ elt c ∧
      Alike (TVAlike b) (runExtr (Γ.methods k) x i a c) (runExtr (Γ.methods k) x i a z)))) :
    Alike (CellAlike x.declaresErr) (elemRound (Γ.methods k) nullable brk (elemStore elt b) (runExtr (Γ.methods k) x) i a c)
      (elemRound (Γ.methods k) nullable brk (elemStore elt b) (runExtr (Γ.methods k) x) i a z) := by
  by_cases hcz : c = z
  · subst hcz; exact .refl (CellAlike.refl _) _
  · obtain ⟨hd, hc⟩ := hc.resolve_left hcz
    simp only [elemRound]
    split
    · exact .ok (SameButEmpty.refl _)
    · cases hu : x.usesPlace with
      | false =>
        refine Alike.bind (runExtr_same hu i a c z) fun r r' hr => ?_
        have hbf : b = false := by
          cases b with
          | false => rfl
          | true => rw [hb rfl] at hu; cases hu
        subst hbf
        match r, r', hr with
        | .ret e f, .ret e' f', hr => exact .ok hr
        | .done (.error e) f, .done (.error e') f', hr =>
          cases hr
          simp only
          split
          · exact .ok ⟨rfl, fun h => by rw [hd] at h; cases h⟩
          · trivial
        | .done (.ok w) f, .done (.ok w') f', hr =>
          cases hr
          simp only
          refine Alike.bind (R := SameButEmpty) ?_ fun w w' hw => .ok hw
          cases elt <;> exact .refl .refl _
        | .done (.ok w) f, .done (.error e') f', hr => cases hr
        | .done (.error e) f, .done (.ok w) f', hr => cases hr
      | true =>
        obtain ⟨hn, hr⟩ := hc hu
        refine Alike.bind hr fun r r' hr => ?_
        match r, r', hr with
        | .ret e f, .ret e' f', hr => exact .ok hr
        | .done (.error e) f, .done (.error e') f', hr =>
          cases hr
          simp only
          split
          · exact .ok ⟨rfl, fun h => by rw [hd] at h; cases h⟩
          · trivial
        | .done (.ok w) f, .done (.ok w') f', hr =>
          simp only
          refine Alike.bind (R := SameButEmpty) ?_ fun w w' hw => .ok hw
          have hes : elemStore elt b = if b then .filled else .val elt := by
            cases elt with
            | star u => rw [hst ⟨u, rfl⟩] at hu; cases hu
            | _ => rfl
          rw [hes]
          cases b with
          | true => exact .ok (hr.2 rfl)
          | false =>
            refine conv_alike hn (fun h => hcz (zeroOf_unique h hz)) k hr.1

theorem extr_alike (hP : Package Γ X S) {f : Fld} {path : PathE} {x : Extr} {b : Bool} (h : Plan Γ f path x b) (hg : Good S f.expr)
    {k : Nat} (hk : CallsAlike Γ S k) {c z : GoVal} (hc : AsNew Γ f.expr c) (hz : ZeroOf Γ f.expr z) (i : Nat) (v : JV) :
    Alike (TVAlike b) (runExtr (Γ.methods k) x i v c) (runExtr (Γ.methods k) x i v z) := by
  have noPlace : ∀ {x : Extr} {c z : GoVal} {i : Nat} {v : JV}, x.usesPlace = false → Alike (TVAlike false) (runExtr (Γ.methods k) x i v c) (runExtr (Γ.methods k) x i v z) := by
    intro x c z i v hx
    refine (runExtr_same hx i v c z).imp fun r r' hr => ?_
    match r, r', hr with
    | .ret e f, .ret e' f', hr => exact hr
    | .done r f, .done r' f', hr =>
      cases hr
      cases r with
      | error e => rfl
      | ok w => exact ⟨.refl _, fun h => by cases h⟩
  induction h generalizing c z i v with
  | prim h hx => exact noPlace (Plan.noPlace.prim_noPlace hx)
  | fresh h hf => exact noPlace rfl
  | @inPlace f path n h hf =>
    have hn := pointee_nameOf h
    have he : ∀ s, fillT (Γ.methods k) f.expr v s = (Γ.methods k n).fill v s := by
      intro s
      generalize f.expr = e at hn
      cases hn <;> rfl
    simp only [runExtr, he]
    refine Alike.bind (hk n c z v (hg.name hn) (asNew_name hn (.named n) hc) ((zeroOf_name hn).1 hz)) fun r r' hr => ?_
    obtain ⟨e, w⟩ := r
    obtain ⟨e', w'⟩ := r'
    obtain ⟨h1, h2⟩ := hr
    cases h1
    cases e with
    | none => exact .ok ⟨h2 rfl, fun _ => h2 rfl⟩
    | some e => exact .ok rfl
  | anon h => have := hg.noAnon; rw [h] at this; cases this
  | time | uuid | bytes | fixedBytes | array => exact noPlace rfl
  | @slice f path elt x b h hb ha hf hx ih =>
    have hgs : Good S elt := (hg.is hP h).slice
    have hpe : (Fld.prepare Γ true elt {} false false).expr = pointee elt := prepare_expr ..
    have hc' := asNew_is hc h
    have hz' := zeroOf_of_is hz h
    obtain ⟨_, hz'⟩ := hz'
    cases hz'
    have hstar : (∃ u, elt = .star u) → x.usesPlace = false := by
      rintro ⟨u, rfl⟩
      exact hx.star_noPlace (by rw [hpe]; exact hgs.pointee.noAnon) rfl rfl
    simp only [runExtr]
    cases v.getArr with
    | error c => exact .ok rfl
    | ok l =>
      simp only
      refine .bind_same fun zz hzz => ?_
      have hzo : ZeroOf Γ elt zz := ⟨k, hzz⟩
      have sameCells : ∀ {c : GoVal} {cells : List GoVal} {g : Bool}, Alike (TVAlike false)
          (sliceLoop (elemRound (Γ.methods k) elt.nullLike (pointee elt != .prim .string) (elemStore elt b) (runExtr (Γ.methods k) x)) 0 l cells >>= fun r =>
            match r with
            | (stop, n, cells') =>
              match stop with
              | .fin => pure (.done (.ok (mkSlice n cells')) (fieldAfter g c cells'))
              | .ret e => pure (.ret e (fieldAfter g c cells'))
              | .brk e => if x.declaresErr = true then pure (.done (.ok (mkSlice n cells')) (fieldAfter g c cells')) else pure (.done (.error e) (fieldAfter g c cells')))
          (sliceLoop (elemRound (Γ.methods k) elt.nullLike (pointee elt != .prim .string) (elemStore elt b) (runExtr (Γ.methods k) x)) 0 l cells >>= fun r =>
            match r with
            | (stop, n, cells') =>
              match stop with
              | .fin => pure (.done (.ok (mkSlice n cells')) (fieldAfter true .nil cells'))
              | .ret e => pure (.ret e (fieldAfter true .nil cells'))
              | .brk e => if x.declaresErr = true then pure (.done (.ok (mkSlice n cells')) (fieldAfter true .nil cells')) else pure (.done (.error e) (fieldAfter true .nil cells'))) := by
        intro c cells g
        refine .bind_same fun r _ => ?_
        obtain ⟨stop, n, cells'⟩ := r
        cases stop with
        | fin => exact .ok ⟨.refl _, fun h => by cases h⟩
        | ret e => exact .ok rfl
        | brk e =>
          simp only
          split
          · exact .ok ⟨.refl _, fun h => by cases h⟩
          · exact .ok rfl
      generalize hT : TExpr.slice elt = T at hc'
      cases hc' with
      | alias he => subst hT; cases he
      | struct he => subst hT; cases he
      | map => cases hT
      | bytes => cases hT; exact absurd rfl hb
      | zero h0 =>
        subst hT
        obtain ⟨_, h0⟩ := h0
        cases h0
        exact .refl (TVAlike.refl _) _
      | @slice t sp h1 h2 =>
        cases hT
        simp only [sliceCells, List.length_nil, Nat.zero_add]
        by_cases hl : sp.length < l.length
        · rw [if_pos hl]
          exact sameCells
        · rw [if_neg hl]
          simp only [Out.ok_bind, List.nil_append]
          refine Alike.bind (sliceLoop_alike (d := x.declaresErr) l 0 sp (List.replicate l.length zz) (by omega) (by simp) ?_) fun r r' hr => ?_
          · intro j a p p' c c' hcp hcp'
            have hcm := List.mem_of_getElem? hcp
            have hcz := List.eq_of_mem_replicate (List.mem_of_getElem? hcp')
            subst hcz
            refine elemRound_alike hzo hstar (fun hbt => ?_) ?_
            · subst hbt; exact hx.filled (by rw [hpe]; exact hgs.pointee.noAnon)
            · cases hdec : x.declaresErr with
              | true => exact Or.inl (zeroOf_unique (h2 (declares_loses hgs hx hdec) c hcm) hzo)
              | false =>
                refine Or.inr ⟨rfl, fun hu => ?_⟩
                have hni : ¬ Inert Γ elt := fun hi => by rw [inert_noPlace hi hgs hx] at hu; cases hu
                have hne : pointee elt = elt := by
                  cases elt with
                  | star u => rw [hstar ⟨u, rfl⟩] at hu; cases hu
                  | _ => rfl
                have hcn := h1 hni c hcm
                refine ⟨hcn, ih (by rw [hpe]; exact hgs.pointee) (by rw [hpe, hne]; exact hcn) (by rw [hpe, hne]; exact hzo) j a⟩
          · obtain ⟨stop, n, cells⟩ := r
            obtain ⟨stop', n', cells'⟩ := r'
            obtain ⟨hr1, hr2, _, hr4⟩ := hr
            simp only at hr1 hr2 hr4
            subst hr1
            subst hr2
            cases stop with
            | fin => exact .ok ⟨mkSlice_alike (by simpa using hr4 (Or.inl rfl)), fun h => by cases h⟩
            | ret e => exact .ok rfl
            | brk e =>
              simp only
              split
              · rename_i hd
                exact .ok ⟨mkSlice_alike (by simpa using hr4 (Or.inr ⟨hd, _, rfl⟩)), fun h => by cases h⟩
              · exact .ok rfl
  | @map f path val x b h hf hs hx ih =>
    have hc' := asNew_is hc h
    have hz' := zeroOf_of_is hz h
    obtain ⟨_, hz'⟩ := hz'
    cases hz'
    simp only [runExtr]
    cases v.getObj with
    | error c => exact .ok rfl
    | ok kvs =>
      simp only
      have key : ∀ {c c' : GoVal}, Alike (TVAlike false)
          (mapLoop (Γ.methods k) (val != pointee val) (pointee val) (fun v => runExtr (Γ.methods k) x 0 v .nil) kvs [] >>= fun r =>
            match r with
            | (e, m) => match e with
              | none => pure (.done (.ok (.map m)) (.map m))
              | some e => pure (.done (.error e) (.map m)))
          (mapLoop (Γ.methods k) (val != pointee val) (pointee val) (fun v => runExtr (Γ.methods k) x 0 v .nil) kvs [] >>= fun r =>
            match r with
            | (e, m) => match e with
              | none => pure (.done (.ok (.map m)) .nil)
              | some e => pure (.done (.error e) .nil)) := by
        intro c c'
        refine .bind_same fun r _ => ?_
        obtain ⟨e, m⟩ := r
        cases e with
        | none => exact .ok ⟨.refl _, fun h => by cases h⟩
        | some e => exact .ok rfl
      generalize hT : TExpr.map val = T at hc'
      cases hc' with
      | alias he => subst hT; cases he
      | struct he => subst hT; cases he
      | slice => cases hT
      | bytes => cases hT
      | zero h0 =>
        subst hT
        obtain ⟨_, h0⟩ := h0
        cases h0
        exact .refl (TVAlike.refl _) _
      | map =>
        cases hT
        exact key (c := .nil) (c' := .nil)

/-! ### fields -/

theorem field_alike (hP : Package Γ X S) {kg : Nat} {fd : FieldDecl} {f : FieldFill} (hgen : genFieldFill Γ kg fd = .ok (some f))
    (hg : Good S fd.typ) {k : Nat} (hk : CallsAlike Γ S k) {c z : GoVal} (hc : AsNew Γ fd.typ c) (hz : ZeroOf Γ fd.typ z) (v : JV) :
    Alike FillAlike (runField (Γ.methods k) f v c) (runField (Γ.methods k) f v z) := by
  by_cases hcz : c = z
  · subst hcz; exact .refl .refl _
  have hsame := asNew_same hc hz
  have hne : ∀ t, fd.typ ≠ .star t := by
    intro t ht
    rw [ht] at hc hz
    exact hcz (zeroOf_unique (asNew_star hc) hz)
  have hpt : pointee fd.typ = fd.typ := by
    cases h : fd.typ <;> first | rfl | exact absurd h (hne _)
  have hpe : (Fld.prepare Γ true fd.typ fd.tags false false).expr = fd.typ := by rw [prepare_expr, hpt]
  have hrun : ∀ w, ∃ b, Alike (TVAlike b) (runExtr (Γ.methods k) f.x 0 w c) (runExtr (Γ.methods k) f.x 0 w z) ∧
      ((b = true ∧ f.store = .filled) ∨ (b = false ∧ f.store = .val fd.typ)) := by
    intro w
    have hp := field_plan hgen
    generalize f.x = x at hp
    generalize f.store = st at hp
    cases hp with
    | ptr ht => exact absurd ht (hne _)
    | filled _ h => exact ⟨true, extr_alike hP h (by rw [hpe]; exact hg) hk (by rw [hpe]; exact hc) (by rw [hpe]; exact hz) 0 w, Or.inl ⟨rfl, rfl⟩⟩
    | val _ h => exact ⟨false, extr_alike hP h (by rw [hpe]; exact hg) hk (by rw [hpe]; exact hc) (by rw [hpe]; exact hz) 0 w, Or.inr ⟨rfl, rfl⟩⟩
    | named h =>
      rw [hpt] at h
      exact absurd (zeroOf_unique (asNew_star (asNew_is hc h)) (zeroOf_of_is hz h)) hcz
  simp only [runField]
  split
  · rename_i w _
    obtain ⟨b, hr, hst⟩ := hrun w
    refine Alike.bind hr fun r r' hr => ?_
    match r, r', hr with
    | .ret e g, .ret e' g', hr => cases hr; exact .ok ⟨rfl, fun h => by cases h⟩
    | .done (.error e) g, .done (.error e') g', hr =>
      cases hr
      simp only
      split
      · exact .ok ⟨rfl, fun h => by cases h⟩
      · trivial
    | .done (.ok a) g, .done (.ok a') g', hr =>
      have hex : f.max.bind (exceeds · a) = f.max.bind (exceeds · a') := by
        cases f.max with
        | none => rfl
        | some m => exact exceeds_alike m hr.1
      simp only [hex]
      cases f.max.bind (exceeds · a') with
      | some e => exact .ok ⟨rfl, fun h => by cases h⟩
      | none =>
        simp only
        refine Alike.bind (R := SameButEmpty) ?_ fun w w' hw => .ok ⟨rfl, fun _ => hw⟩
        rcases hst with ⟨rfl, hst⟩ | ⟨rfl, hst⟩
        · rw [hst]; exact .ok (hr.2 rfl)
        · rw [hst]; exact conv_alike hc (fun h => hcz (zeroOf_unique h hz)) k hr.1
  · cases f.dflt with
    | nothing => exact .ok ⟨rfl, fun _ => hsame⟩
    | required => exact .ok ⟨rfl, fun h => by cases h⟩
    | value d o =>
      simp only
      generalize (o && (if f.json = [] then some v else v.get f.json).isSome) = q
      cases q with
      | true => exact .ok ⟨rfl, fun _ => hsame⟩
      | false => exact .ok ⟨rfl, fun _ => .refl _⟩

theorem fields_alike {k : Nat} {v : JV} : ∀ (fields : List FieldDecl) (fs : List (Option FieldFill)) (gs zs : List GoVal),
    fs.length = fields.length → gs.length = fields.length → zs.length = fields.length →
    (∀ (i : Nat) (fd : FieldDecl) (f : FieldFill) (g z : GoVal), fields[i]? = some fd → fs[i]? = some (some f) → gs[i]? = some g → zs[i]? = some z →
      Alike FillAlike (runField (Γ.methods k) f v g) (runField (Γ.methods k) f v z)) →
    (∀ (i : Nat) (g z : GoVal), gs[i]? = some g → zs[i]? = some z → SameButEmpty g z) →
    Alike (fun r r' => r.1 = r'.1 ∧ (r.1 = none → Paired r.2 r'.2)) (runFields (Γ.methods k) v fs gs) (runFields (Γ.methods k) v fs zs)
  | [], [], [], [], _, _, _, _, _ => .ok ⟨rfl, fun _ => .nil⟩
  | fd :: fds, none :: fs, g :: gs, z :: zs, h1, h2, h3, hf, hs => by
    simp only [runFields]
    refine Alike.bind (fields_alike fds fs gs zs (by simpa using h1) (by simpa using h2) (by simpa using h3) (fun i fd f g z a b c d =>
      hf (i + 1) fd f g z (by simpa using a) (by simpa using b) (by simpa using c) (by simpa using d))
      fun i g z a b => hs (i + 1) g z (by simpa using a) (by simpa using b)) fun r r' hr => ?_
    obtain ⟨e, w⟩ := r
    obtain ⟨e', w'⟩ := r'
    exact .ok ⟨hr.1, fun h => .cons (hs 0 g z rfl rfl) (hr.2 h)⟩
  | fd :: fds, some f :: fs, g :: gs, z :: zs, h1, h2, h3, hf, hs => by
    simp only [runFields]
    refine Alike.bind (hf 0 fd f g z rfl rfl rfl rfl) fun q q' hq => ?_
    obtain ⟨e, g'⟩ := q
    obtain ⟨e', z'⟩ := q'
    obtain ⟨hq1, hq2⟩ := hq
    cases hq1
    cases e with
    | some e => exact .ok ⟨rfl, fun h => by cases h⟩
    | none =>
      simp only
      refine Alike.bind (fields_alike fds fs gs zs (by simpa using h1) (by simpa using h2) (by simpa using h3) (fun i fd f g z a b c d =>
        hf (i + 1) fd f g z (by simpa using a) (by simpa using b) (by simpa using c) (by simpa using d))
        fun i g z a b => hs (i + 1) g z (by simpa using a) (by simpa using b)) fun r r' hr => ?_
      obtain ⟨e, w⟩ := r
      obtain ⟨e', w'⟩ := r'
      exact .ok ⟨hr.1, fun h => .cons (hq2 rfl) (hr.2 h)⟩

/-! ### declared types -/

theorem decl_alike (hP : Package Γ X S) {k n : Nat} (hn : S n) (hk : CallsAlike Γ S k) {d : Decl} (hd : Γ.decl n = some d) {s z : GoVal}
    (hs : AsNew Γ (.named n) s) (hz : ZeroIs Γ n z) {ir : FillIR} (hg : genFill Γ k d = .ok ir) (v : JV) :
    Alike FillAlike (runFill (Γ.methods k) ir v s) (runFill (Γ.methods k) ir v z) := by
  by_cases hsz : s = z
  · subst hsz; exact .refl .refl _
  have hsame : SameButEmpty s z := asNew_same hs (zeroOf_named.2 hz)
  cases d with
  | struct strict fields =>
    simp only [genFill] at hg
    obtain ⟨fs, hfs, hir⟩ := Out.bind_eq_ok.1 hg
    simp only [Out.pure_eq, Out.ok.injEq] at hir
    subst hir
    obtain ⟨zs, rfl, hzl, hzs⟩ := (zeroIs_struct hd).1 hz
    cases hs with
    | zero h => exact absurd (zeroOf_unique h (zeroOf_named.2 hz)) hsz
    | alias he hd' => cases he; rw [hd] at hd'; cases hd'
    | @struct _ _ _ _ gs he hd' hl h =>
      cases he
      rw [hd] at hd'
      cases hd'
      simp only [runFill]
      cases validate (fields.map (·.tags.jsonName)) strict v with
      | some e => exact .ok ⟨rfl, fun h => by cases h⟩
      | none =>
        simp only
        refine Alike.bind (fields_alike fields fs gs zs (genFields_length hfs) hl hzl ?_ ?_) fun r r' hr => ?_
        · intro i fd f g z hi hj hgi hzi
          obtain ⟨f', h1, h2⟩ := genFields_get hfs hi
          rw [h1] at hj
          cases hj
          exact field_alike hP h2 (hP.field hn hd (List.mem_of_getElem? hi)) hk (h i fd g hi hgi) (hzs i fd z hi hzi) v
        · intro i g z hgi hzi
          obtain ⟨fd, hf⟩ : ∃ fd, fields[i]? = some fd := by
            have := (List.getElem?_eq_some_iff.1 hgi).1
            exact ⟨_, List.getElem?_eq_getElem (by omega)⟩
          exact asNew_same (h i fd g hf hgi) (hzs i fd z hf hzi)
        · obtain ⟨e, w⟩ := r
          obtain ⟨e', w'⟩ := r'
          exact .ok ⟨hr.1, fun h => .struct (hr.2 h).1 (hr.2 h).2⟩
  | alias t =>
    have hst : AsNew Γ t s := asNew_is hs (.named hd)
    have hzt : ZeroOf Γ t z := (zeroIs_alias hd).1 hz
    have hgt : Good S t := hP.alias hn hd
    by_cases hcoll : t.isCollection = true
    · cases t with
      | slice elt =>
        by_cases hb : elt = .prim .byte
        · subst hb
          simp [genFill, TExpr.isByte] at hg
          subst hg
          simp only [runFill, bytesFill]
          split
          · exact .ok ⟨rfl, fun _ => hsame⟩
          · cases v.getStr with
            | error c => exact .ok ⟨rfl, fun h => by cases h⟩
            | ok s =>
              simp only
              split <;> exact .ok ⟨rfl, fun _ => .refl _⟩
        · obtain ⟨_, r, hr, hns, _, rfl⟩ := genFill_list (len := none) hb hg
          simp only [runFill]
          split
          · exact .ok ⟨rfl, fun _ => hsame⟩
          · cases v.getArr with
            | error c => exact .ok ⟨rfl, fun h => by cases h⟩
            | ok l => exact .refl .refl _
      | array len elt =>
        refine absurd ?_ hsz
        cases hst with
        | zero h => exact zeroOf_unique h hzt
        | alias he | struct he => cases he
      | map val =>
        obtain ⟨r, hr, hns, _, rfl⟩ := genFill_mapT hg
        simp only [runFill]
        split
        · exact .ok ⟨rfl, fun _ => hsame⟩
        · cases v.getObj with
          | error c => exact .ok ⟨rfl, fun h => by cases h⟩
          | ok l => exact .refl .refl _
      | _ => cases hcoll
    · have hcoll : t.isCollection = false := by simpa using hcoll
      obtain ⟨hnst, r, hr, hns, rfl⟩ := genFill_transit hcoll hg
      have hx := typedValue_plan hr (prepare_resolve ..) hns
      have hpt : pointee t = t := by cases t <;> first | rfl | exact absurd rfl (hnst _)
      have hpe : (Fld.prepare Γ false t {} true false).expr = t := by rw [prepare_expr, hpt]
      simp only [runFill]
      refine Alike.bind (extr_alike hP hx (by rw [hpe]; exact hgt) hk (by rw [hpe]; exact hst) (by rw [hpe]; exact hzt) 0 v) fun q q' hq => ?_
      match q, q', hq with
      | .ret e g, .ret e' g', hq => cases hq; exact .ok ⟨rfl, fun h => by cases h⟩
      | .done (.error e) g, .done (.error e') g', hq => cases hq; exact .ok ⟨rfl, fun h => by cases h⟩
      | .done (.ok a) g, .done (.ok a') g', hq =>
        simp only
        exact Alike.bind (conv_alike hst (fun h => hsz (zeroOf_unique h hzt)) k hq.1) fun w w' hw => .ok ⟨rfl, fun _ => hw⟩

theorem fill_alike (hP : Package Γ X S) (k : Nat) : CallsAlike Γ S k := by
  induction k with
  | zero => intro n s z v hn hs hz; trivial
  | succ k ih =>
    intro n s z v hn hs hz
    cases hd : Γ.decl n with
    | none =>
      have : s = z := by
        cases hs with
        | zero h => exact zeroOf_unique h (zeroOf_named.2 hz)
        | alias he hd' => cases he; rw [hd] at hd'; cases hd'
        | struct he hd' => cases he; rw [hd] at hd'; cases hd'
      subst this
      exact .refl .refl _
    | some d =>
      rw [methods_fill hd, methods_fill hd]
      exact .bind_same fun ir hir => decl_alike hP hn ih hd hs hz hir v

end VJ
