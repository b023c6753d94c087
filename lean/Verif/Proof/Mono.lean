import Verif.Model.Methods

/-!
# More fuel never changes a result

`x ⊑ y`: `x` ran out of fuel, or `x = y`.
-/

set_option linter.unusedSectionVars false

namespace VJ

def Out.Le {α : Type} (x y : Out α) : Prop := x = .loop ∨ x = y

infix:50 " ⊑ " => Out.Le

namespace Out.Le

theorem refl {α : Type} (x : Out α) : x ⊑ x := Or.inr rfl

theorem loop {α : Type} (x : Out α) : (.loop : Out α) ⊑ x := Or.inl rfl

theorem bind {α β : Type} {x x' : Out α} {f f' : α → Out β} (h : x ⊑ x') (hf : ∀ a, f a ⊑ f' a) :
    (x >>= f) ⊑ (x' >>= f') := by
  rcases h with h | h
  · subst h; exact Or.inl rfl
  · subst h
    cases x with
    | ok a => exact hf a
    | panic => exact refl _
    | loop => exact refl _
    | unsupp => exact refl _

theorem trans {α : Type} {x y z : Out α} (h : x ⊑ y) (h' : y ⊑ z) : x ⊑ z := by
  rcases h with h | h
  · exact Or.inl h
  · subst h; exact h'

theorem eq_of_ok {α : Type} {x y : Out α} {a : α} (h : x ⊑ y) (hx : x = .ok a) : y = .ok a := by
  rcases h with h | h
  · rw [hx] at h; cases h
  · rw [← h, hx]

theorem eq_of_ne {α : Type} {x y : Out α} (h : x ⊑ y) (hx : x ≠ .loop) : y = x := by
  rcases h with h | h
  · exact absurd h hx
  · exact h.symm

end Out.Le

/-- method by method -/
structure Methods.Le (m m' : Methods) : Prop where
  zero : m.zero ⊑ m'.zero
  conv : ∀ v, m.conv v ⊑ m'.conv v
  fill : ∀ v s, m.fill v s ⊑ m'.fill v s
  marshalTo : ∀ r w, m.marshalTo r w ⊑ m'.marshalTo r w
  isZero : ∀ v, m.isZero v ⊑ m'.isZero v
  reset : ∀ v, m.reset v ⊑ m'.reset v

theorem Methods.Le.refl (m : Methods) : m.Le m :=
  ⟨Out.Le.refl _, fun _ => Out.Le.refl _, fun _ _ => Out.Le.refl _, fun _ _ => Out.Le.refl _,
    fun _ => Out.Le.refl _, fun _ => Out.Le.refl _⟩

theorem Methods.Le.loop (m : Methods) : Methods.loop.Le m :=
  ⟨Out.Le.loop _, fun _ => Out.Le.loop _, fun _ _ => Out.Le.loop _, fun _ _ => Out.Le.loop _,
    fun _ => Out.Le.loop _, fun _ => Out.Le.loop _⟩

/-- closes goals `prog M ⊑ prog M'` by walking through binds and matches -/
macro "mono" : tactic => `(tactic| repeat' (first
  | exact Out.Le.refl _
  | assumption
  | (refine Out.Le.bind ?_ (fun _ => ?_))
  | split))

section
variable [Ext] {M M' : Nat → Methods} (h : ∀ n, (M n).Le (M' n))
include h

theorem zeroT_mono (t : TExpr) : zeroT M t ⊑ zeroT M' t := by
  induction t with
  | named n => exact (h n).zero
  | sel n => exact (h n).zero
  | array n t ih => simp only [zeroT]; mono
  | _ => exact Out.Le.refl _

theorem convT_mono (t : TExpr) (v : GoVal) : convT M t v ⊑ convT M' t v := by
  cases t with
  | named n => exact (h n).conv v
  | sel n => exact (h n).conv v
  | _ => exact Out.Le.refl _

theorem fillT_mono (t : TExpr) (v : JV) (s : GoVal) : fillT M t v s ⊑ fillT M' t v s := by
  cases t with
  | named n => exact (h n).fill v s
  | sel n => exact (h n).fill v s
  | _ => exact Out.Le.refl _

theorem storeElem_mono (st : ElemStore) (v c : GoVal) : storeElem M st v c ⊑ storeElem M' st v c := by
  have hc := convT_mono h
  cases st with
  | ref t => exact Out.Le.bind (hc t v) fun _ => Out.Le.refl _
  | val t => exact hc t v
  | filled => exact Out.Le.refl _

theorem elemRound_mono {x x' : Nat → JV → GoVal → Out TV} (hx : ∀ i a c, x i a c ⊑ x' i a c)
    (nl brk : Bool) (st : ElemStore) (i : Nat) (a : JV) (c : GoVal) :
    elemRound M nl brk st x i a c ⊑ elemRound M' nl brk st x' i a c := by
  unfold elemRound
  split
  · exact Out.Le.refl _
  · refine Out.Le.bind (hx _ _ _) fun r => ?_
    match r with
    | .ret e c' => exact Out.Le.refl _
    | .done (.error e) c' => exact Out.Le.refl _
    | .done (.ok v) c' => exact Out.Le.bind (storeElem_mono h st v c') fun _ => Out.Le.refl _

omit h in
theorem sliceLoop_mono {f f' : Nat → JV → GoVal → Out Cell} (hf : ∀ i a c, f i a c ⊑ f' i a c)
    (l : List JV) : ∀ (i : Nat) (cells : List GoVal), sliceLoop f i l cells ⊑ sliceLoop f' i l cells := by
  induction l with
  | nil => intro i cells; exact Out.Le.refl _
  | cons a as ih =>
    intro i cells
    cases cells with
    | nil => exact Out.Le.refl _
    | cons c cs =>
      simp only [sliceLoop]
      refine Out.Le.bind (hf _ _ _) fun r => ?_
      cases r with
      | store w => exact Out.Le.bind (ih _ _) fun _ => Out.Le.refl _
      | ret e w => exact Out.Le.refl _
      | brk e w => exact Out.Le.refl _

theorem mapLoop_mono {x x' : JV → Out TV} (hx : ∀ v, x v ⊑ x' v) (star : Bool) (t : TExpr)
    (kvs : List (Str × JV)) : ∀ m, mapLoop M star t x kvs m ⊑ mapLoop M' star t x' kvs m := by
  induction kvs with
  | nil => intro m; exact Out.Le.refl _
  | cons kv rest ih =>
    intro m
    obtain ⟨k, v⟩ := kv
    simp only [mapLoop]
    split
    · exact ih _
    · refine Out.Le.bind (hx v) fun r => ?_
      match r with
      | .ret e c' => exact Out.Le.refl _
      | .done (.error e) c' => exact Out.Le.refl _
      | .done (.ok v) c' => exact Out.Le.bind (convT_mono h t v) fun _ => ih _

theorem runExtr_mono (x : Extr) : ∀ (i : Nat) (v : JV) (fld : GoVal), runExtr M x i v fld ⊑ runExtr M' x i v fld := by
  induction x with
  | nestedFresh t =>
    intro i v fld
    simp only [runExtr]
    exact Out.Le.bind (zeroT_mono h t) fun z => Out.Le.bind (fillT_mono h t v z) fun _ => Out.Le.refl _
  | nestedInPlace t =>
    intro i v fld
    simp only [runExtr]
    exact Out.Le.bind (fillT_mono h t v fld) fun _ => Out.Le.refl _
  | slice json elt nl x brk st ih =>
    intro i v fld
    simp only [runExtr]
    cases v.getArr with
    | error c => exact Out.Le.refl _
    | ok l =>
      refine Out.Le.bind (zeroT_mono h elt) fun z => Out.Le.bind (Out.Le.refl _) fun r => ?_
      exact Out.Le.bind (sliceLoop_mono (elemRound_mono h ih nl brk st) _ _ _) fun _ => Out.Le.refl _
  | array json n elt x brk st ih =>
    intro i v fld
    simp only [runExtr]
    cases v.getArr with
    | error c => exact Out.Le.refl _
    | ok l =>
      dsimp only
      split
      · exact Out.Le.refl _
      · refine Out.Le.bind (zeroT_mono h elt) fun z => ?_
        exact Out.Le.bind (sliceLoop_mono (elemRound_mono h ih false brk st) _ _ _) fun _ => Out.Le.refl _
  | map json star t x ih =>
    intro i v fld
    simp only [runExtr]
    cases v.getObj with
    | error c => exact Out.Le.refl _
    | ok kvs =>
      refine Out.Le.bind (Out.Le.refl _) fun m0 => ?_
      exact Out.Le.bind (mapLoop_mono h (fun v => ih 0 v .nil) star t kvs _) fun _ => Out.Le.refl _
  | _ => intro i v fld; exact Out.Le.refl _

theorem storeField_mono (st : Store) (v fld : GoVal) : storeField M st v fld ⊑ storeField M' st v fld := by
  have hc := convT_mono h
  cases st with
  | filled => exact Out.Le.refl _
  | val t => exact hc t v
  | ref t => exact Out.Le.bind (hc t v) fun _ => Out.Le.refl _
  | named t => exact Out.Le.bind (hc t v) fun _ => Out.Le.refl _
  | refNamed t => exact Out.Le.bind (hc t v) fun _ => Out.Le.refl _

theorem runField_mono (f : FieldFill) (v : JV) (fld : GoVal) : runField M f v fld ⊑ runField M' f v fld := by
  unfold runField
  extract_lets x p
  cases p with
  | none => exact Out.Le.refl _
  | some w =>
    refine Out.Le.bind (runExtr_mono h f.x 0 w fld) fun r => ?_
    match r with
    | .ret e c' => exact Out.Le.refl _
    | .done (.error e) c' => exact Out.Le.refl _
    | .done (.ok v) c' =>
      dsimp only
      cases f.max.bind (exceeds · v) with
      | some c => exact Out.Le.refl _
      | none => exact Out.Le.bind (storeField_mono h f.store v c') fun _ => Out.Le.refl _

theorem runFields_mono (v : JV) (fs : List (Option FieldFill)) :
    ∀ gs, runFields M v fs gs ⊑ runFields M' v fs gs := by
  induction fs with
  | nil => intro gs; cases gs <;> exact Out.Le.refl _
  | cons f fs ih =>
    intro gs
    cases gs with
    | nil => cases f <;> exact Out.Le.refl _
    | cons g gs =>
      cases f with
      | none => simp only [runFields]; exact Out.Le.bind (ih gs) fun _ => Out.Le.refl _
      | some f =>
        simp only [runFields]
        refine Out.Le.bind (runField_mono h f v g) fun r => ?_
        obtain ⟨e, g'⟩ := r
        cases e with
        | some e => exact Out.Le.refl _
        | none => exact Out.Le.bind (ih gs) fun _ => Out.Le.refl _

theorem listRound_mono (elt : TExpr) (x : Extr) (i : Nat) (a : JV) (c : GoVal) :
    listRound M elt x i a c ⊑ listRound M' elt x i a c := by
  unfold listRound
  refine Out.Le.bind (runExtr_mono h x i a .nil) fun r => ?_
  match r with
  | .ret e c' => exact Out.Le.refl _
  | .done (.error e) c' => exact Out.Le.refl _
  | .done (.ok v) c' => exact Out.Le.bind (convT_mono h elt v) fun _ => Out.Le.refl _

theorem runFill_mono (ir : FillIR) (v : JV) (s : GoVal) : runFill M ir v s ⊑ runFill M' ir v s := by
  cases ir with
  | struct names strict fields =>
    cases s with
    | struct gs =>
      simp only [runFill]
      cases validate names strict v with
      | some e => exact Out.Le.refl _
      | none => exact Out.Le.bind (runFields_mono h v fields gs) fun _ => Out.Le.refl _
    | _ => exact Out.Le.refl _
  | map star t x =>
    simp only [runFill]
    split
    · exact Out.Le.refl _
    · cases v.getObj with
      | error c => exact Out.Le.refl _
      | ok kvs =>
        exact Out.Le.bind (mapLoop_mono h (fun v => runExtr_mono h x 0 v .nil) star t kvs []) fun _ => Out.Le.refl _
  | list len elt x =>
    cases len with
    | none =>
      simp only [runFill]
      split
      · exact Out.Le.refl _
      · cases v.getArr with
        | error c => exact Out.Le.refl _
        | ok l =>
          refine Out.Le.bind (zeroT_mono h elt) fun z => ?_
          exact Out.Le.bind (sliceLoop_mono (listRound_mono h elt x) _ _ _) fun _ => Out.Le.refl _
    | some n =>
      simp only [runFill]
      split
      · exact Out.Le.refl _
      · cases v.getArr with
        | error c => exact Out.Le.refl _
        | ok l =>
          dsimp only
          split
          · exact Out.Le.refl _
          · cases s with
            | arr cells =>
              exact Out.Le.bind (sliceLoop_mono (listRound_mono h elt x) _ _ _) fun _ => Out.Le.refl _
            | _ => exact Out.Le.refl _
  | bytes len => exact Out.Le.refl _
  | transit t x =>
    simp only [runFill]
    refine Out.Le.bind (runExtr_mono h x 0 v s) fun r => ?_
    match r with
    | .ret e c' => exact Out.Le.refl _
    | .done (.error e) c' => exact Out.Le.refl _
    | .done (.ok v) c' => exact Out.Le.bind (convT_mono h t v) fun _ => Out.Le.refl _

/-! ### encoding -/

omit h in
theorem writeElems_mono {f f' : Nat → GoVal → W → Out (Option EErr × W)} (hf : ∀ i v w, f i v w ⊑ f' i v w)
    (vs : List GoVal) : ∀ i sep w, writeElems f i sep vs w ⊑ writeElems f' i sep vs w := by
  induction vs with
  | nil => intro i sep w; exact Out.Le.refl _
  | cons v vs ih =>
    intro i sep w
    simp only [writeElems]
    refine Out.Le.bind (hf _ _ _) fun r => ?_
    obtain ⟨e, w'⟩ := r
    cases e with
    | some e => exact Out.Le.refl _
    | none => exact ih _ _ _

omit h in
theorem writeMembers_mono {f f' : Str → GoVal → W → Out (Option EErr × W)} (hf : ∀ i v w, f i v w ⊑ f' i v w)
    (kvs : List (Str × GoVal)) : ∀ sep w, writeMembers f sep kvs w ⊑ writeMembers f' sep kvs w := by
  induction kvs with
  | nil => intro sep w; exact Out.Le.refl _
  | cons kv kvs ih =>
    intro sep w
    obtain ⟨k, v⟩ := kv
    simp only [writeMembers]
    refine Out.Le.bind (hf _ _ _) fun r => ?_
    obtain ⟨e, w'⟩ := r
    cases e with
    | some e => exact Out.Le.refl _
    | none => exact ih _ _

theorem runVExt_mono (x : VExt) : ∀ (label : ECtx) (v : GoVal) (w : W),
    runVExt M label x v w ⊑ runVExt M' label x v w := by
  induction x with
  | call n =>
    intro label v w; simp only [runVExt]
    exact Out.Le.bind ((h n).marshalTo _ _) fun _ => Out.Le.refl _
  | callPtr n =>
    intro label v w
    cases v with
    | nil => simp only [runVExt]; exact Out.Le.bind ((h n).marshalTo _ _) fun _ => Out.Le.refl _
    | ptr v => simp only [runVExt]; exact Out.Le.bind ((h n).marshalTo _ _) fun _ => Out.Le.refl _
    | _ => exact Out.Le.refl _
  | star x ih =>
    intro label v w
    cases v with
    | ptr v => simp only [runVExt]; exact ih _ _ _
    | _ => exact Out.Le.refl _
  | arr x ih =>
    intro label v w
    cases v with
    | slice elems spare =>
      simp only [runVExt]
      exact Out.Le.bind (writeElems_mono (fun _ v w => ih label v w) _ _ _ _) fun _ => Out.Le.refl _
    | arr elems =>
      simp only [runVExt]
      exact Out.Le.bind (writeElems_mono (fun _ v w => ih label v w) _ _ _ _) fun _ => Out.Le.refl _
    | _ => exact Out.Le.refl _
  | _ => intro label v w; cases v <;> exact Out.Le.refl _

theorem writeList_mono (name : Str) (x : VExt) (vs : List GoVal) (w : W) :
    writeList M name x vs w ⊑ writeList M' name x vs w := by
  unfold writeList
  exact Out.Le.bind (writeElems_mono (fun i v w => runVExt_mono h x _ v w) _ _ _ _) fun _ => Out.Le.refl _

theorem writeMap_mono (name : Str) (x : VExt) (kvs : List (Str × GoVal)) (w : W) :
    writeMap M name x kvs w ⊑ writeMap M' name x kvs w := by
  unfold writeMap
  exact Out.Le.bind (writeMembers_mono (fun i v w => runVExt_mono h x _ v w) _ _ _) fun _ => Out.Le.refl _

theorem marshalJSON_mono {m m' : Methods} (hm : m.Le m') (r : Option GoVal) :
    marshalJSON m r ⊑ marshalJSON m' r := by
  unfold marshalJSON
  exact Out.Le.bind (hm.marshalTo _ _) fun _ => Out.Le.refl _

theorem runBody_mono (name : Str) (b : Body) (v : GoVal) (w : W) :
    runBody M name b v w ⊑ runBody M' name b v w := by
  cases b with
  | struct n star =>
    simp only [runBody]
    exact Out.Le.bind (Out.Le.refl _) fun _ => Out.Le.bind ((h n).marshalTo _ _) fun _ => Out.Le.refl _
  | inline n =>
    simp only [runBody]
    exact Out.Le.bind (marshalJSON_mono h (h n) _) fun _ => Out.Le.refl _
  | map x =>
    cases v with
    | map kvs => exact writeMap_mono h name x kvs _
    | _ => exact Out.Le.refl _
  | arr x =>
    cases v with
    | slice elems spare => exact writeList_mono h name x elems _
    | arr elems => exact writeList_mono h name x elems _
    | _ => exact Out.Le.refl _
  | _ => exact Out.Le.refl _

omit [Ext] in
theorem runCond_mono (c : Cond) (v : GoVal) : runCond M c v ⊑ runCond M' c v := by
  cases c with
  | method n => exact Out.Le.bind ((h n).isZero v) fun _ => Out.Le.refl _
  | _ => exact Out.Le.refl _

theorem runBlk_mono (b : Blk) (v : GoVal) (wc : Bool) (w : W) : runBlk M b v wc w ⊑ runBlk M' b v wc w := by
  unfold runBlk
  cases b.cond with
  | none => exact Out.Le.bind (runBody_mono h _ _ _ _) fun _ => Out.Le.refl _
  | some c =>
    refine Out.Le.bind (runCond_mono h c v) fun nz => ?_
    cases nz
    · exact Out.Le.refl _
    · exact Out.Le.bind (runBody_mono h _ _ _ _) fun _ => Out.Le.refl _

theorem runBlks_mono (bs : List Blk) : ∀ vs wc w, runBlks M bs vs wc w ⊑ runBlks M' bs vs wc w := by
  induction bs with
  | nil => intro vs wc w; cases vs <;> exact Out.Le.refl _
  | cons b bs ih =>
    intro vs wc w
    cases vs with
    | nil => exact Out.Le.refl _
    | cons v vs =>
      simp only [runBlks]
      refine Out.Le.bind (runBlk_mono h b v wc w) fun r => ?_
      obtain ⟨e, wc', w'⟩ := r
      cases e with
      | some e => exact Out.Le.refl _
      | none => exact ih _ _ _

theorem runMarshal_mono (ir : MarshalIR) (r : Option GoVal) (w : W) :
    runMarshal M ir r w ⊑ runMarshal M' ir r w := by
  cases ir with
  | struct bs =>
    cases bs with
    | nil => exact Out.Le.refl _
    | cons b bs =>
      cases r with
      | none => exact Out.Le.refl _
      | some v =>
        cases v with
        | struct vs =>
          simp only [runMarshal]
          exact Out.Le.bind (runBlks_mono h _ _ _ _) fun _ => Out.Le.refl _
        | _ => exact Out.Le.refl _
  | map x =>
    cases r with
    | none => exact Out.Le.refl _
    | some v =>
      cases v with
      | map kvs =>
        simp only [runMarshal]
        exact Out.Le.bind (writeMap_mono h _ _ _ _) fun _ => Out.Le.refl _
      | _ => exact Out.Le.refl _
  | list fixed x =>
    cases r with
    | none => exact Out.Le.refl _
    | some v =>
      cases v with
      | slice elems spare =>
        simp only [runMarshal]
        exact Out.Le.bind (writeList_mono h _ _ _ _) fun _ => Out.Le.refl _
      | arr elems =>
        simp only [runMarshal]
        exact Out.Le.bind (writeList_mono h _ _ _ _) fun _ => Out.Le.refl _
      | _ => exact Out.Le.refl _
  | call n =>
    cases r with
    | none => exact Out.Le.refl _
    | some v => exact (h n).marshalTo _ _
  | _ => exact Out.Le.refl _

/-! ### IsZero and Reset -/

omit [Ext] in
theorem runZTest_mono (t : ZTest) (v : GoVal) : runZTest M t v ⊑ runZTest M' t v := by
  cases t with
  | method n => exact (h n).isZero v
  | const => exact Out.Le.refl _
  | time => cases v <;> exact Out.Le.refl _

omit [Ext] in
theorem runZTests_mono (ts : List ZTest) : ∀ vs, runZTests M ts vs ⊑ runZTests M' ts vs := by
  induction ts with
  | nil => intro vs; cases vs <;> exact Out.Le.refl _
  | cons t ts ih =>
    intro vs
    cases vs with
    | nil => exact Out.Le.refl _
    | cons v vs =>
      simp only [runZTests]
      refine Out.Le.bind (runZTest_mono h t v) fun z => ?_
      cases z
      · exact Out.Le.refl _
      · exact ih vs

omit [Ext] in
theorem runAll_mono (t : ZTest) (vs : List GoVal) : runAll M t vs ⊑ runAll M' t vs := by
  induction vs with
  | nil => exact Out.Le.refl _
  | cons v vs ih =>
    simp only [runAll]
    refine Out.Le.bind (runZTest_mono h t v) fun z => ?_
    cases t <;> cases z <;> first | exact Out.Le.refl _ | exact ih

omit [Ext] in
theorem runZero_mono (ir : ZeroIR) (v : GoVal) : runZero M ir v ⊑ runZero M' ir v := by
  cases ir with
  | struct ts => cases v <;> first | exact Out.Le.refl _ | exact runZTests_mono h ts _
  | all t => cases v <;> first | exact Out.Le.refl _ | exact runAll_mono h t _
  | single t => exact runZTest_mono h t v
  | _ => exact Out.Le.refl _

omit h [Ext] in
theorem mapOut_mono {f f' : GoVal → Out GoVal} (hf : ∀ v, f v ⊑ f' v) (vs : List GoVal) :
    mapOut f vs ⊑ mapOut f' vs := by
  induction vs with
  | nil => exact Out.Le.refl _
  | cons v vs ih =>
    simp only [mapOut]
    exact Out.Le.bind (hf v) fun _ => Out.Le.bind ih fun _ => Out.Le.refl _

omit h [Ext] in
theorem mapOutKV_mono {f f' : GoVal → Out GoVal} (hf : ∀ v, f v ⊑ f' v) (vs : List (Str × GoVal)) :
    mapOutKV f vs ⊑ mapOutKV f' vs := by
  induction vs with
  | nil => exact Out.Le.refl _
  | cons v vs ih =>
    simp only [mapOutKV]
    exact Out.Le.bind (hf _) fun _ => Out.Le.bind ih fun _ => Out.Le.refl _

theorem runReset_mono (x : RIR) : ∀ v, runReset M x v ⊑ runReset M' x v := by
  induction x with
  | slice x ih =>
    intro v
    cases v with
    | slice elems spare =>
      simp only [runReset]
      exact Out.Le.bind (mapOut_mono ih _) fun _ => Out.Le.refl _
    | _ => exact Out.Le.refl _
  | const t =>
    intro v; simp only [runReset]; exact zeroT_mono h t
  | method n =>
    intro v; simp only [runReset]; exact (h n).reset v
  | _ => intro v; cases v <;> exact Out.Le.refl _

theorem runResets_mono (xs : List RIR) : ∀ vs, runResets M xs vs ⊑ runResets M' xs vs := by
  induction xs with
  | nil => intro vs; cases vs <;> exact Out.Le.refl _
  | cons x xs ih =>
    intro vs
    cases vs with
    | nil => exact Out.Le.refl _
    | cons v vs =>
      simp only [runResets]
      exact Out.Le.bind (runReset_mono h x v) fun _ => Out.Le.bind (ih vs) fun _ => Out.Le.refl _

theorem runResetDecl_mono (ir : ResetIR) (v : GoVal) : runResetDecl M ir v ⊑ runResetDecl M' ir v := by
  cases ir with
  | struct xs =>
    cases v with
    | struct vs => simp only [runResetDecl]; exact Out.Le.bind (runResets_mono h xs vs) fun _ => Out.Le.refl _
    | _ => exact Out.Le.refl _
  | map x =>
    cases v with
    | map kvs =>
      simp only [runResetDecl]
      exact Out.Le.bind (mapOutKV_mono (runReset_mono h x) _) fun _ => Out.Le.refl _
    | _ => exact Out.Le.refl _
  | list e =>
    cases e with
    | none => exact Out.Le.refl _
    | some n =>
      cases v with
      | slice elems spare =>
        simp only [runResetDecl]
        exact Out.Le.bind (mapOut_mono (h n).reset _) fun _ => Out.Le.refl _
      | _ => exact Out.Le.refl _
  | const t => exact zeroT_mono h t
  | bytes => exact Out.Le.refl _
  | single x => exact runReset_mono h x v

theorem zeroFields_mono (fs : List FieldDecl) : zeroFields M fs ⊑ zeroFields M' fs := by
  induction fs with
  | nil => exact Out.Le.refl _
  | cons f fs ih =>
    simp only [zeroFields]
    exact Out.Le.bind (zeroT_mono h _) fun _ => Out.Le.bind ih fun _ => Out.Le.refl _

end

/-! ### the generator -/

section
variable [Ext] (Γ : Env)

theorem typedValue_mono (k : Nat) : ∀ f p, typedValue Γ k f p ⊑ typedValue Γ (k + 1) f p := by
  induction k with
  | zero => intro f p; exact Out.Le.loop _
  | succ k ih =>
    intro f p
    rw [typedValue, typedValue]
    generalize (if (Γ.denoted f.refx).isOrdinal = true then Γ.denoted f.refx else f.refx) = refx
    cases refx with
    | star x => exact Out.Le.bind (ih _ _) fun _ => Out.Le.refl _
    | slice e =>
      dsimp only
      split
      · exact Out.Le.refl _
      · split
        · exact Out.Le.refl _
        · split
          · exact Out.Le.refl _
          · exact Out.Le.bind (ih _ _) fun _ => Out.Le.refl _
    | array n e =>
      dsimp only
      split
      · exact Out.Le.refl _
      · split
        · exact Out.Le.refl _
        · exact Out.Le.bind (ih _ _) fun _ => Out.Le.refl _
    | map v =>
      dsimp only
      split
      · exact Out.Le.refl _
      · exact Out.Le.bind (ih _ _) fun _ => Out.Le.refl _
    | _ => exact Out.Le.refl _

theorem genFieldFill_mono (k : Nat) (fd : FieldDecl) : genFieldFill Γ k fd ⊑ genFieldFill Γ (k + 1) fd := by
  unfold genFieldFill
  split
  · exact Out.Le.refl _
  · exact Out.Le.bind (typedValue_mono Γ k _ _) fun _ => Out.Le.refl _

theorem genFields_mono (k : Nat) (fds : List FieldDecl) : genFields Γ k fds ⊑ genFields Γ (k + 1) fds := by
  induction fds with
  | nil => exact Out.Le.refl _
  | cons fd fds ih =>
    simp only [genFields]
    exact Out.Le.bind (genFieldFill_mono Γ k fd) fun _ => Out.Le.bind ih fun _ => Out.Le.refl _

theorem genFill_mono (k : Nat) (d : Decl) : genFill Γ k d ⊑ genFill Γ (k + 1) d := by
  cases d with
  | struct strict fields =>
    simp only [genFill]
    exact Out.Le.bind (genFields_mono Γ k fields) fun _ => Out.Le.refl _
  | alias t =>
    cases t with
    | slice e =>
      simp only [genFill]
      split
      · exact Out.Le.refl _
      · split
        · exact Out.Le.refl _
        · exact Out.Le.bind (typedValue_mono Γ k _ _) fun _ => Out.Le.refl _
    | array n e =>
      simp only [genFill]
      split
      · exact Out.Le.refl _
      · split
        · exact Out.Le.refl _
        · exact Out.Le.bind (typedValue_mono Γ k _ _) fun _ => Out.Le.refl _
    | star t => exact Out.Le.refl _
    | structT => exact Out.Le.refl _
    | _ =>
      simp only [genFill]
      exact Out.Le.bind (typedValue_mono Γ k _ _) fun _ => Out.Le.refl _

theorem zeroKnown_mono (k : Nat) : ∀ t, zeroKnown Γ k t ⊑ zeroKnown Γ (k + 1) t := by
  induction k with
  | zero =>
    intro t
    cases t with
    | named n => exact Out.Le.loop _
    | _ => exact Out.Le.refl _
  | succ k ih =>
    intro t
    cases t with
    | named n =>
      simp only [zeroKnown]
      cases Γ.decl n with
      | none => exact Out.Le.refl _
      | some d => exact ih _
    | _ => exact Out.Le.refl _

theorem zTest_mono (k : Nat) (a b : TExpr) : zTest Γ k a b ⊑ zTest Γ (k + 1) a b := by
  unfold zTest
  exact Out.Le.bind (zeroKnown_mono Γ k _) fun _ => Out.Le.refl _

theorem genZTests_mono (k : Nat) (fds : List FieldDecl) : genZTests Γ k fds ⊑ genZTests Γ (k + 1) fds := by
  induction fds with
  | nil => exact Out.Le.refl _
  | cons fd fds ih =>
    simp only [genZTests]
    exact Out.Le.bind (zTest_mono Γ k _ _) fun _ => Out.Le.bind ih fun _ => Out.Le.refl _

theorem genZero_mono (k : Nat) (d : Decl) : genZero Γ k d ⊑ genZero Γ (k + 1) d := by
  cases d with
  | struct strict fields =>
    simp only [genZero]
    split
    · exact Out.Le.refl _
    · exact Out.Le.bind (genZTests_mono Γ k fields) fun _ => Out.Le.refl _
  | alias t =>
    cases t <;> simp only [genZero] <;>
      first
      | exact Out.Le.refl _
      | exact Out.Le.bind (zTest_mono Γ k _ _) fun _ => Out.Le.refl _
      | (split
         · exact Out.Le.refl _
         · exact Out.Le.bind (zTest_mono Γ k _ _) fun _ => Out.Le.refl _)

theorem genReset_mono (k lvl : Nat) : ∀ t, genReset Γ k lvl t ⊑ genReset Γ (k + 1) lvl t := by
  induction lvl with
  | zero =>
    intro t
    unfold genReset
    cases Γ.denoted t <;>
      first
      | exact Out.Le.refl _
      | exact Out.Le.bind (zeroKnown_mono Γ k _) fun _ => Out.Le.refl _
  | succ lvl ih =>
    intro t
    unfold genReset
    cases Γ.denoted t with
    | slice e =>
      dsimp only
      split
      · exact Out.Le.refl _
      · exact Out.Le.bind (ih _) fun _ => Out.Le.refl _
    | _ =>
      first
      | exact Out.Le.refl _
      | exact Out.Le.bind (zeroKnown_mono Γ k _) fun _ => Out.Le.refl _

theorem genResets_mono (k : Nat) (fds : List FieldDecl) : genResets Γ k fds ⊑ genResets Γ (k + 1) fds := by
  induction fds with
  | nil => exact Out.Le.refl _
  | cons fd fds ih =>
    simp only [genResets]
    exact Out.Le.bind (genReset_mono Γ k 6 _) fun _ => Out.Le.bind ih fun _ => Out.Le.refl _

theorem genResetDecl_mono (k : Nat) (d : Decl) : genResetDecl Γ k d ⊑ genResetDecl Γ (k + 1) d := by
  cases d with
  | struct strict fields =>
    simp only [genResetDecl]
    exact Out.Le.bind (genResets_mono Γ k fields) fun _ => Out.Le.refl _
  | alias t =>
    cases t <;> simp only [genResetDecl] <;>
      first
      | exact Out.Le.refl _
      | exact Out.Le.bind (genReset_mono Γ k 6 _) fun _ => Out.Le.refl _

theorem declMethods_mono (k : Nat) {M M' : Nat → Methods} (h : ∀ n, (M n).Le (M' n)) (d : Decl) :
    (declMethods Γ k M d).Le (declMethods Γ (k + 1) M' d) where
  zero := by
    cases d with
    | struct strict fields => exact Out.Le.bind (zeroFields_mono h fields) fun _ => Out.Le.refl _
    | alias t => exact zeroT_mono h t
  conv v := by
    cases d with
    | struct strict fields => exact Out.Le.refl _
    | alias t => exact convT_mono h t v
  fill v s := Out.Le.bind (genFill_mono Γ k d) fun ir => runFill_mono h ir v s
  marshalTo r w := Out.Le.bind (Out.Le.refl _) fun ir => runMarshal_mono h ir r w
  isZero v := Out.Le.bind (genZero_mono Γ k d) fun ir => runZero_mono h ir v
  reset v := Out.Le.bind (genResetDecl_mono Γ k d) fun ir => runResetDecl_mono h ir v

theorem methods_mono_succ (k : Nat) : ∀ n, (Γ.methods k n).Le (Γ.methods (k + 1) n) := by
  induction k with
  | zero => intro n; exact Methods.Le.loop _
  | succ k ih =>
    intro n
    rw [Env.methods, Env.methods]
    cases Γ.decl n with
    | none => exact Methods.Le.refl _
    | some d => exact declMethods_mono Γ k ih d

/-- More fuel changes no result. -/
theorem methods_mono {k k' : Nat} (hk : k ≤ k') (n : Nat) : (Γ.methods k n).Le (Γ.methods k' n) := by
  induction hk with
  | refl => exact Methods.Le.refl _
  | @step m _ ih =>
    have h' := methods_mono_succ Γ m n
    exact ⟨ih.zero.trans h'.zero, fun v => (ih.conv v).trans (h'.conv v),
      fun v s => (ih.fill v s).trans (h'.fill v s), fun r w => (ih.marshalTo r w).trans (h'.marshalTo r w),
      fun v => (ih.isZero v).trans (h'.isZero v), fun v => (ih.reset v).trans (h'.reset v)⟩

end

end VJ
