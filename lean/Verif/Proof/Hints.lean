import Verif.Proof.Errors
import Verif.Spec.Hints

/-!
# Every decode error has the right cause, and its path names nothing else than the way to it
-/

namespace VJ
set_option linter.unusedSectionVars false
set_option linter.unusedSimpArgs false

section
variable [Ext] {Γ : Env}

theorem abridges_self : ∀ l : List Str, Abridges l l
  | [] => .done
  | a :: l => .keep a (abridges_self l)

theorem Blames.mentions {L : Str} {t : TExpr} {v : JV} {e : Err} (h : Blames Γ L t v e) : Hints Γ L t v e := by
  obtain ⟨p, tl, L', t', v', c, h1, h2, rfl⟩ := h
  have : (errorAt (p ++ tl) c).cause = c := by cases h : p ++ tl <;> rfl
  exact ⟨p, tl, L', t', v', p ++ tl, h1, by rw [this]; exact h2, by rw [this], abridges_self _⟩

theorem Hints.filler {L : Str} {t : TExpr} {v : JV} {e : Err} {s : Str} (hs : Filler s) (h : Hints Γ L t v e) :
    Hints Γ L t v (newParsingError s e) := by
  obtain ⟨p, tl, L', t', v', path, h1, h2, h3, h4⟩ := h
  refine ⟨p, tl, L', t', v', s :: path, h1, by rwa [newParsingError_cause], ?_, .filler hs h4⟩
  rw [newParsingError_cause, ← errorAt_wrap, ← h3]

theorem Hints.ptr {L : Str} {t : TExpr} {v : JV} {e : Err} (h : Hints Γ L t v e) : Hints Γ L (.star t) v e := by
  obtain ⟨p, tl, L', t', v', path, h1, h2⟩ := h
  exact ⟨p, tl, L', t', v', path, .ptr h1, h2⟩

theorem Hints.pointee {L : Str} {t : TExpr} {v : JV} {e : Err} (h : Hints Γ L (pointee t) v e) : Hints Γ L t v e := by
  cases t <;> first | exact h | exact h.ptr

theorem Hints.name {L L0 : Str} {t u : TExpr} {n : Nat} {v : JV} {e : Err} (hn : NameOf t n)
    (hd : Γ.decl n = some (.alias u)) (hl : L0 = L ∨ L0 = []) (h : Hints Γ L0 u v e) : Hints Γ L t v e := by
  obtain ⟨p, tl, L', t', v', path, h1, h2⟩ := h
  exact ⟨p, tl, L', t', v', path, .name hn hd hl h1, h2⟩

/-- an error of a part, as it is or with the name of the part -/
theorem Hints.under {L L0 : Str} {t u : TExpr} {v a : JV} {name : Str} {e e0 : Err}
    (hstep : ∀ {place : List Str} {L' : Str} {t' : TExpr} {v' : JV}, LeadsTo Γ L0 u a place L' t' v' → LeadsTo Γ L t v (name :: place) L' t' v')
    (h : Hints Γ L0 u a e0) (he : e = e0 ∨ e = newParsingError name e0) : Hints Γ L t v e := by
  obtain ⟨p, tl, L', t', v', path, h1, h2, h3, h4⟩ := h
  rcases he with rfl | rfl
  · exact ⟨name :: p, tl, L', t', v', path, hstep h1, h2, h3, .skip name h4⟩
  · refine ⟨name :: p, tl, L', t', v', name :: path, hstep h1, by rwa [newParsingError_cause], ?_, .keep name h4⟩
    rw [newParsingError_cause, ← errorAt_wrap, ← h3]

theorem Hints.elem {L : Str} {t elt : TExpr} {l : List JV} {i : Nat} {a : JV} {e e0 : Err}
    (ht : Is Γ t (.slice elt) ∨ ∃ n, Is Γ t (.array n elt)) (hi : l[i]? = some a) (h : Hints Γ [] elt a e0)
    (he : e = e0 ∨ e = newParsingError (natStr i) e0) : Hints Γ L t (.arr l) e :=
  h.under (fun h => .elem ht hi h) he

theorem Hints.entry {L : Str} {t val : TExpr} {kvs : List (Str × JV)} {key : Str} {a : JV} {e e0 : Err}
    (ht : Is Γ t (.map val)) (hm : (key, a) ∈ kvs) (h : Hints Γ L val a e0) (he : e = e0 ∨ e = newParsingError key e0) :
    Hints Γ L t (.obj kvs) e :=
  h.under (fun h => .entry ht hm h) he

/-- what a template may report: the error of a part, bare or with the name of the part -/
def Hinted (Γ : Env) (L : Str) (t : TExpr) (v : JV) (name : Str) (tv : TV) : Prop :=
  (∀ e f, tv = .done (.error e) f → Hints Γ L t v e) ∧
  (∀ e f, tv = .ret e f → ∃ e0, Hints Γ L t v e0 ∧ (e = e0 ∨ e = newParsingError name e0))

theorem Hinted.done {L : Str} {t : TExpr} {v : JV} {name : Str} {r : Except Err GoVal} {f : GoVal}
    (h : ∀ e, r = .error e → Hints Γ L t v e) : Hinted Γ L t v name (.done r f) :=
  ⟨fun e _ he => (by cases he; exact h e rfl), fun _ _ he => (by cases he)⟩

theorem Hinted.bare {L : Str} {t : TExpr} {v : JV} {name : Str} {e : Err} {f : GoVal}
    (h : Hints Γ L t v e) : Hinted Γ L t v name (.ret e f) :=
  ⟨fun _ _ he => (by cases he), fun _ _ he => (by cases he; exact ⟨e, h, .inl rfl⟩)⟩

/-- a template names either the part or nothing -/
theorem Hinted.ret {L : Str} {t : TExpr} {v : JV} {name s : Str} {e : Err} {f : GoVal} (hs : s = name ∨ Filler s)
    (h : Hints Γ L t v e) : Hinted Γ L t v name (.ret (newParsingError s e) f) := by
  rcases hs with rfl | hs
  · exact ⟨fun _ _ he => (by cases he), fun _ _ he => (by cases he; exact ⟨e, h, .inr rfl⟩)⟩
  · exact .bare (h.filler hs)

theorem Told.hinted {L : Str} {t : TExpr} {v : JV} {name s : Str} {tv : TV} (hs : s = name ∨ Filler s) (h : Told Γ L t v s tv) :
    Hinted Γ L t v name tv := by
  refine ⟨fun e f he => (h.1 e f he).mentions, fun e f he => ?_⟩
  obtain ⟨e0, h1, rfl⟩ := h.2 e f he
  rcases hs with rfl | hs
  · exact ⟨e0, h1.mentions, .inr rfl⟩
  · exact ⟨_, h1.mentions.filler hs, .inl rfl⟩

section
variable {S : Nat → Prop} {M : Nat → Methods}

/-- the methods of the types of `S` report errors so -/
def CallsHint (Γ : Env) (S : Nat → Prop) (M : Nat → Methods) : Prop :=
  ∀ n v s e s', S n → (M n).fill v s = .ok (some e, s') → ∀ L t, NameOf t n → Hints Γ L t v e

theorem fillT_hint (hC : CallsHint Γ S M) {t : TExpr} {n : Nat} (hg : Good S t) (hc : Calls Γ t n) {v : JV} {s s' : GoVal}
    {e : Err} (h : fillT M t v s = .ok (some e, s')) (L : Str) : Hints Γ L t v e := by
  have hn := pointee_nameOf hc
  have hs := hg.name hn
  cases hn with
  | named => exact hC n v s e s' hs h L _ (.named n)
  | sel => exact hC n v s e s' hs h L _ (.sel n)

theorem call_hint (hC : CallsHint Γ S M) {f : Fld} {n : Nat} (hg : Good S f.expr) (hc : Calls Γ f.expr n) {x : Extr}
    (hx : x = .nestedFresh f.expr ∨ x = .nestedInPlace f.expr) {i : Nat} {v : JV} {fld : GoVal} {tv : TV}
    (h : runExtr M x i v fld = .ok tv) (L name : Str) : Hinted Γ L f.expr v name tv := by
  rcases hx with rfl | rfl
  · simp only [runExtr] at h
    obtain ⟨z, _, h⟩ := Out.bind_eq_ok.1 h
    obtain ⟨⟨e, w⟩, h1, h⟩ := Out.bind_eq_ok.1 h
    simp only [Out.pure_eq, Out.ok.injEq] at h
    subst h
    refine .done ?_
    intro e' he
    cases e with
    | none => cases he
    | some e =>
      simp only [Except.error.injEq] at he
      subst he
      exact fillT_hint hC hg hc h1 L
  · simp only [runExtr] at h
    obtain ⟨⟨e, w⟩, h1, h⟩ := Out.bind_eq_ok.1 h
    simp only [Out.pure_eq, Out.ok.injEq] at h
    subst h
    refine .done ?_
    intro e' he
    cases e with
    | none => cases he
    | some e =>
      simp only [Except.error.injEq] at he
      subst he
      exact fillT_hint hC hg hc h1 L

/-- the loop over the members of an object -/
theorem mapLoop_hint {x : JV → Out TV} {t : TExpr} {L : Str}
    (hx : ∀ a e f, x a = .ok (.done (.error e) f) → Hints Γ L t a e) {star : Bool} {val : TExpr} :
    ∀ {kvs : List (Str × JV)} {m m' : List (Str × GoVal)} {e : Err}, mapLoop M star val x kvs m = .ok (some e, m') →
      ∃ key a e0, (key, a) ∈ kvs ∧ Hints Γ L t a e0 ∧ e = newParsingError key e0
  | [], m, m', e, hr => by simp [mapLoop] at hr
  | (key, a) :: rest, m, m', e, hr => by
    have rec' : ∀ {m0 : List (Str × GoVal)}, mapLoop M star val x rest m0 = .ok (some e, m') →
        ∃ key' a' e0, (key', a') ∈ (key, a) :: rest ∧ Hints Γ L t a' e0 ∧ e = newParsingError key' e0 := by
      intro m0 h0
      obtain ⟨k', a', e0, h1, h2⟩ := mapLoop_hint hx h0
      exact ⟨k', a', e0, List.mem_cons_of_mem _ h1, h2⟩
    simp only [mapLoop] at hr
    split at hr
    · exact rec' hr
    · obtain ⟨tv, h1, h2⟩ := Out.bind_eq_ok.1 hr
      cases tv with
      | ret e' f' => cases h2
      | done r f' =>
        cases r with
        | error e' =>
          simp only [Out.pure_eq, Out.ok.injEq, Prod.mk.injEq, Option.some.injEq] at h2
          obtain ⟨rfl, rfl⟩ := h2
          exact ⟨key, a, e', List.mem_cons_self, hx _ _ _ h1, rfl⟩
        | ok w =>
          simp only at h2
          obtain ⟨w', _, h2⟩ := Out.bind_eq_ok.1 h2
          exact rec' h2

/-- an error of an element, as it is or with the index -/
def ElemHint (Γ : Env) (t : TExpr) (i : Nat) (a : JV) (e : Err) : Prop :=
  ∃ e0, Hints Γ [] t a e0 ∧ (e = e0 ∨ e = newParsingError (natStr i) e0)

/-- one round of a loop over the elements of a field -/
theorem elemRound_hint {x : Nat → JV → GoVal → Out TV} {t : TExpr}
    (hx : ∀ i a c tv, x i a c = .ok tv → Hinted Γ [] t a (natStr i) tv) {nullable brk : Bool} {st : ElemStore} (i : Nat) (a : JV) (c : GoVal) (e : Err)
    (w : GoVal) (hr : elemRound M nullable brk st x i a c = .ok (.ret e w) ∨ elemRound M nullable brk st x i a c = .ok (.brk e w)) :
    ElemHint Γ t i a e := by
  have key : ∀ r, elemRound M nullable brk st x i a c = .ok r → r = .ret e w ∨ r = .brk e w → ElemHint Γ t i a e := by
    intro r hr hc
    simp only [elemRound] at hr
    split at hr
    · simp only [Out.ok.injEq] at hr
      subst hr
      rcases hc with hc | hc <;> cases hc
    · obtain ⟨tv, h1, h2⟩ := Out.bind_eq_ok.1 hr
      have hT := hx _ _ _ _ h1
      cases tv with
      | ret e' f' =>
        simp only [Out.pure_eq, Out.ok.injEq] at h2
        subst h2
        rcases hc with hc | hc <;> cases hc
        exact hT.2 _ _ rfl
      | done q f' =>
        cases q with
        | error e' =>
          simp only at h2
          split at h2
          · simp only [Out.pure_eq, Out.ok.injEq] at h2
            subst h2
            rcases hc with hc | hc <;> cases hc
            exact ⟨e', hT.1 _ _ rfl, .inr rfl⟩
          · cases h2
        | ok val =>
          simp only at h2
          obtain ⟨w', _, h2⟩ := Out.bind_eq_ok.1 h2
          simp only [Out.pure_eq, Out.ok.injEq] at h2
          subst h2
          rcases hc with hc | hc <;> cases hc
  rcases hr with hr | hr
  · exact key _ hr (Or.inl rfl)
  · exact key _ hr (Or.inr rfl)

/-- any template -/
theorem plan_hint (hC : CallsHint Γ S M) (hS : ∀ t u, Good S t → Is Γ t u → Good S u) {f : Fld} {path : PathE} {x : Extr} {b : Bool}
    (h : Plan Γ f path x b) : Good S f.expr → ∀ {i : Nat} {name : Str}, (path.text i = name ∨ Filler (path.text i)) →
      (f.tags.jsonName = name ∨ Filler f.tags.jsonName) → ∀ {v : JV} {fld : GoVal} {tv : TV}, runExtr M x i v fld = .ok tv →
      Hinted Γ f.tags.layout f.expr v name tv := by
  induction h with
  | prim h hx => intro _ i name hp _ v fld tv hr; exact (prim_told hx h hr).hinted hp
  | fresh h => intro hg i name _ _ v fld tv hr; exact call_hint hC hg h (Or.inl rfl) hr _ _
  | inPlace h => intro hg i name _ _ v fld tv hr; exact call_hint hC hg h (Or.inr rfl) hr _ _
  | anon h => intro hg; have := hg.2; rw [h] at this; cases this
  | time h hl => intro _ i name _ hj v fld tv hr; exact (time_told hl h hr).hinted hj
  | uuid h => intro _ i name _ hj v fld tv hr; exact (uuid_told h hr).hinted hj
  | bytes h =>
    intro _ i name _ _ v fld tv hr
    simp only [runExtr] at hr
    obtain ⟨⟨e, d⟩, h1, hr⟩ := Out.bind_eq_ok.1 hr
    cases e with
    | none => simp only [Out.pure_eq, Out.ok.injEq] at hr; subst hr; exact .done (by simp)
    | some e =>
      simp only [Out.pure_eq, Out.ok.injEq] at hr
      subst hr
      exact .bare (bytes_told (len := none) h h1 _).mentions
  | @fixedBytes _ _ n h =>
    intro _ i name _ _ v fld tv hr
    simp only [runExtr] at hr
    obtain ⟨⟨e, d⟩, h1, hr⟩ := Out.bind_eq_ok.1 hr
    cases e with
    | none => simp only [Out.pure_eq, Out.ok.injEq] at hr; subst hr; exact .done (by simp)
    | some e =>
      simp only [Out.pure_eq, Out.ok.injEq] at hr
      subst hr
      exact .bare (bytes_told (len := some n) h h1 _).mentions
  | @slice f path elt x b h hb ha hf hx ih =>
    intro hg i name _ hj v fld tv hr
    have hge : Good S elt := (hS _ _ hg h).slice
    have hround : ∀ (i : Nat) (a : JV) (c : GoVal) (tv : TV), runExtr M x i a c = .ok tv → Hinted Γ [] (VJ.pointee elt) a (natStr i) tv := by
      intro i a c tv h0
      have := ih (by rw [prepare_expr]; exact hge.pointee) (name := natStr i) (.inl rfl) (.inr (.inl rfl)) h0
      rwa [prepare_expr] at this
    simp only [runExtr] at hr
    cases hv : v.getArr with
    | error c =>
      rw [hv] at hr; cases hr
      obtain ⟨h1, rfl⟩ := getArr_err hv
      exact .ret hj (Wrong.type (.list (Or.inl h) hb) h1).plain.mentions
    | ok l =>
      obtain rfl := getArr_ok hv
      rw [hv] at hr
      obtain ⟨z, _, hr⟩ := Out.bind_eq_ok.1 hr
      obtain ⟨⟨fresh, cells⟩, _, hr⟩ := Out.bind_eq_ok.1 hr
      obtain ⟨⟨stop, n, cells'⟩, hl, hr⟩ := Out.bind_eq_ok.1 hr
      have hel : ∀ e, stop = .ret e ∨ stop = .brk e → Hints Γ f.tags.layout f.expr (.arr l) e := by
        intro e he
        obtain ⟨j, a, hj, e0, h1, h2⟩ := sliceLoop_told (R := ElemHint Γ (VJ.pointee elt)) (fun i a c e w hr => elemRound_hint hround i a c e w hr) hl he
        rw [Nat.zero_add] at h2
        exact .elem (Or.inl h) hj h1.pointee h2
      cases stop with
      | fin =>
        simp only [Out.pure_eq, Out.ok.injEq] at hr
        subst hr
        exact .done (by simp)
      | ret e =>
        simp only [Out.pure_eq, Out.ok.injEq] at hr
        subst hr
        exact .bare (hel _ (.inl rfl))
      | brk e =>
        simp only at hr
        split at hr
        · simp only [Out.pure_eq, Out.ok.injEq] at hr
          subst hr
          exact .done (by simp)
        · simp only [Out.pure_eq, Out.ok.injEq] at hr
          subst hr
          refine .done ?_
          intro e' he
          cases he
          exact hel _ (Or.inr rfl)
  | @array f path elt len x h hb hnl hx ih =>
    intro hg i name _ hj v fld tv hr
    have hge : Good S elt := (hS _ _ hg h).array
    have hround : ∀ (i : Nat) (a : JV) (c : GoVal) (tv : TV), runExtr M x i a c = .ok tv → Hinted Γ [] (VJ.pointee elt) a (natStr i) tv := by
      intro i a c tv h0
      have := ih (by rw [prepare_expr]; exact hge.pointee) (name := natStr i) (.inl rfl) (.inr (.inl rfl)) h0
      rwa [prepare_expr] at this
    simp only [runExtr] at hr
    cases hv : v.getArr with
    | error c =>
      rw [hv] at hr; cases hr
      obtain ⟨h1, rfl⟩ := getArr_err hv
      exact .ret hj (Wrong.type (.list (Or.inr ⟨_, h⟩) hb) h1).plain.mentions
    | ok l =>
      obtain rfl := getArr_ok hv
      rw [hv] at hr
      simp only at hr
      split at hr
      · rename_i hne
        cases hr
        exact .ret hj (Wrong.length h hne (Or.inl rfl)).plain.mentions
      obtain ⟨z, _, hr⟩ := Out.bind_eq_ok.1 hr
      obtain ⟨⟨stop, n, cells'⟩, hl, hr⟩ := Out.bind_eq_ok.1 hr
      have hel : ∀ e, stop = .ret e ∨ stop = .brk e → Hints Γ f.tags.layout f.expr (.arr l) e := by
        intro e he
        obtain ⟨j, a, hj, e0, h1, h2⟩ := sliceLoop_told (R := ElemHint Γ (VJ.pointee elt)) (fun i a c e w hr => elemRound_hint hround i a c e w hr) hl he
        rw [Nat.zero_add] at h2
        exact .elem (Or.inr ⟨_, h⟩) hj h1.pointee h2
      cases stop with
      | fin =>
        simp only [Out.pure_eq, Out.ok.injEq] at hr
        subst hr
        exact .done (by simp)
      | ret e =>
        simp only [Out.pure_eq, Out.ok.injEq] at hr
        subst hr
        exact .bare (hel _ (.inl rfl))
      | brk e =>
        simp only at hr
        split at hr
        · simp only [Out.pure_eq, Out.ok.injEq] at hr
          subst hr
          exact .done (by simp)
        · simp only [Out.pure_eq, Out.ok.injEq] at hr
          subst hr
          refine .done ?_
          intro e' he
          cases he
          exact hel _ (Or.inr rfl)
  | @map f path val x b h hf hs hx ih =>
    intro hg i name _ hj v fld tv hr
    have hge : Good S val := (hS _ _ hg h).map
    have hval : ∀ a e g, runExtr M x 0 a .nil = .ok (.done (.error e) g) → Hints Γ f.tags.layout (VJ.pointee val) a e := by
      intro a e g h0
      have := (ih (by rw [prepare_expr]; exact hge.pointee) (i := 0) (name := f.tags.jsonName) (.inl rfl) (.inl rfl) h0).1 _ _ rfl
      rwa [prepare_expr] at this
    simp only [runExtr] at hr
    cases hv : v.getObj with
    | error c =>
      rw [hv] at hr; cases hr
      obtain ⟨h1, rfl⟩ := getObj_err hv
      exact .ret hj (Wrong.type (.map h) h1).plain.mentions
    | ok kvs =>
      obtain rfl := getObj_ok hv
      rw [hv] at hr
      obtain ⟨m0, _, hr⟩ := Out.bind_eq_ok.1 hr
      obtain ⟨⟨e, m⟩, hl, hr⟩ := Out.bind_eq_ok.1 hr
      cases e with
      | none =>
        simp only [Out.pure_eq, Out.ok.injEq] at hr
        subst hr
        exact .done (by simp)
      | some e =>
        simp only [Out.pure_eq, Out.ok.injEq] at hr
        subst hr
        refine .done ?_
        intro e' he
        cases he
        obtain ⟨key, a, e0, h1, h2, h3⟩ := mapLoop_hint hval hl
        exact .entry h h1 h2.pointee (.inr h3)

/-- the statements of one field -/
theorem field_hint {K : Nat} (hC : CallsHint Γ S (Γ.methods K)) (hS : ∀ t u, Good S t → Is Γ t u → Good S u) {k : Nat} {fd : FieldDecl} {f : FieldFill}
    (hgen : genFieldFill Γ k fd = .ok (some f)) (hg : Good S fd.typ) {v : JV} {g g' : GoVal} {e : Err}
    (hr : runField (Γ.methods K) f v g = .ok (some e, g')) :
    (∃ a e0, Looks fd.tags.jsonName v a ∧ Hints Γ fd.tags.layout fd.typ a e0 ∧
      (e = e0 ∨ e = newParsingError fd.tags.jsonName e0)) ∨
    (fd.tags.required = true ∧ Missing fd v ∧ e = errorAt [fd.tags.jsonName] (.required fd.tags.jsonName)) := by
  obtain ⟨hj, hh, r, htv, hx, _, hdf, hnl, _, hmax⟩ := genFieldFill_some hgen
  rw [prepare_nullLike] at hnl
  have hplan := field_plan hgen
  have htold : ∀ {a : JV} {tv : TV}, runExtr (Γ.methods K) f.x 0 a g = .ok tv → Hinted Γ fd.tags.layout fd.typ a fd.tags.jsonName tv := by
    intro a tv hrun
    have lift : ∀ {t : TExpr}, (∀ e, Hints Γ fd.tags.layout t a e → Hints Γ fd.tags.layout fd.typ a e) →
        Hinted Γ fd.tags.layout t a fd.tags.jsonName tv → Hinted Γ fd.tags.layout fd.typ a fd.tags.jsonName tv := by
      intro t hl ht
      refine ⟨fun e f he => hl e (ht.1 e f he), fun e f he => ?_⟩
      obtain ⟨e0, h1, h2⟩ := ht.2 e f he
      exact ⟨e0, hl e0 h1, h2⟩
    have hpl : ∀ {b : Bool}, Plan Γ (Fld.prepare Γ true fd.typ fd.tags false false) (.const fd.tags.jsonName) f.x b →
        Hinted Γ fd.tags.layout fd.typ a fd.tags.jsonName tv := by
      intro b hp
      have := plan_hint hC hS hp (by rw [prepare_expr]; exact hg.pointee) (name := fd.tags.jsonName) (.inl rfl) (.inl rfl) hrun
      rw [prepare_expr] at this
      exact lift (fun e h => h.pointee) this
    generalize f.x = x at hplan hrun hpl
    generalize f.store = st at hplan
    cases hplan with
    | ptr _ h => exact hpl h
    | filled _ h => exact hpl h
    | val _ h => exact hpl h
    | @named t u his hx hu =>
      refine lift (t := t) (fun e h => Hints.pointee ?_) (Told.hinted (.inl rfl) ?_)
      · cases hp : pointee fd.typ with
        | named m =>
          rw [hp] at his
          cases his with
          | named hd => exact .name (.named m) hd (Or.inl rfl) h.ptr
        | star y => rw [hp] at his; cases his; exact h.ptr
        | _ => rw [hp] at his; cases his
      · rcases hx with ⟨p, h1, h2⟩ | ⟨rfl, l, hl, rfl⟩ | ⟨rfl, rfl⟩
        · exact prim_told h2 (.base h1) hrun
        · exact time_told hl (.self _) hrun
        · exact uuid_told (.self _) hrun
  unfold runField at hr
  have hlook : ∀ a, (if f.json = [] then some v else v.get f.json) = some a → Looks fd.tags.jsonName v a := by
    intro a h
    rw [hj] at h
    split at h
    · rename_i he; exact .inl ⟨he, (Option.some.inj h).symm⟩
    · rename_i he; exact .inr ⟨he, h⟩
  have habs : (if f.json = [] then some v else v.get f.json) = none → Missing fd v := by
    intro h
    rw [hj] at h
    split at h
    · cases h
    · rename_i he; exact .inl ⟨he, h⟩
  simp only at hr
  generalize (if f.json = [] then some v else v.get f.json) = x at hr hlook habs
  have hmiss : Missing fd v → (match f.dflt with
      | .nothing => Out.ok (none, g)
      | .required => .ok (some (newParsingError f.json (.plain (.required f.json))), g)
      | .value d onlyAbsent => if onlyAbsent && x.isSome then .ok (none, g) else .ok (none, d)) = .ok (some e, g') →
      fd.tags.required = true ∧ Missing fd v ∧ e = errorAt [fd.tags.jsonName] (.required fd.tags.jsonName) := by
    intro hm hr
    rcases ifDefault_cases hgen with ⟨_, _, h3⟩ | ⟨_, h2, h3⟩ | ⟨_, d, oa, h3, _⟩
    · rw [h3] at hr; simp at hr
    · rw [h3] at hr
      simp only [Out.ok.injEq, Prod.mk.injEq, Option.some.injEq] at hr
      rw [hj] at hr
      exact ⟨h2, hm, hr.1.symm⟩
    · rw [h3] at hr
      simp only at hr
      split at hr <;> simp at hr
  cases x with
  | none => exact Or.inr (hmiss (habs rfl) hr)
  | some a =>
    have hla := hlook a rfl
    simp only at hr
    by_cases hnull : (f.nullable && a.isNull) = true
    · rw [hnull] at hr
      simp only [if_true] at hr
      have hm : Missing fd v := by
        simp only [Bool.and_eq_true] at hnull
        refine Or.inr ⟨by rw [← hnl]; exact hnull.1, ?_⟩
        cases a <;> simp [JV.isNull] at hnull
        exact hla
      exact Or.inr (hmiss hm hr)
    · simp only [hnull, if_false, Bool.false_eq_true] at hr
      obtain ⟨tv, h1, h2⟩ := Out.bind_eq_ok.1 hr
      have hT := htold h1
      refine Or.inl ⟨a, ?_⟩
      cases tv with
      | ret e' f' =>
        simp only [Out.pure_eq, Out.ok.injEq, Prod.mk.injEq, Option.some.injEq] at h2
        obtain ⟨rfl, rfl⟩ := h2
        obtain ⟨e0, h3, h4⟩ := hT.2 _ _ rfl
        exact ⟨e0, hla, h3, h4⟩
      | done q f' =>
        cases q with
        | error e' =>
          simp only at h2
          split at h2
          · simp only [Out.pure_eq, Out.ok.injEq, Prod.mk.injEq, Option.some.injEq] at h2
            obtain ⟨rfl, rfl⟩ := h2
            exact ⟨e', hla, hT.1 _ _ rfl, .inr (by rw [hj])⟩
          · cases h2
        | ok val =>
          simp only at h2
          split at h2
          · rename_i c hc
            simp only [Out.pure_eq, Out.ok.injEq, Prod.mk.injEq, Option.some.injEq] at h2
            obtain ⟨rfl, rfl⟩ := h2
            refine ⟨.plain c, hla, (Blames.pointee ?_).mentions, .inr (by rw [hj])⟩
            have hrefx := prepare_resolve Γ true fd.typ fd.tags false false
            rw [prepare_expr] at hrefx
            have key : ∃ p, (Fld.prepare Γ true fd.typ fd.tags false false).refx = .prim p ∧ ((∃ m, maxByType (.prim p) = some (.int m) ∧ ∃ z, val = .int z ∧ m < z ∧ c = .exceedsMax z) ∨
                (p = .float32 ∧ ∃ fl, val = .float fl ∧ Ext.gtMaxFloat32 fl = true ∧ c = .exceedsMaxF fl)) := by
              rw [hmax] at hc
              split at hc
              · simp at hc
              · generalize (Fld.prepare Γ true fd.typ fd.tags false false).refx = rx at hc
                cases rx with
                | prim p =>
                  refine ⟨p, rfl, ?_⟩
                  cases p <;> simp only [maxByType, Option.bind_some, Option.bind_none, exceeds] at hc ⊢ <;> first
                    | (cases hc; done)
                    | (cases val <;> simp only [exceeds] at hc <;> first
                        | (cases hc; done)
                        | (split at hc
                           · cases hc
                             first
                               | exact Or.inl ⟨_, rfl, _, rfl, by omega, rfl⟩
                               | exact Or.inr ⟨rfl, _, rfl, by assumption, rfl⟩
                               | exact Or.inr ⟨trivial, _, rfl, by assumption, rfl⟩
                           · cases hc))
                | _ => simp [maxByType] at hc
            obtain ⟨p, hp, hcase⟩ := key
            rw [hp] at hrefx
            have hip : IsPrim Γ (pointee fd.typ) p := resolve_prim_iff.1 hrefx.symm
            have hpx := typedValue_prim htv hp
            rw [← hx] at hpx
            obtain ⟨hv1, hv2⟩ := primExtraction_val hpx h1
            rcases hcase with ⟨m, hm, z, rfl, hz, rfl⟩ | ⟨rfl, fl, rfl, hfl, rfl⟩
            · have hpi : p.isInt = true ∧ p.maxValue = m := by
                cases p <;> simp [maxByType] at hm <;> subst hm <;> exact ⟨rfl, rfl⟩
              obtain ⟨raw, z', rfl, hzz, htok⟩ := hv1 hpi.1
              cases hzz
              exact (Wrong.tooLarge (.base hip) hpi.1 htok (by rw [hpi.2]; exact hz)).plain
            · obtain ⟨raw, f0, rfl, hff, hpf⟩ := hv2 rfl
              cases hff
              exact (Wrong.tooLargeFloat (.base hip) hpf hfl).plain
          · obtain ⟨r', _, h2⟩ := Out.bind_eq_ok.1 h2
            cases h2

/-! ## Declared types -/

theorem NamedSet.good (hT : NamedSet Γ S) {n : Nat} {d : Decl} {t : TExpr} (hn : S n) (hd : Γ.decl n = some d)
    (ht : t ∈ d.types) : Good S t := ⟨fun m hm => hT.closed n d t m hn hd ht hm, hT.noAnon n d t hn hd ht⟩

theorem NamedSet.is (hT : NamedSet Γ S) (t u : TExpr) (h : Good S t) (hi : Is Γ t u) : Good S u := by
  cases hi with
  | self => exact h
  | named hd => exact hT.good (h.name (.named _)) hd (by simp [Decl.types])

theorem list_hint (hC : CallsHint Γ S M) (hS : ∀ t u, Good S t → Is Γ t u → Good S u) {elt : TExpr} (hst : ∀ u, elt ≠ .star u) {x : Extr} {b : Bool}
    (hx : Plan Γ (Fld.prepare Γ false elt {} false true) .index x b) (hg : Good S elt) {l : List JV} {cells cells' : List GoVal} {n : Nat} {stop : Stop} {e : Err}
    (hl : sliceLoop (listRound M elt x) 0 l cells = .ok (stop, n, cells')) (hs : stop.err = some e) :
    ∃ i a e0, l[i]? = some a ∧ Hints Γ [] elt a e0 ∧ (e = e0 ∨ e = newParsingError (natStr i) e0) := by
  have hpt : pointee elt = elt := by cases elt <;> first | rfl | exact absurd rfl (hst _)
  have hex : (Fld.prepare Γ false elt {} false true).expr = elt := by rw [prepare_expr, hpt]
  have htold : ∀ {i : Nat} {a : JV} {tv : TV}, runExtr M x i a .nil = .ok tv → Hinted Γ [] elt a (natStr i) tv := by
    intro i a tv hr
    have := plan_hint hC hS hx (by rw [hex]; exact hg) (name := natStr i) (.inl rfl) (.inr (.inl rfl)) hr
    rwa [hex] at this
  have hcell : ∀ i a c e w, (listRound M elt x i a c = .ok (.ret e w) ∨ listRound M elt x i a c = .ok (.brk e w)) →
      ∃ e0, Hints Γ [] elt a e0 ∧ (e = e0 ∨ e = newParsingError (natStr i) e0) := by
    intro i a c e w hr
    have key : ∀ r, listRound M elt x i a c = .ok r → r = .ret e w ∨ r = .brk e w →
        ∃ e0, Hints Γ [] elt a e0 ∧ (e = e0 ∨ e = newParsingError (natStr i) e0) := by
      intro r hr hc
      simp only [listRound] at hr
      obtain ⟨tv, h1, h2⟩ := Out.bind_eq_ok.1 hr
      have hT := htold h1
      cases tv with
      | ret e' f' =>
        simp only [Out.pure_eq, Out.ok.injEq] at h2
        subst h2
        rcases hc with hc | hc <;> cases hc
        exact hT.2 _ _ rfl
      | done q f' =>
        cases q with
        | error e' =>
          simp only [Out.pure_eq, Out.ok.injEq] at h2
          subst h2
          rcases hc with hc | hc <;> cases hc
          exact ⟨e', hT.1 _ _ rfl, .inr rfl⟩
        | ok val =>
          simp only at h2
          obtain ⟨w', _, h2⟩ := Out.bind_eq_ok.1 h2
          simp only [Out.pure_eq, Out.ok.injEq] at h2
          subst h2
          rcases hc with hc | hc <;> cases hc
    rcases hr with hr | hr
    · exact key _ hr (Or.inl rfl)
    · exact key _ hr (Or.inr rfl)
  have hstop : stop = .ret e ∨ stop = .brk e := by
    cases stop <;> simp [Stop.err] at hs <;> subst hs <;> simp
  obtain ⟨j, a, hj, e0, h1, h2⟩ := sliceLoop_told (R := fun i a e => ∃ e0, Hints Γ [] elt a e0 ∧ (e = e0 ∨ e = newParsingError (natStr i) e0)) hcell hl hstop
  rw [Nat.zero_add] at h2
  exact ⟨j, a, e0, hj, h1, h2⟩

/-- every method reports errors so, whatever the bound on nested calls -/
theorem calls_hint (hT : NamedSet Γ S) : ∀ k, CallsHint Γ S (Γ.methods k) := by
  intro k
  induction k with
  | zero => intro n v s e s' _ h; simp [Env.methods, Methods.loop] at h
  | succ k ih =>
    intro n v s e s' hn h L T hT0
    cases hd : Γ.decl n with
    | none =>
      have hf : Fills Γ n v s (some e) s' := ⟨k + 1, h⟩
      have hw : Wrong Γ L T v e.path.toList e.cause := .foreign hT0 hd hf
      have := hw.blames.mentions
      obtain ⟨path, c⟩ := e
      cases path <;> exact this
    | some d =>
      rw [methods_fill hd] at h
      obtain ⟨ir, hg, hr⟩ := Out.bind_eq_ok.1 h
      cases d with
      | struct strict fields =>
        simp only [genFill] at hg
        obtain ⟨fs, hfs, hir⟩ := Out.bind_eq_ok.1 hg
        simp only [Out.pure_eq, Out.ok.injEq] at hir
        subst hir
        cases s with
        | struct gs =>
          simp only [runFill] at hr
          cases hv : validate (fields.map (·.tags.jsonName)) strict v with
          | some e' =>
            rw [hv] at hr
            simp only [Out.ok.injEq, Prod.mk.injEq, Option.some.injEq] at hr
            obtain ⟨rfl, rfl⟩ := hr
            rcases validate_error hv with ⟨hno, rfl⟩ | ⟨kvs, rfl, ⟨key, hk, ho, rfl⟩ | ⟨rfl, kv, hm, hk, rfl⟩⟩
            · refine (Wrong.type (.struct hT0 hd) ?_).plain.mentions
              intro ht
              cases v with
              | obj kvs => exact hno kvs rfl
              | _ => simp [JV.type] at ht
            · exact (Wrong.twice hT0 hd hk ho).blames.mentions
            · exact (Wrong.unexpected hT0 hd hm hk).plain.mentions
          | none =>
            rw [hv] at hr
            obtain ⟨⟨e', gs'⟩, h1, h2⟩ := Out.bind_eq_ok.1 hr
            simp only [Out.pure_eq, Out.ok.injEq, Prod.mk.injEq] at h2
            obtain ⟨rfl, rfl⟩ := h2
            obtain ⟨_, i, f, g, g', h3, h4, h5, h6, _⟩ := runFields_err h1
            have hi : i < fields.length := by
              rw [← genFields_length hfs]; exact (List.getElem?_eq_some_iff.1 h3).1
            obtain ⟨f', h7, h8⟩ := genFields_get hfs (List.getElem?_eq_getElem hi)
            rw [h3] at h7
            obtain rfl := Option.some.inj h7
            have hmem : fields[i] ∈ fields := List.getElem_mem hi
            generalize fields[i] = fd at h8 hmem
            have hh := (genFieldFill_some h8).2.1
            have hgd : Good S fd.typ := hT.good hn hd (by simp only [Decl.types, List.mem_map]; exact ⟨fd, hmem, rfl⟩)
            rcases field_hint ih hT.is h8 hgd h6 with ⟨a, e0, ha, hm, he⟩ | ⟨hreq, hmiss, rfl⟩
            · rcases ha with ⟨hne, hav⟩ | ⟨hne, ha⟩
              · have hup : Hints Γ L T v e0 := by
                  obtain ⟨p, tl, L', t', v', path, h1, h2⟩ := hm
                  rw [hav] at h1
                  exact ⟨p, tl, L', t', v', path, .embedded hT0 hd hmem hne h1, h2⟩
                rcases he with rfl | rfl
                · exact hup
                · exact hup.filler (.inl hne)
              · exact hm.under (fun h => .field hT0 hd hmem hh hne ha h) he
            · exact (Wrong.required hT0 hd hmem hreq hmiss).blames.mentions
        | _ => simp [runFill] at hr
      | alias t =>
        have hgd : Good S t := hT.good hn hd (by simp [Decl.types])
        refine Hints.name (L0 := []) hT0 hd (Or.inr rfl) ?_
        by_cases hcoll : t.isCollection = true
        · cases t with
          | slice elt =>
            by_cases hb : elt = .prim .byte
            · subst hb
              simp [genFill, TExpr.isByte] at hg
              subst hg
              simp only [runFill] at hr
              exact (bytes_told (len := none) (.self _) hr []).mentions
            · obtain ⟨hst, r, hr', hns, _, rfl⟩ := genFill_list (len := none) hb hg
              have hx := typedValue_plan hr' (prepare_resolve ..) hns
              simp only [runFill] at hr
              split at hr
              · simp at hr
              · cases hv : v.getArr with
                | error c =>
                  rw [hv] at hr
                  simp only [Out.ok.injEq, Prod.mk.injEq, Option.some.injEq] at hr
                  obtain ⟨rfl, rfl⟩ := hr
                  obtain ⟨h1, rfl⟩ := getArr_err hv
                  exact (Wrong.type (.list (Or.inl (.self _)) hb) h1).plain.mentions
                | ok l =>
                  obtain rfl := getArr_ok hv
                  rw [hv] at hr
                  obtain ⟨z, _, hr⟩ := Out.bind_eq_ok.1 hr
                  obtain ⟨⟨stop, n', cells⟩, h1, h2⟩ := Out.bind_eq_ok.1 hr
                  simp only [Out.pure_eq, Out.ok.injEq, Prod.mk.injEq] at h2
                  obtain ⟨h2, rfl⟩ := h2
                  obtain ⟨i, a, e0, h3, h4, h5⟩ := list_hint ih hT.is hst hx hgd.slice h1 h2
                  exact .elem (Or.inl (.self _)) h3 h4 h5
          | array len elt =>
            by_cases hb : elt = .prim .byte
            · subst hb
              simp [genFill, TExpr.isByte] at hg
              subst hg
              simp only [runFill] at hr
              exact (bytes_told (len := some len) (.self _) hr []).mentions
            · obtain ⟨hst, r, hr', hns, _, rfl⟩ := genFill_list (len := some len) hb hg
              have hx := typedValue_plan hr' (prepare_resolve ..) hns
              simp only [runFill] at hr
              split at hr
              · simp at hr
              · cases hv : v.getArr with
                | error c =>
                  rw [hv] at hr
                  simp only [Out.ok.injEq, Prod.mk.injEq, Option.some.injEq] at hr
                  obtain ⟨rfl, rfl⟩ := hr
                  obtain ⟨h1, rfl⟩ := getArr_err hv
                  exact (Wrong.type (.list (Or.inr ⟨_, .self _⟩) hb) h1).plain.mentions
                | ok l =>
                  obtain rfl := getArr_ok hv
                  rw [hv] at hr
                  simp only at hr
                  split at hr
                  · rename_i hl
                    simp only [Out.ok.injEq, Prod.mk.injEq, Option.some.injEq] at hr
                    obtain ⟨rfl, rfl⟩ := hr
                    exact (Wrong.length (.self _) (fun h => hl h.symm) (Or.inr rfl)).plain.mentions
                  · split at hr
                    · obtain ⟨⟨stop, n', cells⟩, h1, h2⟩ := Out.bind_eq_ok.1 hr
                      simp only [Out.pure_eq, Out.ok.injEq, Prod.mk.injEq] at h2
                      obtain ⟨h2, rfl⟩ := h2
                      obtain ⟨i, a, e0, h3, h4, h5⟩ := list_hint ih hT.is hst hx hgd.array h1 h2
                      exact .elem (Or.inr ⟨_, .self _⟩) h3 h4 h5
                    · cases hr
          | map val =>
            obtain ⟨r, hr', hns, _, rfl⟩ := genFill_mapT hg
            have hx := typedValue_plan hr' (prepare_resolve ..) hns
            simp only [runFill] at hr
            split at hr
            · simp at hr
            · cases hv : v.getObj with
              | error c =>
                rw [hv] at hr
                simp only [Out.ok.injEq, Prod.mk.injEq, Option.some.injEq] at hr
                obtain ⟨rfl, rfl⟩ := hr
                obtain ⟨h1, rfl⟩ := getObj_err hv
                exact (Wrong.type (.map (.self _)) h1).plain.mentions
              | ok kvs =>
                obtain rfl := getObj_ok hv
                rw [hv] at hr
                obtain ⟨⟨e', m⟩, h1, h2⟩ := Out.bind_eq_ok.1 hr
                simp only [Out.pure_eq, Out.ok.injEq, Prod.mk.injEq] at h2
                obtain ⟨rfl, rfl⟩ := h2
                have hval : ∀ a e g, runExtr (Γ.methods k) r.x 0 a .nil = .ok (.done (.error e) g) → Hints Γ [] (VJ.pointee val) a e := by
                  intro a e g h0
                  have := (plan_hint ih hT.is hx (by rw [prepare_expr]; exact hgd.map.pointee) (i := 0) (name := natStr 0) (.inl rfl) (.inr (.inl rfl)) h0).1 _ _ rfl
                  rwa [prepare_expr] at this
                obtain ⟨key, a, e0, h3, h4, h5⟩ := mapLoop_hint hval h1
                exact .entry (.self _) h3 h4.pointee (.inr h5)
          | _ => cases hcoll
        · have hcoll : t.isCollection = false := by simpa using hcoll
          obtain ⟨hst, r, hr', hns, rfl⟩ := genFill_transit hcoll hg
          have hx := typedValue_plan hr' (prepare_resolve ..) hns
          have hpt : pointee t = t := by cases t <;> first | rfl | exact absurd rfl (hst _)
          have hpe : (Fld.prepare Γ false t {} true false).expr = t := by rw [prepare_expr, hpt]
          simp only [runFill] at hr
          obtain ⟨tv, h1, h2⟩ := Out.bind_eq_ok.1 hr
          have hT1 := plan_hint ih hT.is hx (by rw [hpe]; exact hgd) (i := 0) (name := []) (.inr (.inr rfl)) (.inl rfl) h1
          rw [hpe] at hT1
          cases tv with
          | ret e' f' =>
            simp only [Out.pure_eq, Out.ok.injEq, Prod.mk.injEq, Option.some.injEq] at h2
            obtain ⟨rfl, rfl⟩ := h2
            obtain ⟨e0, h3, h4⟩ := hT1.2 _ _ rfl
            rcases h4 with rfl | rfl
            · exact h3
            · exact h3.filler (.inl rfl)
          | done q f' =>
            cases q with
            | error e' =>
              simp only [Out.pure_eq, Out.ok.injEq, Prod.mk.injEq, Option.some.injEq] at h2
              obtain ⟨rfl, rfl⟩ := h2
              exact hT1.1 _ _ rfl
            | ok val =>
              simp only at h2
              obtain ⟨w, _, h2⟩ := Out.bind_eq_ok.1 h2
              cases h2

end
end

end VJ
