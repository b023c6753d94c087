import Verif.Proof.Fields

/-!
# Where "required element is missing" can come from
-/

set_option linter.unusedSectionVars false

namespace VJ

variable [Ext]

/-- not a "missing" error -/
def Err.NotMissing (e : Err) : Prop := ∀ x, e.cause ≠ .required x

/-- a "missing" error always has a path -/
def Err.MissingHasPath (e : Err) : Prop := ∀ x, e.cause = .required x → e.path ≠ none

theorem Err.NotMissing.hasPath {e : Err} (h : e.NotMissing) : e.MissingHasPath := fun x hx => absurd hx (h x)

theorem newParsingError_hasPath (p : Str) (e : Err) : (newParsingError p e).MissingHasPath := by
  intro x _
  unfold newParsingError
  split <;> simp

theorem newParsingError_cause (p : Str) (e : Err) : (newParsingError p e).cause = e.cause := by
  unfold newParsingError; split <;> rfl

theorem sliceLoop_stop {P Q : Err → Prop} {f : Nat → JV → GoVal → Out Cell}
    (hf : ∀ i a c r, f i a c = .ok r → (∀ e w, r = .ret e w → P e) ∧ (∀ e w, r = .brk e w → Q e)) :
    ∀ {l : List JV} {i : Nat} {cells : List GoVal} {st : Stop} {n : Nat} {cs : List GoVal},
      sliceLoop f i l cells = .ok (st, n, cs) → (∀ e, st = .ret e → P e) ∧ (∀ e, st = .brk e → Q e)
  | [], i, cells, st, n, cs, h => by
    simp only [sliceLoop, Out.ok.injEq, Prod.mk.injEq] at h
    obtain ⟨rfl, _⟩ := h
    exact ⟨by simp, by simp⟩
  | a :: as, i, [], st, n, cs, h => by simp [sliceLoop] at h
  | a :: as, i, c :: cells, st, n, cs, h => by
    simp only [sliceLoop] at h
    obtain ⟨r, h1, h2⟩ := Out.bind_eq_ok.1 h
    have hr := hf i a c r h1
    cases r with
    | store w =>
      obtain ⟨⟨st', n', cs'⟩, h3, h4⟩ := Out.bind_eq_ok.1 h2
      simp only [Out.pure_eq, Out.ok.injEq, Prod.mk.injEq] at h4
      obtain ⟨rfl, _⟩ := h4
      exact sliceLoop_stop hf h3
    | ret e w =>
      simp only [Out.pure_eq, Out.ok.injEq, Prod.mk.injEq] at h2
      obtain ⟨rfl, _⟩ := h2
      exact ⟨by intro e' he; cases he; exact hr.1 e w rfl, by simp⟩
    | brk e w =>
      simp only [Out.pure_eq, Out.ok.injEq, Prod.mk.injEq] at h2
      obtain ⟨rfl, _⟩ := h2
      exact ⟨by simp, by intro e' he; cases he; exact hr.2 e w rfl⟩

theorem mapLoop_err {M : Nat → Methods} {star : Bool} {val : TExpr} {x : JV → Out TV} :
    ∀ {kvs : List (Str × JV)} {m m' : List (Str × GoVal)} {e : Err},
      mapLoop M star val x kvs m = .ok (some e, m') → ∃ key e', e = newParsingError key e'
  | [], m, m', e, h => by simp [mapLoop] at h
  | (key, v) :: rest, m, m', e, h => by
    simp only [mapLoop] at h
    split at h
    · exact mapLoop_err h
    · obtain ⟨r, h1, h2⟩ := Out.bind_eq_ok.1 h
      cases r with
      | ret => simp at h2
      | done r fld =>
        cases r with
        | error e' =>
          simp only [Out.pure_eq, Out.ok.injEq, Prod.mk.injEq, Option.some.injEq] at h2
          exact ⟨key, e', h2.1.symm⟩
        | ok w =>
          obtain ⟨w', h3, h4⟩ := Out.bind_eq_ok.1 h2
          exact mapLoop_err h4

/-- the method table never reports a bare "missing" error -/
def TableOK (M : Nat → Methods) : Prop :=
  ∀ n v s e s', (M n).fill v s = .ok (some e, s') → e.MissingHasPath

theorem bytesFill_notMissing {len : Option Nat} {v : JV} {d d' : GoVal} {e : Err}
    (h : bytesFill len v d = .ok (some e, d')) : e.NotMissing := by
  intro x hx
  unfold bytesFill at h
  split at h
  · simp at h
  · split at h
    · rename_i c hc
      simp only [Out.ok.injEq, Prod.mk.injEq, Option.some.injEq] at h
      rw [← h.1] at hx
      cases v <;> simp [JV.getStr] at hc <;> subst hc <;> simp [Err.plain] at hx
    · split at h
      · simp only at h
        split at h
        · simp at h
        · simp only [Out.ok.injEq, Prod.mk.injEq, Option.some.injEq] at h
          rw [← h.1] at hx; simp [Err.plain] at hx
      · simp only at h
        split at h
        · split at h
          · simp at h
          · split at h
            · simp only [Out.ok.injEq, Prod.mk.injEq, Option.some.injEq] at h
              rw [← h.1] at hx; simp [Err.plain] at hx
            · split at h
              · simp only [Out.ok.injEq, Prod.mk.injEq, Option.some.injEq] at h
                rw [← h.1] at hx; simp [Err.plain] at hx
              · simp at h
        · simp at h

/-- errors of the fastjson getters are never "missing" -/
theorem getStr_notMissing {v : JV} {c : Cause} (h : v.getStr = .error c) : ∀ x, c ≠ .required x := by
  intro x hx; subst hx; cases v <;> simp [JV.getStr] at h
theorem getArr_notMissing {v : JV} {c : Cause} (h : v.getArr = .error c) : ∀ x, c ≠ .required x := by
  intro x hx; subst hx; cases v <;> simp [JV.getArr] at h
theorem getObj_notMissing {v : JV} {c : Cause} (h : v.getObj = .error c) : ∀ x, c ≠ .required x := by
  intro x hx; subst hx; cases v <;> simp [JV.getObj] at h
theorem getBool_notMissing {v : JV} {c : Cause} (h : v.getBool = .error c) : ∀ x, c ≠ .required x := by
  intro x hx; subst hx; cases v <;> simp [JV.getBool] at h
theorem getInt_notMissing {v : JV} {c : Cause} (h : v.getInt = .error c) : ∀ x, c ≠ .required x := by
  intro x hx; subst hx
  cases v <;> simp only [JV.getInt] at h <;> (try split at h) <;> (try split at h) <;> simp at h
theorem getUint_notMissing {v : JV} {c : Cause} (h : v.getUint = .error c) : ∀ x, c ≠ .required x := by
  intro x hx; subst hx
  cases v <;> simp only [JV.getUint] at h <;> (try split at h) <;> (try split at h) <;> simp at h
theorem getFloat_notMissing {v : JV} {c : Cause} (h : v.getFloat = .error c) : ∀ x, c ≠ .required x := by
  intro x hx; subst hx
  cases v <;> simp only [JV.getFloat] at h <;> (try split at h) <;> simp at h

theorem npe_notMissing {p : Str} {c : Cause} (h : ∀ x, c ≠ .required x) : (newParsingError p (.plain c)).NotMissing := by
  intro x; rw [newParsingError_cause]; exact h x

/-- A template that returns never returns a "missing" error, and the errors it leaves in
`err` have a path if they are "missing" errors. -/
theorem runExtr_missing {M : Nat → Methods} (hM : TableOK M) : ∀ (x : Extr) (i : Nat) (v : JV) (fld : GoVal) (tv : TV),
    runExtr M x i v fld = .ok tv →
      (∀ e f, tv = .ret e f → e.NotMissing) ∧ (∀ e f, tv = .done (.error e) f → e.MissingHasPath) := by
  intro x
  induction x with
  | int | uint | float | bool | strUnchecked =>
    intro i v fld tv h
    simp only [runExtr, Out.ok.injEq] at h
    subst h
    refine ⟨by simp, ?_⟩
    intro e f he
    simp only [TV.done.injEq] at he
    split at he
    · simp at he
    · rename_i c hc
      have := he.1
      simp only [Except.error.injEq] at this
      subst this
      intro x hx
      first
        | exact absurd hx (getInt_notMissing hc x)
        | exact absurd hx (getUint_notMissing hc x)
        | exact absurd hx (getFloat_notMissing hc x)
        | exact absurd hx (getBool_notMissing hc x)
        | exact absurd hx (getStr_notMissing hc x)
  | strChecked path =>
    intro i v fld tv h
    simp only [runExtr] at h
    split at h
    · simp only [Out.ok.injEq] at h; subst h; exact ⟨by simp, by simp⟩
    · rename_i c hc
      simp only [Out.ok.injEq] at h; subst h
      exact ⟨by intro e f he; cases he; exact npe_notMissing (getStr_notMissing hc), by simp⟩
  | time json layout =>
    intro i v fld tv h
    simp only [runExtr] at h
    split at h
    · rename_i c hc
      simp only [Out.ok.injEq] at h; subst h
      exact ⟨by intro e f he; cases he; exact npe_notMissing (getStr_notMissing hc), by simp⟩
    · simp only [Out.ok.injEq] at h; subst h
      refine ⟨by simp, ?_⟩
      intro e f he
      simp only [TV.done.injEq] at he
      split at he
      · simp at he
      · have := he.1
        simp only [Except.error.injEq] at this
        subst this
        intro x hx; simp [Err.plain] at hx
  | uuid json =>
    intro i v fld tv h
    simp only [runExtr] at h
    split at h
    · rename_i c hc
      simp only [Out.ok.injEq] at h; subst h
      exact ⟨by intro e f he; cases he; exact npe_notMissing (getStr_notMissing hc), by simp⟩
    · simp only [Out.ok.injEq] at h; subst h
      refine ⟨by simp, ?_⟩
      intro e f he
      simp only [TV.done.injEq] at he
      split at he
      · simp at he
      · have := he.1
        simp only [Except.error.injEq] at this
        subst this
        intro x hx; simp [Err.plain] at hx
  | nestedFresh t =>
    intro i v fld tv h
    simp only [runExtr] at h
    obtain ⟨z, _, h⟩ := Out.bind_eq_ok.1 h
    obtain ⟨⟨e0, w⟩, h1, h⟩ := Out.bind_eq_ok.1 h
    simp only [Out.pure_eq, Out.ok.injEq] at h
    subst h
    refine ⟨by simp, ?_⟩
    intro e f he
    cases e0 with
    | none => simp at he
    | some e0 =>
      simp only [TV.done.injEq, Except.error.injEq] at he
      rw [← he.1]
      cases t <;> simp only [fillT] at h1 <;> first | exact hM _ _ _ _ _ h1 | cases h1
  | nestedInPlace t =>
    intro i v fld tv h
    simp only [runExtr] at h
    obtain ⟨⟨e0, w⟩, h1, h⟩ := Out.bind_eq_ok.1 h
    simp only [Out.pure_eq, Out.ok.injEq] at h
    subst h
    refine ⟨by simp, ?_⟩
    intro e f he
    cases e0 with
    | none => simp at he
    | some e0 =>
      simp only [TV.done.injEq, Except.error.injEq] at he
      rw [← he.1]
      cases t <;> simp only [fillT] at h1 <;> first | exact hM _ _ _ _ _ h1 | cases h1
  | bytes len =>
    intro i v fld tv h
    simp only [runExtr] at h
    obtain ⟨⟨e0, w⟩, h1, h⟩ := Out.bind_eq_ok.1 h
    cases e0 with
    | none =>
      simp only [Out.pure_eq, Out.ok.injEq] at h; subst h
      exact ⟨by simp, by simp⟩
    | some e0 =>
      simp only [Out.pure_eq, Out.ok.injEq] at h; subst h
      exact ⟨by intro e f he; cases he; exact bytesFill_notMissing h1, by simp⟩
  | slice json elt nullable x brk st ih =>
    intro i v fld tv h
    simp only [runExtr] at h
    split at h
    · rename_i c hc
      simp only [Out.ok.injEq] at h; subst h
      exact ⟨by intro e f he; cases he; exact npe_notMissing (getArr_notMissing hc), by simp⟩
    · obtain ⟨z, _, h⟩ := Out.bind_eq_ok.1 h
      obtain ⟨⟨fresh, cells⟩, _, h⟩ := Out.bind_eq_ok.1 h
      obtain ⟨⟨stop, n, cs⟩, h1, h⟩ := Out.bind_eq_ok.1 h
      have hstop := sliceLoop_stop (P := Err.NotMissing) (Q := Err.MissingHasPath) (f := elemRound M nullable brk st (runExtr M x)) (by
        intro i a c r hr
        unfold elemRound at hr
        split at hr
        · simp only [Out.ok.injEq] at hr; subst hr; exact ⟨by simp, by simp⟩
        · obtain ⟨tv', h2, hr⟩ := Out.bind_eq_ok.1 hr
          have hi := ih i a c tv' h2
          cases tv' with
          | ret e f =>
            simp only [Out.pure_eq, Out.ok.injEq] at hr; subst hr
            exact ⟨by intro e' w he; cases he; exact hi.1 _ _ rfl, by simp⟩
          | done r' f =>
            cases r' with
            | error e =>
              simp only at hr
              split at hr
              · simp only [Out.pure_eq, Out.ok.injEq] at hr; subst hr
                exact ⟨by simp, by intro e' w he; cases he; exact newParsingError_hasPath _ _⟩
              · cases hr
            | ok val =>
              obtain ⟨w, _, hr⟩ := Out.bind_eq_ok.1 hr
              simp only [Out.pure_eq, Out.ok.injEq] at hr; subst hr
              exact ⟨by simp, by simp⟩) h1
      cases stop with
      | fin => simp only [Out.pure_eq, Out.ok.injEq] at h; subst h; exact ⟨by simp, by simp⟩
      | ret e0 =>
        simp only [Out.pure_eq, Out.ok.injEq] at h; subst h
        exact ⟨by intro e f he; cases he; exact hstop.1 _ rfl, by simp⟩
      | brk e0 =>
        simp only at h
        split at h
        · simp only [Out.pure_eq, Out.ok.injEq] at h; subst h; exact ⟨by simp, by simp⟩
        · simp only [Out.pure_eq, Out.ok.injEq] at h; subst h
          exact ⟨by simp, by intro e f he; cases he; exact hstop.2 _ rfl⟩
  | array json len elt x brk st ih =>
    intro i v fld tv h
    simp only [runExtr] at h
    split at h
    · rename_i c hc
      simp only [Out.ok.injEq] at h; subst h
      exact ⟨by intro e f he; cases he; exact npe_notMissing (getArr_notMissing hc), by simp⟩
    · split at h
      · simp only [Out.ok.injEq] at h; subst h
        exact ⟨by intro e f he; cases he; exact npe_notMissing (by simp), by simp⟩
      · obtain ⟨z, _, h⟩ := Out.bind_eq_ok.1 h
        obtain ⟨⟨stop, n, cs⟩, h1, h⟩ := Out.bind_eq_ok.1 h
        have hstop := sliceLoop_stop (P := Err.NotMissing) (Q := Err.MissingHasPath) (f := elemRound M false brk st (runExtr M x)) (by
          intro i a c r hr
          unfold elemRound at hr
          split at hr
          · simp only [Out.ok.injEq] at hr; subst hr; exact ⟨by simp, by simp⟩
          · obtain ⟨tv', h2, hr⟩ := Out.bind_eq_ok.1 hr
            have hi := ih i a c tv' h2
            cases tv' with
            | ret e f =>
              simp only [Out.pure_eq, Out.ok.injEq] at hr; subst hr
              exact ⟨by intro e' w he; cases he; exact hi.1 _ _ rfl, by simp⟩
            | done r' f =>
              cases r' with
              | error e =>
                simp only at hr
                split at hr
                · simp only [Out.pure_eq, Out.ok.injEq] at hr; subst hr
                  exact ⟨by simp, by intro e' w he; cases he; exact newParsingError_hasPath _ _⟩
                · cases hr
              | ok val =>
                obtain ⟨w, _, hr⟩ := Out.bind_eq_ok.1 hr
                simp only [Out.pure_eq, Out.ok.injEq] at hr; subst hr
                exact ⟨by simp, by simp⟩) h1
        cases stop with
        | fin => simp only [Out.pure_eq, Out.ok.injEq] at h; subst h; exact ⟨by simp, by simp⟩
        | ret e0 =>
          simp only [Out.pure_eq, Out.ok.injEq] at h; subst h
          exact ⟨by intro e f he; cases he; exact hstop.1 _ rfl, by simp⟩
        | brk e0 =>
          simp only at h
          split at h
          · simp only [Out.pure_eq, Out.ok.injEq] at h; subst h; exact ⟨by simp, by simp⟩
          · simp only [Out.pure_eq, Out.ok.injEq] at h; subst h
            exact ⟨by simp, by intro e f he; cases he; exact hstop.2 _ rfl⟩
  | map json star val x ih =>
    intro i v fld tv h
    simp only [runExtr] at h
    split at h
    · rename_i c hc
      simp only [Out.ok.injEq] at h; subst h
      exact ⟨by intro e f he; cases he; exact npe_notMissing (getObj_notMissing hc), by simp⟩
    · obtain ⟨m0, _, h⟩ := Out.bind_eq_ok.1 h
      obtain ⟨⟨e0, m⟩, h1, h⟩ := Out.bind_eq_ok.1 h
      cases e0 with
      | none => simp only [Out.pure_eq, Out.ok.injEq] at h; subst h; exact ⟨by simp, by simp⟩
      | some e0 =>
        simp only [Out.pure_eq, Out.ok.injEq] at h; subst h
        obtain ⟨key, e', rfl⟩ := mapLoop_err h1
        exact ⟨by simp, by intro e f he; cases he; exact newParsingError_hasPath _ _⟩

/-- The errors of one field whose member is there are never "this field is missing". -/
theorem runField_present {M : Nat → Methods} (hM : TableOK M) {f : FieldFill} {v w : JV} {g g' : GoVal} {e : Err}
    (hj : f.json ≠ []) (hget : v.get f.json = some w) (hnull : (f.nullable && w.isNull) = false)
    (h : runField M f v g = .ok (some e, g')) : e ≠ ⟨some f.json, .required f.json⟩ ∧ e.MissingHasPath := by
  unfold runField at h
  simp only [hj, if_false, hget, hnull, Bool.false_eq_true] at h
  obtain ⟨tv, h1, h⟩ := Out.bind_eq_ok.1 h
  have hx := runExtr_missing hM _ _ _ _ _ h1
  cases tv with
  | ret e0 f0 =>
    simp only [Out.pure_eq, Out.ok.injEq, Prod.mk.injEq, Option.some.injEq] at h
    rw [← h.1]
    refine ⟨?_, (hx.1 _ _ rfl).hasPath⟩
    rintro rfl
    exact hx.1 _ _ rfl _ rfl
  | done r f0 =>
    cases r with
    | error e0 =>
      simp only at h
      split at h
      · simp only [Out.pure_eq, Out.ok.injEq, Prod.mk.injEq, Option.some.injEq] at h
        rw [← h.1]
        refine ⟨?_, newParsingError_hasPath _ _⟩
        intro he
        have hc : e0.cause = .required f.json := by rw [← newParsingError_cause f.json e0, he]
        have hp := hx.2 _ _ rfl _ hc
        unfold newParsingError at he
        split at he
        · rename_i hnone; exact hp hnone
        · simp only [Err.mk.injEq, Option.some.injEq] at he
          have := congrArg List.length he.1
          simp at this
      · cases h
    | ok val =>
      simp only at h
      split at h
      · rename_i c hc
        simp only [Out.pure_eq, Out.ok.injEq, Prod.mk.injEq, Option.some.injEq] at h
        rw [← h.1]
        refine ⟨?_, newParsingError_hasPath _ _⟩
        intro he
        have hcc : c = .required f.json := by
          have := newParsingError_cause f.json (.plain c); rw [he] at this; exact this.symm
        subst hcc
        cases hm : f.max with
        | none => rw [hm] at hc; simp at hc
        | some mc =>
          rw [hm] at hc
          simp only [Option.bind_some] at hc
          unfold exceeds at hc
          split at hc
          · split at hc <;> simp at hc
          · split at hc <;> simp at hc
          · cases hc
      · obtain ⟨r, _, h⟩ := Out.bind_eq_ok.1 h
        simp at h

theorem runField_missing {M : Nat → Methods} (hM : TableOK M) {f : FieldFill} {v : JV} {g g' : GoVal} {e : Err}
    (h : runField M f v g = .ok (some e, g')) : e.MissingHasPath := by
  unfold runField at h
  simp only at h
  split at h
  · obtain ⟨tv, h1, h⟩ := Out.bind_eq_ok.1 h
    have hx := runExtr_missing hM _ _ _ _ _ h1
    cases tv with
    | ret e0 f0 =>
      simp only [Out.pure_eq, Out.ok.injEq, Prod.mk.injEq, Option.some.injEq] at h
      rw [← h.1]; exact (hx.1 _ _ rfl).hasPath
    | done r f0 =>
      cases r with
      | error e0 =>
        simp only at h
        split at h
        · simp only [Out.pure_eq, Out.ok.injEq, Prod.mk.injEq, Option.some.injEq] at h
          rw [← h.1]; exact newParsingError_hasPath _ _
        · cases h
      | ok val =>
        simp only at h
        split at h
        · simp only [Out.pure_eq, Out.ok.injEq, Prod.mk.injEq, Option.some.injEq] at h
          rw [← h.1]; exact newParsingError_hasPath _ _
        · obtain ⟨r, _, h⟩ := Out.bind_eq_ok.1 h
          simp at h
  · split at h
    · simp at h
    · simp only [Out.ok.injEq, Prod.mk.injEq, Option.some.injEq] at h
      rw [← h.1]; exact newParsingError_hasPath _ _
    · split at h <;> split at h <;> simp at h

theorem validate_notMissing {names : List Str} {strict : Bool} {v : JV} {e : Err}
    (h : validate names strict v = some e) : e.NotMissing := by
  rcases validate_error h with ⟨_, rfl⟩ | ⟨_, _, ⟨_, _, _, rfl⟩ | ⟨_, _, _, _, rfl⟩⟩ <;> intro x hx <;> simp at hx

theorem runFill_missing {M : Nat → Methods} (hM : TableOK M) {ir : FillIR} {v : JV} {s s' : GoVal} {e : Err}
    (h : runFill M ir v s = .ok (some e, s')) : e.MissingHasPath := by
  cases ir with
  | struct names strict fields =>
    cases s with
    | struct gs =>
      simp only [runFill] at h
      cases hv : validate names strict v with
      | some e0 =>
        rw [hv] at h
        simp only [Out.ok.injEq, Prod.mk.injEq, Option.some.injEq] at h
        rw [← h.1]; exact (validate_notMissing hv).hasPath
      | none =>
        rw [hv] at h
        obtain ⟨⟨e0, gs'⟩, h1, h⟩ := Out.bind_eq_ok.1 h
        simp only [Out.pure_eq, Out.ok.injEq, Prod.mk.injEq] at h
        obtain ⟨rfl, _⟩ := h
        obtain ⟨_, i, f, g, g', _, _, _, h4, _⟩ := runFields_err h1
        exact runField_missing hM h4
    | _ => simp [runFill] at h
  | map star val x =>
    simp only [runFill] at h
    split at h
    · simp at h
    · split at h
      · rename_i c hc
        simp only [Out.ok.injEq, Prod.mk.injEq, Option.some.injEq] at h
        rw [← h.1]; intro x hx; exact absurd hx (getObj_notMissing hc x)
      · obtain ⟨⟨e0, m⟩, h1, h⟩ := Out.bind_eq_ok.1 h
        simp only [Out.pure_eq, Out.ok.injEq, Prod.mk.injEq] at h
        obtain ⟨rfl, _⟩ := h
        obtain ⟨key, e', rfl⟩ := mapLoop_err h1
        exact newParsingError_hasPath _ _
  | list len elt x =>
    have hround : ∀ i a c r, listRound M elt x i a c = .ok r →
        (∀ e w, r = .ret e w → e.MissingHasPath) ∧ (∀ e w, r = .brk e w → e.MissingHasPath) := by
      intro i a c r hr
      unfold listRound at hr
      obtain ⟨tv, h2, hr⟩ := Out.bind_eq_ok.1 hr
      have hi := runExtr_missing hM _ _ _ _ _ h2
      cases tv with
      | ret e f =>
        simp only [Out.pure_eq, Out.ok.injEq] at hr; subst hr
        exact ⟨by intro e' w he; cases he; exact (hi.1 _ _ rfl).hasPath, by simp⟩
      | done r' f =>
        cases r' with
        | error e =>
          simp only [Out.pure_eq, Out.ok.injEq] at hr; subst hr
          exact ⟨by intro e' w he; cases he; exact newParsingError_hasPath _ _, by simp⟩
        | ok val =>
          obtain ⟨w, _, hr⟩ := Out.bind_eq_ok.1 hr
          simp only [Out.pure_eq, Out.ok.injEq] at hr; subst hr
          exact ⟨by simp, by simp⟩
    have hfin : ∀ {st : Stop} {l : List JV} {cells cs : List GoVal} {n : Nat} {e : Err},
        sliceLoop (listRound M elt x) 0 l cells = .ok (st, n, cs) → st.err = some e → e.MissingHasPath := by
      intro st l cells cs n e h1 he
      have := sliceLoop_stop hround h1
      cases st with
      | fin => simp [Stop.err] at he
      | ret e0 => simp [Stop.err] at he; subst he; exact this.1 _ rfl
      | brk e0 => simp [Stop.err] at he; subst he; exact this.2 _ rfl
    cases len with
    | none =>
      simp only [runFill] at h
      split at h
      · simp at h
      · split at h
        · rename_i c hc
          simp only [Out.ok.injEq, Prod.mk.injEq, Option.some.injEq] at h
          rw [← h.1]; intro x hx; exact absurd hx (getArr_notMissing hc x)
        · obtain ⟨z, _, h⟩ := Out.bind_eq_ok.1 h
          obtain ⟨⟨st, n, cs⟩, h1, h⟩ := Out.bind_eq_ok.1 h
          simp only [Out.pure_eq, Out.ok.injEq, Prod.mk.injEq] at h
          exact hfin h1 h.1
    | some n =>
      simp only [runFill] at h
      split at h
      · simp at h
      · split at h
        · rename_i c hc
          simp only [Out.ok.injEq, Prod.mk.injEq, Option.some.injEq] at h
          rw [← h.1]; intro x hx; exact absurd hx (getArr_notMissing hc x)
        · split at h
          · simp only [Out.ok.injEq, Prod.mk.injEq, Option.some.injEq] at h
            rw [← h.1]; intro x hx; simp [Err.plain] at hx
          · split at h
            · obtain ⟨⟨st, n, cs⟩, h1, h⟩ := Out.bind_eq_ok.1 h
              simp only [Out.pure_eq, Out.ok.injEq, Prod.mk.injEq] at h
              exact hfin h1 h.1
            · cases h
  | bytes len => exact (bytesFill_notMissing h).hasPath
  | transit t x =>
    simp only [runFill] at h
    obtain ⟨tv, h1, h⟩ := Out.bind_eq_ok.1 h
    have hx := runExtr_missing hM _ _ _ _ _ h1
    cases tv with
    | ret e0 f =>
      simp only [Out.pure_eq, Out.ok.injEq, Prod.mk.injEq, Option.some.injEq] at h
      rw [← h.1]; exact (hx.1 _ _ rfl).hasPath
    | done r f =>
      cases r with
      | error e0 =>
        simp only [Out.pure_eq, Out.ok.injEq, Prod.mk.injEq, Option.some.injEq] at h
        rw [← h.1]; exact hx.2 _ _ rfl
      | ok val =>
        obtain ⟨w, _, h⟩ := Out.bind_eq_ok.1 h
        simp at h

theorem methods_missing {Γ : Env} (hext : TableOK Γ.ext) : ∀ k, TableOK (Γ.methods k) := by
  intro k
  induction k with
  | zero => intro n v s e s' h; simp [Env.methods, Methods.loop] at h
  | succ k ih =>
    intro n v s e s' h
    simp only [Env.methods] at h
    cases hd : Γ.decl n with
    | none => rw [hd] at h; exact hext n v s e s' h
    | some d =>
      rw [hd] at h
      simp only [declMethods] at h
      obtain ⟨ir, _, h⟩ := Out.bind_eq_ok.1 h
      exact runFill_missing ih h

end VJ
