import Verif.Proof.TotalFill
import Verif.Proof.AsNew
import Verif.Spec.Errors

/-!
# Errors of the emitted code name the failing place
-/

namespace VJ
set_option linter.unusedSectionVars false
set_option linter.unusedSimpArgs false

theorem errorAt_wrap (name : Str) (ps : List Str) (c : Cause) :
    newParsingError name (errorAt ps c) = errorAt (name :: ps) c := by
  cases ps <;> rfl

def PathE.text (i : Nat) : PathE → Str
  | .const s => s
  | .index => natStr i

variable [Ext] {Γ : Env}

theorem Wrong.blames {L : Str} {t : TExpr} {v : JV} {tail : List Str} {c : Cause} (h : Wrong Γ L t v tail c) :
    Blames Γ L t v (errorAt tail c) := ⟨[], tail, L, t, v, c, .here, h, rfl⟩

theorem Wrong.plain {L : Str} {t : TExpr} {v : JV} {c : Cause} (h : Wrong Γ L t v [] c) : Blames Γ L t v (.plain c) :=
  h.blames

theorem Blames.ptr {L : Str} {t : TExpr} {v : JV} {e : Err} (h : Blames Γ L t v e) : Blames Γ L (.star t) v e := by
  obtain ⟨p, tl, L', t', v', c, h1, h2, h3⟩ := h
  exact ⟨p, tl, L', t', v', c, .ptr h1, h2, h3⟩

theorem Blames.name {L L0 : Str} {t u : TExpr} {n : Nat} {v : JV} {e : Err} (hn : NameOf t n)
    (hd : Γ.decl n = some (.alias u)) (hl : L0 = L ∨ L0 = []) (h : Blames Γ L0 u v e) : Blames Γ L t v e := by
  obtain ⟨p, tl, L', t', v', c, h1, h2, h3⟩ := h
  exact ⟨p, tl, L', t', v', c, .name hn hd hl h1, h2, h3⟩

theorem Blames.elem {L : Str} {t elt : TExpr} {l : List JV} {i : Nat} {a : JV} {e : Err}
    (ht : Is Γ t (.slice elt) ∨ ∃ n, Is Γ t (.array n elt)) (hi : l[i]? = some a) (h : Blames Γ [] elt a e) :
    Blames Γ L t (.arr l) (newParsingError (natStr i) e) := by
  obtain ⟨p, tl, L', t', v', c, h1, h2, rfl⟩ := h
  exact ⟨natStr i :: p, tl, L', t', v', c, .elem ht hi h1, h2, errorAt_wrap _ _ _⟩

theorem Blames.entry {L : Str} {t val : TExpr} {kvs : List (Str × JV)} {key : Str} {a : JV} {e : Err}
    (ht : Is Γ t (.map val)) (hm : (key, a) ∈ kvs) (h : Blames Γ L val a e) :
    Blames Γ L t (.obj kvs) (newParsingError key e) := by
  obtain ⟨p, tl, L', t', v', c, h1, h2, rfl⟩ := h
  exact ⟨key :: p, tl, L', t', v', c, .entry ht hm h1, h2, errorAt_wrap _ _ _⟩

theorem Blames.pointee {L : Str} {t : TExpr} {v : JV} {e : Err} (h : Blames Γ L (pointee t) v e) : Blames Γ L t v e := by
  cases t <;> first | exact h | exact h.ptr

/-- what a template may report -/
def Told (Γ : Env) (L : Str) (t : TExpr) (v : JV) (name : Str) (tv : TV) : Prop :=
  (∀ e f, tv = .done (.error e) f → Blames Γ L t v e) ∧
  (∀ e f, tv = .ret e f → ∃ e0, Blames Γ L t v e0 ∧ e = newParsingError name e0)

theorem Told.done {L : Str} {t : TExpr} {v : JV} {name : Str} {r : Except Err GoVal} {f : GoVal}
    (h : ∀ e, r = .error e → Blames Γ L t v e) : Told Γ L t v name (.done r f) :=
  ⟨fun e _ he => (by cases he; exact h e rfl), fun _ _ he => (by cases he)⟩

theorem Told.ret {L : Str} {t : TExpr} {v : JV} {name : Str} {e : Err} {f : GoVal}
    (h : Blames Γ L t v e) : Told Γ L t v name (.ret (newParsingError name e) f) :=
  ⟨fun _ _ he => (by cases he), fun _ _ he => (by cases he; exact ⟨e, h, rfl⟩)⟩

/-- the ways reading a number can fail -/
def NumErr (v : JV) (c : Cause) : Prop :=
  (∃ raw, v = .num raw ∧ c = .badNumber raw) ∨ (v.type ≠ .number ∧ c = .wrongType .number v.type)

omit [Ext] in
theorem getInt_err {v : JV} {c : Cause} (h : v.getInt = .error c) : NumErr v c := by
  cases v with
  | num raw =>
    refine Or.inl ⟨raw, rfl, ?_⟩
    simp only [JV.getInt] at h
    split at h
    · split at h
      · cases h
      · cases h; rfl
    · cases h; rfl
  | _ => simp only [JV.getInt, Except.error.injEq] at h; exact Or.inr ⟨by simp [JV.type], h.symm⟩

omit [Ext] in
theorem getUint_err {v : JV} {c : Cause} (h : v.getUint = .error c) : NumErr v c := by
  cases v with
  | num raw =>
    refine Or.inl ⟨raw, rfl, ?_⟩
    simp only [JV.getUint] at h
    split at h
    · split at h
      · cases h
      · cases h; rfl
    · cases h; rfl
  | _ => simp only [JV.getUint, Except.error.injEq] at h; exact Or.inr ⟨by simp [JV.type], h.symm⟩

theorem getFloat_err {v : JV} {c : Cause} (h : v.getFloat = .error c) : NumErr v c := by
  cases v with
  | num raw =>
    refine Or.inl ⟨raw, rfl, ?_⟩
    simp only [JV.getFloat] at h
    split at h
    · cases h
    · cases h; rfl
  | _ => simp only [JV.getFloat, Except.error.injEq] at h; exact Or.inr ⟨by simp [JV.type], h.symm⟩

omit [Ext] in
theorem getBool_err {v : JV} {c : Cause} (h : v.getBool = .error c) : v.type ≠ .boolean ∧ c = .wrongType .boolean v.type := by
  cases v <;> simp only [JV.getBool, Except.error.injEq] at h <;> first | (cases h; done) | exact ⟨by simp [JV.type], h.symm⟩

omit [Ext] in
theorem getStr_err {v : JV} {c : Cause} (h : v.getStr = .error c) : v.type ≠ .string ∧ c = .wrongType .string v.type := by
  cases v <;> simp only [JV.getStr, Except.error.injEq] at h <;> first | (cases h; done) | exact ⟨by simp [JV.type], h.symm⟩

omit [Ext] in
theorem getArr_err {v : JV} {c : Cause} (h : v.getArr = .error c) : v.type ≠ .array ∧ c = .wrongType .array v.type := by
  cases v <;> simp only [JV.getArr, Except.error.injEq] at h <;> first | (cases h; done) | exact ⟨by simp [JV.type], h.symm⟩

omit [Ext] in
theorem getObj_err {v : JV} {c : Cause} (h : v.getObj = .error c) : v.type ≠ .object ∧ c = .wrongType .object v.type := by
  cases v <;> simp only [JV.getObj, Except.error.injEq] at h <;> first | (cases h; done) | exact ⟨by simp [JV.type], h.symm⟩

theorem prim_told {M : Nat → Methods} {dc : Bool} {path : PathE} {p : Prim} {x : Extr} {t : TExpr} {L : Str}
    (hx : primExtraction dc path p = .ok x) (ht : PrimName Γ t p) {i : Nat} {v : JV} {fld : GoVal} {tv : TV}
    (h : runExtr M x i v fld = .ok tv) : Told Γ L t v (path.text i) tv := by
  -- numbers
  have hnum : ∀ {α : Type} (g : Except Cause α) (r : Except Err GoVal), p ≠ .bool → p ≠ .string →
      (∀ c, g = .error c → NumErr v c) → (∀ c, g = .error c → r = .error (.plain c)) → (∀ a, g = .ok a → ∃ w, r = .ok w) →
      runExtr M x i v fld = .ok (.done r fld) → Told Γ L t v (path.text i) tv := by
    intro α g r hb hs hg h1 h2 hr
    rw [h, Out.ok.injEq] at hr
    subst hr
    refine .done ?_
    intro e he
    cases hgg : g with
    | ok a => obtain ⟨w, hw⟩ := h2 a hgg; rw [hw] at he; cases he
    | error c =>
      rw [h1 c hgg] at he
      simp only [Except.error.injEq] at he
      subst he
      rcases hg c hgg with ⟨raw, rfl, rfl⟩ | ⟨hv, rfl⟩
      · refine (Wrong.number ht ?_).plain
        intro w hd
        obtain ⟨val, h3, _⟩ := primExtraction_complete (M := M) hx hd i fld
        rw [h, h1 _ hgg] at h3
        cases h3
      · exact (Wrong.type (.number ht hb hs) hv).plain
  cases p <;> simp only [primExtraction, Out.ok.injEq] at hx <;> first | (cases hx; done) | skip
  all_goals first
    | (cases hx; exact hnum v.getInt _ (by simp) (by simp) (fun c hc => getInt_err hc) (fun c hc => by rw [hc]) (fun a hc => by rw [hc]; exact ⟨_, rfl⟩) rfl)
    | (cases hx; exact hnum v.getUint _ (by simp) (by simp) (fun c hc => getUint_err hc) (fun c hc => by rw [hc]) (fun a hc => by rw [hc]; exact ⟨_, rfl⟩) rfl)
    | (cases hx; exact hnum v.getFloat _ (by simp) (by simp) (fun c hc => getFloat_err hc) (fun c hc => by rw [hc]) (fun a hc => by rw [hc]; exact ⟨_, rfl⟩) rfl)
    | skip
  · subst hx
    simp only [runExtr, Out.ok.injEq] at h
    subst h
    refine .done ?_
    intro e he
    cases hg : v.getBool with
    | ok a => rw [hg] at he; cases he
    | error c =>
      rw [hg] at he
      simp only [Except.error.injEq] at he
      subst he
      obtain ⟨h1, rfl⟩ := getBool_err hg
      exact (Wrong.type (.boolean ht) h1).plain
  · have hb : ∀ c, v.getStr = .error c → Blames Γ L t v (.plain c) := by
      intro c hc
      obtain ⟨h1, rfl⟩ := getStr_err hc
      exact (Wrong.type (.string ht) h1).plain
    cases dc
    · simp only [Bool.false_eq_true, if_false] at hx
      subst hx
      simp only [runExtr] at h
      cases hg : v.getStr with
      | ok s =>
        rw [hg] at h; cases h
        exact .done (by simp)
      | error c =>
        rw [hg] at h
        cases h
        exact .ret (hb c hg)
    · simp only [if_true] at hx
      subst hx
      simp only [runExtr, Out.ok.injEq] at h
      subst h
      refine .done ?_
      intro e he
      cases hg : v.getStr with
      | ok a => rw [hg] at he; cases he
      | error c =>
        rw [hg] at he
        simp only [Except.error.injEq] at he
        subst he
        exact hb c hg

theorem time_told {M : Nat → Methods} {json L : Str} {lo : Option Str} {t : TExpr} (hl : decodeLayout L = .ok lo)
    (ht : Is Γ t .time) {i : Nat} {v : JV} {fld : GoVal} {tv : TV}
    (h : runExtr M (.time json lo) i v fld = .ok tv) : Told Γ L t v json tv := by
  have h0 := h
  simp only [runExtr] at h
  cases hg : v.getStr with
  | error c =>
    rw [hg] at h
    cases h
    obtain ⟨h1, rfl⟩ := getStr_err hg
    exact .ret (Wrong.type (.time ht) h1).plain
  | ok s =>
    have hv : v = .str s := by cases v <;> simp [JV.getStr] at hg; rw [hg]
    subst hv
    rw [hg] at h
    simp only [Out.ok.injEq] at h
    refine h ▸ .done ?_
    intro e he
    split at he
    · cases he
    · rename_i hr
      simp only [Except.error.injEq] at he
      subst he
      refine (Wrong.time ht ?_).plain
      intro tm htm
      rw [timeExtr_complete (M := M) (json := json) hl htm i fld] at h0
      rw [hr] at h
      subst h
      cases h0

theorem uuid_told {M : Nat → Methods} {json L : Str} {t : TExpr} (ht : Is Γ t .uuid) {i : Nat} {v : JV} {fld : GoVal} {tv : TV}
    (h : runExtr M (.uuid json) i v fld = .ok tv) : Told Γ L t v json tv := by
  simp only [runExtr] at h
  cases hg : v.getStr with
  | error c =>
    rw [hg] at h
    cases h
    obtain ⟨h1, rfl⟩ := getStr_err hg
    exact .ret (Wrong.type (.uuid ht) h1).plain
  | ok s =>
    have hv : v = .str s := by cases v <;> simp [JV.getStr] at hg; rw [hg]
    subst hv
    rw [hg] at h
    simp only [Out.ok.injEq] at h
    refine h ▸ .done ?_
    intro e he
    cases hr : parseUUID s with
    | some b => rw [hr] at he; cases he
    | none =>
      rw [hr] at he
      simp only [Except.error.injEq] at he
      subst he
      exact (Wrong.uuid ht (fun b hb => by rw [parseUUID_iff.2 hb] at hr; cases hr)).plain

omit [Ext] in
theorem primName_unique {t : TExpr} {p q : Prim} (h : PrimName Γ t p) (h' : PrimName Γ t q) : p = q := by
  have a := primName_final h
  rw [primName_final h'] at a
  cases a; rfl

/-! ## Templates of elements and map values -/

section
variable {S : Nat → Prop} {M : Nat → Methods}

/-- the methods of the types in `S` report errors properly -/
def CallsTold (Γ : Env) (S : Nat → Prop) (M : Nat → Methods) : Prop :=
  ∀ n v s e s', S n → (M n).fill v s = .ok (some e, s') → ∀ L t, NameOf t n → Blames Γ L t v e

theorem fillT_told (hC : CallsTold Γ S M) {t : TExpr} {n : Nat} (hg : Good S t) (hc : Calls Γ t n) {v : JV} {s s' : GoVal}
    {e : Err} (h : fillT M t v s = .ok (some e, s')) (L : Str) : Blames Γ L t v e := by
  have hn := pointee_nameOf hc
  have hs := hg.name hn
  cases hn with
  | named => exact hC n v s e s' hs h L _ (.named n)
  | sel => exact hC n v s e s' hs h L _ (.sel n)

theorem plan_simple {f : Fld} {path : PathE} {x : Extr} {b : Bool} (h : Plan Γ f path x b) (ha : f.expr.anon = false)
    (ht : (∃ p, p ≠ .string ∧ PrimName Γ f.expr p) ∨ ∃ m, Calls Γ f.expr m) : x.simple = true := by
  have hno : ∀ u, Is Γ f.expr u → (∀ n, u ≠ .named n) → (∀ n, u ≠ .sel n) → (∀ q, u ≠ .prim q) → u ≠ .structT → False := by
    intro u hu h1 h2 h3 h4
    rcases ht with ⟨p, _, hp⟩ | ⟨m, hm⟩
    · exact primName_is hp hu h1 h2 h3
    · exact is_calls hu h3 h1 h2 h4 m hm
  cases h with
  | prim h hx =>
    rcases ht with ⟨q, hq, hp⟩ | ⟨m, hm⟩
    · have := primName_unique hp h
      subst this
      revert hq hx
      cases q <;> simp [primExtraction] <;> intro h <;> subst h <;> rfl
    · exact absurd hm (primName_noCalls h m)
  | fresh => rfl
  | inPlace => rfl
  | anon h => rw [h] at ha; cases ha
  | time h => exact (hno _ h (by simp) (by simp) (by simp) (by simp)).elim
  | uuid h => exact (hno _ h (by simp) (by simp) (by simp) (by simp)).elim
  | bytes h => exact (hno _ h (by simp) (by simp) (by simp) (by simp)).elim
  | fixedBytes h => exact (hno _ h (by simp) (by simp) (by simp) (by simp)).elim
  | slice h => exact (hno _ h (by simp) (by simp) (by simp) (by simp)).elim
  | array h => exact (hno _ h (by simp) (by simp) (by simp) (by simp)).elim
  | map h => exact (hno _ h (by simp) (by simp) (by simp) (by simp)).elim

/-- simple templates never return from the enclosing function -/
theorem simple_noRet {x : Extr} (hs : x.simple = true) {i : Nat} {v : JV} {fld : GoVal} {tv : TV}
    (h : runExtr M x i v fld = .ok tv) : ∃ r f, tv = .done r f := by
  cases x <;> simp [Extr.simple] at hs <;> simp only [runExtr, Out.ok.injEq] at h
  all_goals first
    | exact ⟨_, _, h.symm⟩
    | skip
  · obtain ⟨z, _, h⟩ := Out.bind_eq_ok.1 h
    obtain ⟨⟨e, w⟩, _, h⟩ := Out.bind_eq_ok.1 h
    simp only [Out.pure_eq, Out.ok.injEq] at h
    exact ⟨_, _, h.symm⟩
  · obtain ⟨⟨e, w⟩, _, h⟩ := Out.bind_eq_ok.1 h
    simp only [Out.pure_eq, Out.ok.injEq] at h
    exact ⟨_, _, h.symm⟩

theorem call_told (hC : CallsTold Γ S M) {f : Fld} {n : Nat} (hg : Good S f.expr) (hc : Calls Γ f.expr n) {x : Extr}
    (hx : x = .nestedFresh f.expr ∨ x = .nestedInPlace f.expr) {i : Nat} {v : JV} {fld : GoVal} {tv : TV}
    (h : runExtr M x i v fld = .ok tv) (L name : Str) : Told Γ L f.expr v name tv := by
  rcases hx with rfl | rfl
  · simp only [runExtr] at h
    obtain ⟨z, _, h⟩ := Out.bind_eq_ok.1 h
    obtain ⟨⟨e, w⟩, h1, h⟩ := Out.bind_eq_ok.1 h
    simp only [Out.pure_eq, Out.ok.injEq] at h
    subst h
    refine .done ?_
    intro e' he
    cases e with
    | none => cases he
    | some e =>
      simp only [Except.error.injEq] at he
      subst he
      exact fillT_told hC hg hc h1 L
  · simp only [runExtr] at h
    obtain ⟨⟨e, w⟩, h1, h⟩ := Out.bind_eq_ok.1 h
    simp only [Out.pure_eq, Out.ok.injEq] at h
    subst h
    refine .done ?_
    intro e' he
    cases e with
    | none => cases he
    | some e =>
      simp only [Except.error.injEq] at he
      subst he
      exact fillT_told hC hg hc h1 L

/-- a simple template: the error it leaves in `err` -/
theorem simple_told (hC : CallsTold Γ S M) {f : Fld} {path : PathE} {x : Extr} {b : Bool} (h : Plan Γ f path x b)
    (hg : Good S f.expr) (hs : x.simple = true) {i : Nat} {v : JV} {fld fld' : GoVal} {e : Err}
    (hr : runExtr M x i v fld = .ok (.done (.error e) fld')) (L : Str) : Blames Γ L f.expr v e := by
  cases h with
  | prim h hx => exact (prim_told hx h hr).1 _ _ rfl
  | fresh h => exact (call_told hC hg h (Or.inl rfl) hr L []).1 _ _ rfl
  | inPlace h => exact (call_told hC hg h (Or.inr rfl) hr L []).1 _ _ rfl
  | anon h => have := hg.2; rw [h] at this; cases this
  | _ => cases hs

/-- the loop over the members of an object -/
theorem mapLoop_told (hC : CallsTold Γ S M) {f : Fld} {path : PathE} {x : Extr} {b : Bool} (h : Plan Γ f path x b)
    (hg : Good S f.expr) (hs : x.simple = true) {star : Bool} {val : TExpr} {L : Str} :
    ∀ {kvs : List (Str × JV)} {m m' : List (Str × GoVal)} {e : Err},
      mapLoop M star val (fun v => runExtr M x 0 v .nil) kvs m = .ok (some e, m') →
      ∃ key a e0, (key, a) ∈ kvs ∧ Blames Γ L f.expr a e0 ∧ e = newParsingError key e0
  | [], m, m', e, hr => by simp [mapLoop] at hr
  | (key, a) :: rest, m, m', e, hr => by
    have rec' : ∀ {m0 : List (Str × GoVal)}, mapLoop M star val (fun v => runExtr M x 0 v .nil) rest m0 = .ok (some e, m') →
        ∃ key' a' e0, (key', a') ∈ (key, a) :: rest ∧ Blames Γ L f.expr a' e0 ∧ e = newParsingError key' e0 := by
      intro m0 h0
      obtain ⟨k', a', e0, h1, h2⟩ := mapLoop_told hC h hg hs h0
      exact ⟨k', a', e0, List.mem_cons_of_mem _ h1, h2⟩
    simp only [mapLoop] at hr
    split at hr
    · exact rec' hr
    · obtain ⟨tv, h1, h2⟩ := Out.bind_eq_ok.1 hr
      cases tv with
      | ret e' f' => cases h2
      | done r f' =>
        cases r with
        | error e' =>
          simp only [Out.pure_eq, Out.ok.injEq, Prod.mk.injEq, Option.some.injEq] at h2
          obtain ⟨rfl, rfl⟩ := h2
          exact ⟨key, a, e', List.mem_cons_self, simple_told hC h hg hs h1 L, rfl⟩
        | ok w =>
          simp only at h2
          obtain ⟨w', _, h2⟩ := Out.bind_eq_ok.1 h2
          exact rec' h2

/-- the loop over the elements of a slice or array stops at the first bad element -/
theorem sliceLoop_told {R : Nat → JV → Err → Prop} {g : Nat → JV → GoVal → Out Cell}
    (hg : ∀ i a c e w, (g i a c = .ok (.ret e w) ∨ g i a c = .ok (.brk e w)) → R i a e) :
    ∀ {l : List JV} {i n : Nat} {cells cells' : List GoVal} {st : Stop} {e : Err},
      sliceLoop g i l cells = .ok (st, n, cells') → st = .ret e ∨ st = .brk e → ∃ j a, l[j]? = some a ∧ R (i + j) a e
  | [], i, n, cells, cells', st, e, h, hst => by
    simp only [sliceLoop, Out.ok.injEq, Prod.mk.injEq] at h
    rcases hst with rfl | rfl <;> cases h.1
  | a :: as, i, n, [], cells', st, e, h, hst => by simp [sliceLoop] at h
  | a :: as, i, n, c :: cs, cells', st, e, h, hst => by
    simp only [sliceLoop] at h
    obtain ⟨r, h1, h2⟩ := Out.bind_eq_ok.1 h
    cases r with
    | store w =>
      obtain ⟨⟨s', n', cs'⟩, h3, h4⟩ := Out.bind_eq_ok.1 h2
      simp only [Out.pure_eq, Out.ok.injEq, Prod.mk.injEq] at h4
      obtain ⟨rfl, rfl, rfl⟩ := h4
      obtain ⟨j, a', h5, h6⟩ := sliceLoop_told hg h3 hst
      refine ⟨j + 1, a', by simpa using h5, ?_⟩
      rw [show i + (j + 1) = i + 1 + j by omega]
      exact h6
    | ret e' w =>
      simp only [Out.pure_eq, Out.ok.injEq, Prod.mk.injEq] at h2
      obtain ⟨rfl, rfl, rfl⟩ := h2
      rcases hst with hst | hst <;> cases hst
      exact ⟨0, a, by simp, hg _ _ _ _ _ (Or.inl h1)⟩
    | brk e' w =>
      simp only [Out.pure_eq, Out.ok.injEq, Prod.mk.injEq] at h2
      obtain ⟨rfl, rfl, rfl⟩ := h2
      rcases hst with hst | hst <;> cases hst
      exact ⟨0, a, by simp, hg _ _ _ _ _ (Or.inr h1)⟩

/-- one round of a loop over elements with a simple template -/
theorem elemRound_told (hC : CallsTold Γ S M) {f : Fld} {path : PathE} {x : Extr} {b : Bool} (h : Plan Γ f path x b)
    (hg : Good S f.expr) (hs : x.simple = true) {nullable brk : Bool} {st : ElemStore} {i : Nat} {a : JV} {c w : GoVal} {e : Err}
    (hr : elemRound M nullable brk st (runExtr M x) i a c = .ok (.ret e w) ∨
      elemRound M nullable brk st (runExtr M x) i a c = .ok (.brk e w)) (L : Str) :
    ∃ e0, Blames Γ L f.expr a e0 ∧ e = newParsingError (natStr i) e0 := by
  have key : ∀ r, elemRound M nullable brk st (runExtr M x) i a c = .ok r → r = .ret e w ∨ r = .brk e w →
      ∃ e0, Blames Γ L f.expr a e0 ∧ e = newParsingError (natStr i) e0 := by
    intro r hr hc
    simp only [elemRound] at hr
    split at hr
    · simp only [Out.ok.injEq] at hr
      subst hr
      rcases hc with hc | hc <;> cases hc
    · obtain ⟨tv, h1, h2⟩ := Out.bind_eq_ok.1 hr
      obtain ⟨q, f', rfl⟩ := simple_noRet hs h1
      cases q with
      | error e' =>
        simp only at h2
        split at h2
        · simp only [Out.pure_eq, Out.ok.injEq] at h2
          subst h2
          rcases hc with hc | hc <;> cases hc
          exact ⟨e', simple_told hC h hg hs h1 L, rfl⟩
        · cases h2
      | ok val =>
        simp only at h2
        obtain ⟨w', _, h2⟩ := Out.bind_eq_ok.1 h2
        simp only [Out.pure_eq, Out.ok.injEq] at h2
        subst h2
        rcases hc with hc | hc <;> cases hc
  rcases hr with hr | hr
  · exact key _ hr (Or.inl rfl)
  · exact key _ hr (Or.inr rfl)

/-! ## Templates of fields -/

/-- any template of a field: the error it leaves, or returns with -/
theorem plan_told (hC : CallsTold Γ S M) {f : Fld} {path : PathE} {x : Extr} {b : Bool} (h : Plan Γ f path x b)
    (hg : Good S f.expr) (hS : ∀ t u, Good S t → Is Γ t u → Good S u) (ht : FieldTraced Γ f.expr) {i : Nat}
    (hpath : path.text i = f.tags.jsonName) {v : JV}
    {fld : GoVal} {tv : TV} (hr : runExtr M x i v fld = .ok tv) : Told Γ f.tags.layout f.expr v f.tags.jsonName tv := by
  have hbyte : ¬ ElemTraced Γ (.prim .byte) := by
    rintro (⟨p, _, hp, hq⟩ | ⟨m, hm⟩)
    · exact hp (primName_unique hq (.base (.self _)))
    · cases hm
  have helem : ∀ {elt : TExpr} {b' : Bool} {x' : Extr}, (Is Γ f.expr (.slice elt) ∨ ∃ n, Is Γ f.expr (.array n elt)) →
      Plan Γ (Fld.prepare Γ true elt {} false false) .index x' b' → x'.simple = true ∧ Good S elt := by
    intro elt b' x' hi hx
    have hge : Good S elt := by
      rcases hi with hi | ⟨n, hi⟩
      · exact (hS _ _ hg hi).slice
      · exact (hS _ _ hg hi).array
    refine ⟨plan_simple hx ?_ ?_, hge⟩
    · rw [prepare_expr]; exact hge.pointee.2
    · rw [prepare_expr]
      rcases ht elt hi with ⟨p, hp, _, hq⟩ | hm
      · exact Or.inl ⟨p, hp, hq⟩
      · exact Or.inr hm
  cases h with
  | prim h hx => rw [← hpath]; exact prim_told hx h hr
  | fresh h => exact call_told hC hg h (Or.inl rfl) hr _ _
  | inPlace h => exact call_told hC hg h (Or.inr rfl) hr _ _
  | anon h => have := hg.2; rw [h] at this; cases this
  | time h hl => exact time_told hl h hr
  | uuid h => exact uuid_told h hr
  | bytes h => exact absurd (ht _ (Or.inl h)) hbyte
  | fixedBytes h => exact absurd (ht _ (Or.inr ⟨_, h⟩)) hbyte
  | @slice _ _ elt x b h hb ha hf hx =>
    obtain ⟨hs, hge⟩ := helem (Or.inl h) hx
    simp only [runExtr] at hr
    cases hv : v.getArr with
    | error c =>
      rw [hv] at hr; cases hr
      obtain ⟨h1, rfl⟩ := getArr_err hv
      exact .ret (Wrong.type (.list (Or.inl h) hb) h1).plain
    | ok l =>
      obtain rfl := getArr_ok hv
      rw [hv] at hr
      obtain ⟨z, _, hr⟩ := Out.bind_eq_ok.1 hr
      obtain ⟨⟨fresh, cells⟩, _, hr⟩ := Out.bind_eq_ok.1 hr
      obtain ⟨⟨stop, n, cells'⟩, hl, hr⟩ := Out.bind_eq_ok.1 hr
      have hel : ∀ e, stop = .ret e ∨ stop = .brk e → Blames Γ f.tags.layout f.expr (.arr l) e := by
        intro e he
        obtain ⟨j, a, hj, e0, h1, rfl⟩ := sliceLoop_told
          (R := fun i a e => ∃ e0, Blames Γ [] (pointee elt) a e0 ∧ e = newParsingError (natStr i) e0)
          (fun i a c e w hr => by
            have := elemRound_told hC hx (by rw [prepare_expr]; exact hge.pointee) hs hr []
            rwa [prepare_expr] at this) hl he
        rw [Nat.zero_add]
        exact .elem (Or.inl h) hj h1.pointee
      have hnr : ∀ e, stop ≠ .ret e := by
        intro e he
        subst he
        exact (sliceLoop_stop (P := fun _ => False) (Q := fun _ => True) (fun i a c r hr => by
          refine ⟨?_, by simp⟩
          rintro e w rfl
          simp only [elemRound] at hr
          split at hr
          · cases hr
          · obtain ⟨tv, h1, h2⟩ := Out.bind_eq_ok.1 hr
            obtain ⟨q, f', rfl⟩ := simple_noRet hs h1
            cases q with
            | error e' =>
              simp only at h2
              split at h2 <;> cases h2
            | ok val =>
              obtain ⟨w', _, h2⟩ := Out.bind_eq_ok.1 h2
              cases h2) hl).1 e rfl
      cases stop with
      | fin =>
        simp only [Out.pure_eq, Out.ok.injEq] at hr
        subst hr
        exact .done (by simp)
      | ret e => exact absurd rfl (hnr e)
      | brk e =>
        simp only at hr
        split at hr
        · simp only [Out.pure_eq, Out.ok.injEq] at hr
          subst hr
          exact .done (by simp)
        · simp only [Out.pure_eq, Out.ok.injEq] at hr
          subst hr
          refine .done ?_
          intro e' he
          cases he
          exact hel _ (Or.inr rfl)
  | @array _ _ elt len x h hb hnl hx =>
    obtain ⟨hs, hge⟩ := helem (Or.inr ⟨_, h⟩) hx
    simp only [runExtr] at hr
    cases hv : v.getArr with
    | error c =>
      rw [hv] at hr; cases hr
      obtain ⟨h1, rfl⟩ := getArr_err hv
      exact .ret (Wrong.type (.list (Or.inr ⟨_, h⟩) hb) h1).plain
    | ok l =>
      obtain rfl := getArr_ok hv
      rw [hv] at hr
      simp only at hr
      split at hr
      · rename_i hne
        cases hr
        exact .ret (Wrong.length h hne (Or.inl rfl)).plain
      obtain ⟨z, _, hr⟩ := Out.bind_eq_ok.1 hr
      obtain ⟨⟨stop, n, cells'⟩, hl, hr⟩ := Out.bind_eq_ok.1 hr
      have hel : ∀ e, stop = .ret e ∨ stop = .brk e → Blames Γ f.tags.layout f.expr (.arr l) e := by
        intro e he
        obtain ⟨j, a, hj, e0, h1, rfl⟩ := sliceLoop_told
          (R := fun i a e => ∃ e0, Blames Γ [] (pointee elt) a e0 ∧ e = newParsingError (natStr i) e0)
          (fun i a c e w hr => by
            have := elemRound_told hC hx (by rw [prepare_expr]; exact hge.pointee) hs hr []
            rwa [prepare_expr] at this) hl he
        rw [Nat.zero_add]
        exact .elem (Or.inr ⟨_, h⟩) hj h1.pointee
      have hnr : ∀ e, stop ≠ .ret e := by
        intro e he
        subst he
        exact (sliceLoop_stop (P := fun _ => False) (Q := fun _ => True) (fun i a c r hr => by
          refine ⟨?_, by simp⟩
          rintro e w rfl
          simp only [elemRound] at hr
          split at hr
          · cases hr
          · obtain ⟨tv, h1, h2⟩ := Out.bind_eq_ok.1 hr
            obtain ⟨q, f', rfl⟩ := simple_noRet hs h1
            cases q with
            | error e' =>
              simp only at h2
              split at h2 <;> cases h2
            | ok val =>
              obtain ⟨w', _, h2⟩ := Out.bind_eq_ok.1 h2
              cases h2) hl).1 e rfl
      cases stop with
      | fin =>
        simp only [Out.pure_eq, Out.ok.injEq] at hr
        subst hr
        exact .done (by simp)
      | ret e => exact absurd rfl (hnr e)
      | brk e =>
        simp only at hr
        split at hr
        · simp only [Out.pure_eq, Out.ok.injEq] at hr
          subst hr
          exact .done (by simp)
        · simp only [Out.pure_eq, Out.ok.injEq] at hr
          subst hr
          refine .done ?_
          intro e' he
          cases he
          exact hel _ (Or.inr rfl)
  | @map _ _ val x b h hf hs hx =>
    have hge : Good S val := (hS _ _ hg h).map
    simp only [runExtr] at hr
    cases hv : v.getObj with
    | error c =>
      rw [hv] at hr; cases hr
      obtain ⟨h1, rfl⟩ := getObj_err hv
      exact .ret (Wrong.type (.map h) h1).plain
    | ok kvs =>
      obtain rfl := getObj_ok hv
      rw [hv] at hr
      obtain ⟨m0, _, hr⟩ := Out.bind_eq_ok.1 hr
      obtain ⟨⟨e, m⟩, hl, hr⟩ := Out.bind_eq_ok.1 hr
      cases e with
      | none =>
        simp only [Out.pure_eq, Out.ok.injEq] at hr
        subst hr
        exact .done (by simp)
      | some e =>
        simp only [Out.pure_eq, Out.ok.injEq] at hr
        subst hr
        refine .done ?_
        intro e' he
        cases he
        obtain ⟨key, a, e0, h1, h2, rfl⟩ := mapLoop_told (L := f.tags.layout) hC hx (by rw [prepare_expr]; exact hge.pointee) hs hl
        rw [prepare_expr] at h2
        exact .entry h h1 h2.pointee

/-- the statements of one field -/
theorem field_told {K : Nat} (hC : CallsTold Γ S (Γ.methods K)) (hS : ∀ t u, Good S t → Is Γ t u → Good S u) {k : Nat} {fd : FieldDecl} {f : FieldFill}
    (hgen : genFieldFill Γ k fd = .ok (some f)) (hg : Good S fd.typ) (hne : fd.tags.jsonName ≠ [])
    (ht : FieldTraced Γ (pointee fd.typ)) {v : JV} {g g' : GoVal} {e : Err}
    (hr : runField (Γ.methods K) f v g = .ok (some e, g')) :
    (∃ a e0, v.get fd.tags.jsonName = some a ∧ Blames Γ fd.tags.layout fd.typ a e0 ∧
      e = newParsingError fd.tags.jsonName e0) ∨
    (fd.tags.required = true ∧ Missing fd v ∧ e = errorAt [fd.tags.jsonName] (.required fd.tags.jsonName)) := by
  obtain ⟨hj, hh, r, htv, hx, _, hdf, hnl, _, hmax⟩ := genFieldFill_some hgen
  rw [prepare_nullLike] at hnl
  have hplan := field_plan hgen
  have htold : ∀ {a : JV} {tv : TV}, runExtr (Γ.methods K) f.x 0 a g = .ok tv → Told Γ fd.tags.layout fd.typ a fd.tags.jsonName tv := by
    intro a tv hrun
    have lift : ∀ {t : TExpr}, (∀ e, Blames Γ fd.tags.layout t a e → Blames Γ fd.tags.layout fd.typ a e) →
        Told Γ fd.tags.layout t a fd.tags.jsonName tv → Told Γ fd.tags.layout fd.typ a fd.tags.jsonName tv := by
      intro t hl ht
      refine ⟨fun e f he => hl e (ht.1 e f he), fun e f he => ?_⟩
      obtain ⟨e0, h1, h2⟩ := ht.2 e f he
      exact ⟨e0, hl e0 h1, h2⟩
    have hpl : ∀ {b : Bool}, Plan Γ (Fld.prepare Γ true fd.typ fd.tags false false) (.const fd.tags.jsonName) f.x b →
        Told Γ fd.tags.layout fd.typ a fd.tags.jsonName tv := by
      intro b hp
      have := plan_told hC hp (by rw [prepare_expr]; exact hg.pointee) hS (by rw [prepare_expr]; exact ht) rfl hrun
      rw [prepare_expr] at this
      exact lift (fun e h => h.pointee) this
    generalize f.x = x at hplan hrun hpl
    generalize f.store = st at hplan
    cases hplan with
    | ptr _ h => exact hpl h
    | filled _ h => exact hpl h
    | val _ h => exact hpl h
    | @named t u his hx hu =>
      refine lift (t := t) (fun e h => Blames.pointee ?_) ?_
      · cases hp : pointee fd.typ with
        | named m =>
          rw [hp] at his
          cases his with
          | named hd => exact .name (.named m) hd (Or.inl rfl) h.ptr
        | star y => rw [hp] at his; cases his; exact h.ptr
        | _ => rw [hp] at his; cases his
      · rcases hx with ⟨p, h1, h2⟩ | ⟨rfl, l, hl, rfl⟩ | ⟨rfl, rfl⟩
        · exact prim_told h2 (.base h1) hrun
        · exact time_told hl (.self _) hrun
        · exact uuid_told (.self _) hrun
  unfold runField at hr
  simp only [hj, hne, if_false] at hr
  have hmiss : Missing fd v → (match f.dflt with
      | .nothing => Out.ok (none, g)
      | .required => .ok (some (newParsingError f.json (.plain (.required f.json))), g)
      | .value d onlyAbsent => if onlyAbsent && (v.get fd.tags.jsonName).isSome then .ok (none, g) else .ok (none, d)) = .ok (some e, g') →
      fd.tags.required = true ∧ Missing fd v ∧ e = errorAt [fd.tags.jsonName] (.required fd.tags.jsonName) := by
    intro hm hr
    rcases ifDefault_cases hgen with ⟨_, _, h3⟩ | ⟨_, h2, h3⟩ | ⟨_, d, oa, h3, _⟩
    · rw [h3] at hr; simp at hr
    · rw [h3] at hr
      simp only [Out.ok.injEq, Prod.mk.injEq, Option.some.injEq] at hr
      rw [hj] at hr
      exact ⟨h2, hm, hr.1.symm⟩
    · rw [h3] at hr
      simp only at hr
      split at hr <;> simp at hr
  cases hget : v.get fd.tags.jsonName with
  | none =>
    have hm : Missing fd v := Or.inl ⟨hne, hget⟩
    refine Or.inr (hmiss hm ?_)
    rw [hget] at hr
    simp only at hr
    rw [hj]; rw [hget]; exact hr
  | some a =>
    rw [hget] at hr
    simp only at hr
    by_cases hnull : (f.nullable && a.isNull) = true
    · rw [hnull] at hr
      simp only [if_true] at hr
      have hm : Missing fd v := by
        simp only [Bool.and_eq_true] at hnull
        refine Or.inr ⟨by rw [← hnl]; exact hnull.1, Or.inr ⟨hne, ?_⟩⟩
        rw [hget]
        cases a <;> simp [JV.isNull] at hnull
        rfl
      refine Or.inr (hmiss hm ?_)
      rw [hj]; rw [hget]; exact hr
    · simp only [hnull, if_false, Bool.false_eq_true] at hr
      obtain ⟨tv, h1, h2⟩ := Out.bind_eq_ok.1 hr
      have hT := htold h1
      refine Or.inl ⟨a, ?_⟩
      cases tv with
      | ret e' f' =>
        simp only [Out.pure_eq, Out.ok.injEq, Prod.mk.injEq, Option.some.injEq] at h2
        obtain ⟨rfl, rfl⟩ := h2
        obtain ⟨e0, h3, h4⟩ := hT.2 _ _ rfl
        exact ⟨e0, rfl, h3, h4⟩
      | done q f' =>
        cases q with
        | error e' =>
          simp only at h2
          split at h2
          · simp only [Out.pure_eq, Out.ok.injEq, Prod.mk.injEq, Option.some.injEq] at h2
            obtain ⟨rfl, rfl⟩ := h2
            exact ⟨e', rfl, hT.1 _ _ rfl, rfl⟩
          · cases h2
        | ok val =>
          simp only at h2
          split at h2
          · rename_i c hc
            simp only [Out.pure_eq, Out.ok.injEq, Prod.mk.injEq, Option.some.injEq] at h2
            obtain ⟨rfl, rfl⟩ := h2
            refine ⟨.plain c, rfl, Blames.pointee ?_, rfl⟩
            have hrefx := prepare_resolve Γ true fd.typ fd.tags false false
            rw [prepare_expr] at hrefx
            have key : ∃ p, (Fld.prepare Γ true fd.typ fd.tags false false).refx = .prim p ∧ ((∃ m, maxByType (.prim p) = some (.int m) ∧ ∃ z, val = .int z ∧ m < z ∧ c = .exceedsMax z) ∨
                (p = .float32 ∧ ∃ fl, val = .float fl ∧ Ext.gtMaxFloat32 fl = true ∧ c = .exceedsMaxF fl)) := by
              rw [hmax] at hc
              split at hc
              · simp at hc
              · generalize (Fld.prepare Γ true fd.typ fd.tags false false).refx = rx at hc
                cases rx with
                | prim p =>
                  refine ⟨p, rfl, ?_⟩
                  cases p <;> simp only [maxByType, Option.bind_some, Option.bind_none, exceeds] at hc ⊢ <;> first
                    | (cases hc; done)
                    | (cases val <;> simp only [exceeds] at hc <;> first
                        | (cases hc; done)
                        | (split at hc
                           · cases hc
                             first
                               | exact Or.inl ⟨_, rfl, _, rfl, by omega, rfl⟩
                               | exact Or.inr ⟨rfl, _, rfl, by assumption, rfl⟩
                               | exact Or.inr ⟨trivial, _, rfl, by assumption, rfl⟩
                           · cases hc))
                | _ => simp [maxByType] at hc
            obtain ⟨p, hp, hcase⟩ := key
            rw [hp] at hrefx
            have hip : IsPrim Γ (pointee fd.typ) p := resolve_prim_iff.1 hrefx.symm
            have hpx := typedValue_prim htv hp
            rw [← hx] at hpx
            obtain ⟨hv1, hv2⟩ := primExtraction_val hpx h1
            rcases hcase with ⟨m, hm, z, rfl, hz, rfl⟩ | ⟨rfl, fl, rfl, hfl, rfl⟩
            · have hpi : p.isInt = true ∧ p.maxValue = m := by
                cases p <;> simp [maxByType] at hm <;> subst hm <;> exact ⟨rfl, rfl⟩
              obtain ⟨raw, z', rfl, hzz, htok⟩ := hv1 hpi.1
              cases hzz
              exact (Wrong.tooLarge (.base hip) hpi.1 htok (by rw [hpi.2]; exact hz)).plain
            · obtain ⟨raw, f0, rfl, hff, hpf⟩ := hv2 rfl
              cases hff
              exact (Wrong.tooLargeFloat (.base hip) hpf hfl).plain
          · obtain ⟨r', _, h2⟩ := Out.bind_eq_ok.1 h2
            cases h2

/-! ## Declared types -/

theorem TracedSet.good (hT : TracedSet Γ S) {n : Nat} {d : Decl} {t : TExpr} (hn : S n) (hd : Γ.decl n = some d)
    (ht : t ∈ d.types) : Good S t := ⟨fun m hm => hT.closed n d t m hn hd ht hm, hT.noAnon n d t hn hd ht⟩

theorem TracedSet.is (hT : TracedSet Γ S) (t u : TExpr) (h : Good S t) (hi : Is Γ t u) : Good S u := by
  cases hi with
  | self => exact h
  | named hd => exact hT.good (h.name (.named _)) hd (by simp [Decl.types])

theorem list_told (hC : CallsTold Γ S M) {elt : TExpr} (hst : ∀ u, elt ≠ .star u) {x : Extr} {b : Bool}
    (hx : Plan Γ (Fld.prepare Γ false elt {} false true) .index x b) (hg : Good S elt)
    (he : (∃ p, PrimName Γ elt p) ∨ ∃ m, Calls Γ elt m) {l : List JV} {cells cells' : List GoVal} {n : Nat} {stop : Stop} {e : Err}
    (hl : sliceLoop (listRound M elt x) 0 l cells = .ok (stop, n, cells')) (hs : stop.err = some e) :
    ∃ i a e0, l[i]? = some a ∧ Blames Γ [] elt a e0 ∧ e = newParsingError (natStr i) e0 := by
  have hpt : pointee elt = elt := by cases elt <;> first | rfl | exact absurd rfl (hst _)
  have hex : (Fld.prepare Γ false elt {} false true).expr = elt := by rw [prepare_expr, hpt]
  have htold : ∀ {i : Nat} {a : JV} {tv : TV}, runExtr M x i a .nil = .ok tv → Told Γ [] elt a (natStr i) tv := by
    intro i a tv hr
    rcases he with ⟨p, hp⟩ | ⟨m, hm⟩
    · have hno : ∀ u, Is Γ elt u → (∀ n, u ≠ .named n) → (∀ n, u ≠ .sel n) → (∀ q, u ≠ .prim q) → False :=
        fun u hu h1 h2 h3 => primName_is hp hu h1 h2 h3
      cases hx with
      | prim h hx => rw [hex] at h; exact prim_told hx h hr
      | fresh h => rw [hex] at h; exact absurd h (primName_noCalls hp _)
      | inPlace h => rw [hex] at h; exact absurd h (primName_noCalls hp _)
      | anon h => rw [hex] at h; have := hg.2; rw [h] at this; cases this
      | time h => rw [hex] at h; exact (hno _ h (by simp) (by simp) (by simp)).elim
      | uuid h => rw [hex] at h; exact (hno _ h (by simp) (by simp) (by simp)).elim
      | bytes h => rw [hex] at h; exact (hno _ h (by simp) (by simp) (by simp)).elim
      | fixedBytes h => rw [hex] at h; exact (hno _ h (by simp) (by simp) (by simp)).elim
      | slice h => rw [hex] at h; exact (hno _ h (by simp) (by simp) (by simp)).elim
      | array h => rw [hex] at h; exact (hno _ h (by simp) (by simp) (by simp)).elim
      | map h => rw [hex] at h; exact (hno _ h (by simp) (by simp) (by simp)).elim
    · have hsim := plan_simple hx (by rw [hex]; exact hg.2) (by rw [hex]; exact Or.inr ⟨m, hm⟩)
      obtain ⟨r, f, rfl⟩ := simple_noRet hsim hr
      refine .done ?_
      rintro e rfl
      have := simple_told hC hx (by rw [hex]; exact hg) hsim hr []
      rwa [hex] at this
  have hcell : ∀ i a c e w, (listRound M elt x i a c = .ok (.ret e w) ∨ listRound M elt x i a c = .ok (.brk e w)) →
      ∃ e0, Blames Γ [] elt a e0 ∧ e = newParsingError (natStr i) e0 := by
    intro i a c e w hr
    have key : ∀ r, listRound M elt x i a c = .ok r → r = .ret e w ∨ r = .brk e w →
        ∃ e0, Blames Γ [] elt a e0 ∧ e = newParsingError (natStr i) e0 := by
      intro r hr hc
      simp only [listRound] at hr
      obtain ⟨tv, h1, h2⟩ := Out.bind_eq_ok.1 hr
      have hT := htold h1
      cases tv with
      | ret e' f' =>
        simp only [Out.pure_eq, Out.ok.injEq] at h2
        subst h2
        rcases hc with hc | hc <;> cases hc
        exact hT.2 _ _ rfl
      | done q f' =>
        cases q with
        | error e' =>
          simp only [Out.pure_eq, Out.ok.injEq] at h2
          subst h2
          rcases hc with hc | hc <;> cases hc
          exact ⟨e', hT.1 _ _ rfl, rfl⟩
        | ok val =>
          simp only at h2
          obtain ⟨w', _, h2⟩ := Out.bind_eq_ok.1 h2
          simp only [Out.pure_eq, Out.ok.injEq] at h2
          subst h2
          rcases hc with hc | hc <;> cases hc
    rcases hr with hr | hr
    · exact key _ hr (Or.inl rfl)
    · exact key _ hr (Or.inr rfl)
  have hstop : stop = .ret e ∨ stop = .brk e := by
    cases stop <;> simp [Stop.err] at hs <;> subst hs <;> simp
  obtain ⟨j, a, hj, e0, h1, h2⟩ := sliceLoop_told (R := fun i a e => ∃ e0, Blames Γ [] elt a e0 ∧ e = newParsingError (natStr i) e0) hcell hl hstop
  rw [Nat.zero_add] at h2
  exact ⟨j, a, e0, hj, h1, h2⟩

theorem bytes_told {t : TExpr} {len : Option Nat}
    (ht : match len with | none => Is Γ t (.slice (.prim .byte)) | some n => Is Γ t (.array n (.prim .byte))) {v : JV} {s s' : GoVal} {e : Err}
    (h : bytesFill len v s = .ok (some e, s')) (L : Str) : Blames Γ L t v e := by
  have hw : Is Γ t (.slice (.prim .byte)) ∨ ∃ n, Is Γ t (.array n (.prim .byte)) := by
    cases len with
    | none => exact Or.inl ht
    | some n => exact Or.inr ⟨n, ht⟩
  unfold bytesFill at h
  split at h
  · simp at h
  · cases hg : v.getStr with
    | error c =>
      rw [hg] at h
      simp only [Out.ok.injEq, Prod.mk.injEq, Option.some.injEq] at h
      obtain ⟨rfl, rfl⟩ := h
      obtain ⟨h1, rfl⟩ := getStr_err hg
      exact (Wrong.type (.bytes hw) h1).plain
    | ok str =>
      have hv : v = .str str := by cases v <;> simp [JV.getStr] at hg; rw [hg]
      subst hv
      rw [hg] at h
      have hbad : (b64Decode str).2 = false → ∀ b, ¬ Base64Text str b := by
        intro h1 b hb
        rw [base64_decode] at hb
        rw [hb] at h1; cases h1
      cases len with
      | none =>
        simp only at h
        split at h
        · simp at h
        · rename_i hn
          simp only [Out.ok.injEq, Prod.mk.injEq, Option.some.injEq] at h
          obtain ⟨rfl, rfl⟩ := h
          exact (Wrong.base64 hw (hbad (by simpa using hn))).plain
      | some n =>
        simp only at h
        split at h
        · split at h
          · cases h
          · split at h
            · rename_i hn
              simp only [Out.ok.injEq, Prod.mk.injEq, Option.some.injEq] at h
              obtain ⟨rfl, rfl⟩ := h
              exact (Wrong.base64 hw (hbad (by simpa using hn))).plain
            · rename_i hn
              split at h
              · rename_i hl
                simp only [Out.ok.injEq, Prod.mk.injEq, Option.some.injEq] at h
                obtain ⟨rfl, rfl⟩ := h
                refine (Wrong.shortBytes ht (b := (b64Decode str).1) ?_ hl).plain
                rw [base64_decode]
                simp only [Decidable.not_not] at hn
                exact Prod.ext rfl hn
              · simp at h
        · cases h

/-- every method of a traced type reports errors properly, whatever the bound on nested calls -/
theorem calls_told (hT : TracedSet Γ S) : ∀ k, CallsTold Γ S (Γ.methods k) := by
  intro k
  induction k with
  | zero => intro n v s e s' _ h; simp [Env.methods, Methods.loop] at h
  | succ k ih =>
    intro n v s e s' hn h L T hT0
    cases hd : Γ.decl n with
    | none =>
      have hf : Fills Γ n v s (some e) s' := ⟨k + 1, h⟩
      have hw : Wrong Γ L T v e.path.toList e.cause := .foreign hT0 hd hf
      have := hw.blames
      obtain ⟨path, c⟩ := e
      cases path <;> exact this
    | some d =>
      rw [methods_fill hd] at h
      obtain ⟨ir, hg, hr⟩ := Out.bind_eq_ok.1 h
      have htr := hT.traced n d hn hd
      cases d with
      | struct strict fields =>
        simp only [genFill] at hg
        obtain ⟨fs, hfs, hir⟩ := Out.bind_eq_ok.1 hg
        simp only [Out.pure_eq, Out.ok.injEq] at hir
        subst hir
        cases s with
        | struct gs =>
          simp only [runFill] at hr
          cases hv : validate (fields.map (·.tags.jsonName)) strict v with
          | some e' =>
            rw [hv] at hr
            simp only [Out.ok.injEq, Prod.mk.injEq, Option.some.injEq] at hr
            obtain ⟨rfl, rfl⟩ := hr
            rcases validate_error hv with ⟨hno, rfl⟩ | ⟨kvs, rfl, ⟨key, hk, ho, rfl⟩ | ⟨rfl, kv, hm, hk, rfl⟩⟩
            · refine (Wrong.type (.struct hT0 hd) ?_).plain
              intro ht
              cases v with
              | obj kvs => exact hno kvs rfl
              | _ => simp [JV.type] at ht
            · exact (Wrong.twice hT0 hd hk ho).blames
            · exact (Wrong.unexpected hT0 hd hm hk).plain
          | none =>
            rw [hv] at hr
            obtain ⟨⟨e', gs'⟩, h1, h2⟩ := Out.bind_eq_ok.1 hr
            simp only [Out.pure_eq, Out.ok.injEq, Prod.mk.injEq] at h2
            obtain ⟨rfl, rfl⟩ := h2
            obtain ⟨_, i, f, g, g', h3, h4, h5, h6, _⟩ := runFields_err h1
            have hi : i < fields.length := by
              rw [← genFields_length hfs]; exact (List.getElem?_eq_some_iff.1 h3).1
            obtain ⟨f', h7, h8⟩ := genFields_get hfs (List.getElem?_eq_getElem hi)
            rw [h3] at h7
            obtain rfl := Option.some.inj h7
            have hmem : fields[i] ∈ fields := List.getElem_mem hi
            generalize fields[i] = fd at h8 hmem
            have hh := (genFieldFill_some h8).2.1
            obtain ⟨hne, hft⟩ := htr fd hmem hh
            have hgd : Good S fd.typ := hT.good hn hd (by simp only [Decl.types, List.mem_map]; exact ⟨fd, hmem, rfl⟩)
            rcases field_told ih hT.is h8 hgd hne hft h6 with ⟨a, e0, ha, ⟨p, tl, L', t', v', c, hb1, hb2, rfl⟩, rfl⟩ | ⟨hreq, hmiss, rfl⟩
            · exact ⟨fd.tags.jsonName :: p, tl, L', t', v', c, .field hT0 hd hmem hh hne ha hb1, hb2, errorAt_wrap _ _ _⟩
            · exact (Wrong.required hT0 hd hmem hreq hmiss).blames
        | _ => simp [runFill] at hr
      | alias t =>
        have hgd : Good S t := hT.good hn hd (by simp [Decl.types])
        refine Blames.name (L0 := []) hT0 hd (Or.inr rfl) ?_
        by_cases hcoll : t.isCollection = true
        · cases t with
          | slice elt =>
            by_cases hb : elt = .prim .byte
            · subst hb
              simp [genFill, TExpr.isByte] at hg
              subst hg
              simp only [runFill] at hr
              exact bytes_told (len := none) (.self _) hr []
            · obtain ⟨hst, r, hr', hns, _, rfl⟩ := genFill_list (len := none) hb hg
              have hx := typedValue_plan hr' (prepare_resolve ..) hns
              have he : (∃ p, PrimName Γ elt p) ∨ ∃ m, Calls Γ elt m := by
                rcases htr with h | h
                · exact absurd h hb
                · exact h
              simp only [runFill] at hr
              split at hr
              · simp at hr
              · cases hv : v.getArr with
                | error c =>
                  rw [hv] at hr
                  simp only [Out.ok.injEq, Prod.mk.injEq, Option.some.injEq] at hr
                  obtain ⟨rfl, rfl⟩ := hr
                  obtain ⟨h1, rfl⟩ := getArr_err hv
                  exact (Wrong.type (.list (Or.inl (.self _)) hb) h1).plain
                | ok l =>
                  obtain rfl := getArr_ok hv
                  rw [hv] at hr
                  obtain ⟨z, _, hr⟩ := Out.bind_eq_ok.1 hr
                  obtain ⟨⟨stop, n', cells⟩, h1, h2⟩ := Out.bind_eq_ok.1 hr
                  simp only [Out.pure_eq, Out.ok.injEq, Prod.mk.injEq] at h2
                  obtain ⟨h2, rfl⟩ := h2
                  obtain ⟨i, a, e0, h3, h4, rfl⟩ := list_told ih hst hx hgd.slice he h1 h2
                  exact .elem (Or.inl (.self _)) h3 h4
          | array len elt =>
            by_cases hb : elt = .prim .byte
            · subst hb
              simp [genFill, TExpr.isByte] at hg
              subst hg
              simp only [runFill] at hr
              exact bytes_told (len := some len) (.self _) hr []
            · obtain ⟨hst, r, hr', hns, _, rfl⟩ := genFill_list (len := some len) hb hg
              have hx := typedValue_plan hr' (prepare_resolve ..) hns
              have he : (∃ p, PrimName Γ elt p) ∨ ∃ m, Calls Γ elt m := by
                rcases htr with h | h
                · exact absurd h hb
                · exact h
              simp only [runFill] at hr
              split at hr
              · simp at hr
              · cases hv : v.getArr with
                | error c =>
                  rw [hv] at hr
                  simp only [Out.ok.injEq, Prod.mk.injEq, Option.some.injEq] at hr
                  obtain ⟨rfl, rfl⟩ := hr
                  obtain ⟨h1, rfl⟩ := getArr_err hv
                  exact (Wrong.type (.list (Or.inr ⟨_, .self _⟩) hb) h1).plain
                | ok l =>
                  obtain rfl := getArr_ok hv
                  rw [hv] at hr
                  simp only at hr
                  split at hr
                  · rename_i hl
                    simp only [Out.ok.injEq, Prod.mk.injEq, Option.some.injEq] at hr
                    obtain ⟨rfl, rfl⟩ := hr
                    exact (Wrong.length (.self _) (fun h => hl h.symm) (Or.inr rfl)).plain
                  · split at hr
                    · obtain ⟨⟨stop, n', cells⟩, h1, h2⟩ := Out.bind_eq_ok.1 hr
                      simp only [Out.pure_eq, Out.ok.injEq, Prod.mk.injEq] at h2
                      obtain ⟨h2, rfl⟩ := h2
                      obtain ⟨i, a, e0, h3, h4, rfl⟩ := list_told ih hst hx hgd.array he h1 h2
                      exact .elem (Or.inr ⟨_, .self _⟩) h3 h4
                    · cases hr
          | map val =>
            obtain ⟨r, hr', hns, _, rfl⟩ := genFill_mapT hg
            have hs := genFill_map_simple hg
            have hx := typedValue_plan hr' (prepare_resolve ..) hns
            simp only [runFill] at hr
            split at hr
            · simp at hr
            · cases hv : v.getObj with
              | error c =>
                rw [hv] at hr
                simp only [Out.ok.injEq, Prod.mk.injEq, Option.some.injEq] at hr
                obtain ⟨rfl, rfl⟩ := hr
                obtain ⟨h1, rfl⟩ := getObj_err hv
                exact (Wrong.type (.map (.self _)) h1).plain
              | ok kvs =>
                obtain rfl := getObj_ok hv
                rw [hv] at hr
                obtain ⟨⟨e', m⟩, h1, h2⟩ := Out.bind_eq_ok.1 hr
                simp only [Out.pure_eq, Out.ok.injEq, Prod.mk.injEq] at h2
                obtain ⟨rfl, rfl⟩ := h2
                obtain ⟨key, a, e0, h3, h4, rfl⟩ := mapLoop_told (L := []) ih hx (by rw [prepare_expr]; exact hgd.map.pointee) hs h1
                rw [prepare_expr] at h4
                exact .entry (.self _) h3 h4.pointee
          | _ => cases hcoll
        · have hcoll : t.isCollection = false := by simpa using hcoll
          obtain ⟨hst, r, hr', hns, rfl⟩ := genFill_transit hcoll hg
          have hx := typedValue_plan hr' (prepare_resolve ..) hns
          have hpt : pointee t = t := by cases t <;> first | rfl | exact absurd rfl (hst _)
          have hpe : (Fld.prepare Γ false t {} true false).expr = t := by rw [prepare_expr, hpt]
          have htr' : (∃ p, p ≠ .string ∧ PrimName Γ t p) ∨ ∃ m, Calls Γ t m := by
            cases t <;> first | exact htr | cases hcoll
          have hsim := plan_simple hx (by rw [hpe]; exact hgd.2) (by rw [hpe]; exact htr')
          simp only [runFill] at hr
          obtain ⟨tv, h1, h2⟩ := Out.bind_eq_ok.1 hr
          obtain ⟨q, f', rfl⟩ := simple_noRet hsim h1
          cases q with
          | error e' =>
            simp only [Out.pure_eq, Out.ok.injEq, Prod.mk.injEq, Option.some.injEq] at h2
            obtain ⟨rfl, rfl⟩ := h2
            have := simple_told ih hx (by rw [hpe]; exact hgd) hsim h1 []
            rwa [hpe] at this
          | ok val =>
            simp only at h2
            obtain ⟨w, _, h2⟩ := Out.bind_eq_ok.1 h2
            cases h2

end

end VJ
