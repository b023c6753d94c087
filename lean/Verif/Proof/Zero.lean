import Verif.Spec.Zero
import Verif.Proof.TotalFill
import Verif.Proof.FieldFacts

/-!
# `IsZero` ends, and what its answer means
-/

namespace VJ
set_option linter.unusedSectionVars false
set_option linter.unusedSimpArgs false

variable [Ext] {Γ : Env} {X : Nat → GoVal → Prop} {S : Nat → Prop}

/-! ### zero values -/

theorem zeroIs_alias {n : Nat} {u : TExpr} (hd : Γ.decl n = some (.alias u)) {z : GoVal} : ZeroIs Γ n z ↔ ZeroOf Γ u z := by
  constructor
  · rintro ⟨k, h⟩
    cases k with
    | zero => cases h
    | succ k => rw [methods_some hd] at h; exact ⟨k, h⟩
  · rintro ⟨k, h⟩
    exact ⟨k + 1, by rw [methods_some hd]; exact h⟩

theorem zeroIs_none {n : Nat} (hd : Γ.decl n = none) {z : GoVal} : ZeroIs Γ n z ↔ (Γ.ext n).zero = .ok z := by
  constructor
  · rintro ⟨k, h⟩
    cases k with
    | zero => cases h
    | succ k => rw [methods_none hd] at h; exact h
  · intro h
    exact ⟨1, by rw [methods_none hd]; exact h⟩

theorem zeroFields_of {k : Nat} : ∀ {fields : List FieldDecl} {zs : List GoVal}, zeroFields (Γ.methods k) fields = .ok zs →
    zs.length = fields.length ∧ ∀ (i : Nat) (fd : FieldDecl) (z : GoVal), fields[i]? = some fd → zs[i]? = some z → ZeroOf Γ fd.typ z
  | [], zs, h => by simp only [zeroFields, Out.ok.injEq] at h; subst h; exact ⟨rfl, by simp⟩
  | fd :: fds, zs, h => by
    simp only [zeroFields] at h
    obtain ⟨z, h1, h⟩ := Out.bind_eq_ok.1 h
    obtain ⟨zs', h2, h⟩ := Out.bind_eq_ok.1 h
    simp only [Out.pure_eq, Out.ok.injEq] at h
    subst h
    obtain ⟨h3, h4⟩ := zeroFields_of h2
    refine ⟨by simp [h3], ?_⟩
    intro i fd' z' hf hz
    cases i with
    | zero => simp at hf hz; subst hf; subst hz; exact ⟨k, h1⟩
    | succ i => exact h4 i fd' z' (by simpa using hf) (by simpa using hz)

theorem zeroFields_mk : ∀ {fields : List FieldDecl} {zs : List GoVal}, zs.length = fields.length →
    (∀ (i : Nat) (fd : FieldDecl) (z : GoVal), fields[i]? = some fd → zs[i]? = some z → ZeroOf Γ fd.typ z) →
    ∃ k, zeroFields (Γ.methods k) fields = .ok zs
  | [], zs, hl, _ => ⟨0, by cases zs with | nil => rfl | cons => cases hl⟩
  | fd :: fds, [], hl, _ => by cases hl
  | fd :: fds, z :: zs, hl, h => by
    obtain ⟨k1, h1⟩ := h 0 fd z rfl rfl
    obtain ⟨k2, h2⟩ := zeroFields_mk (fields := fds) (zs := zs) (by simpa using hl) fun i fd' z' hf hz => h (i + 1) fd' z' (by simpa using hf) (by simpa using hz)
    refine ⟨max k1 k2, ?_⟩
    have h2' := (zeroFields_mono (M := Γ.methods k2) (M' := Γ.methods (max k1 k2)) (fun n => methods_mono Γ (Nat.le_max_right _ _) n) fds).eq_of_ok h2
    simp [zeroFields, zeroT_lift (Nat.le_max_left k1 k2) h1, h2']

theorem zeroIs_struct {n : Nat} {strict : Bool} {fields : List FieldDecl} (hd : Γ.decl n = some (.struct strict fields)) {z : GoVal} :
    ZeroIs Γ n z ↔ ∃ zs : List GoVal, z = .struct zs ∧ zs.length = fields.length ∧
      ∀ (i : Nat) (fd : FieldDecl) (y : GoVal), fields[i]? = some fd → zs[i]? = some y → ZeroOf Γ fd.typ y := by
  constructor
  · rintro ⟨k, h⟩
    cases k with
    | zero => cases h
    | succ k =>
      rw [methods_some hd] at h
      simp only [declMethods] at h
      obtain ⟨zs, h1, h⟩ := Out.bind_eq_ok.1 h
      simp only [Out.pure_eq, Out.ok.injEq] at h
      exact ⟨zs, h.symm, zeroFields_of h1⟩
  · rintro ⟨zs, rfl, hl, h⟩
    obtain ⟨k, hk⟩ := zeroFields_mk hl h
    exact ⟨k + 1, by rw [methods_some hd]; simp [declMethods, hk]⟩

/-! ### comparisons with constants -/

/-- the answer `b` is right for `v` in a type whose zero value is described by `Z` -/
structure ZeroAnswer (Z : GoVal → Prop) (v : GoVal) (b : Bool) : Prop where
  zero : Z v → b = true
  tidy : b = true → ¬ Untidy v → Z v

theorem ZeroAnswer.congr {Z Z' : GoVal → Prop} {v : GoVal} {b : Bool} (h : ZeroAnswer Z v b) (hZ : ∀ z, Z z ↔ Z' z) : ZeroAnswer Z' v b :=
  ⟨fun hz => h.zero ((hZ v).2 hz), fun hb ht => (hZ v).1 (h.tidy hb ht)⟩

theorem eqZero_prim {p : Prim} {v : GoVal} (h : PrimTyped p v) : ZeroAnswer (ZeroOf Γ (.prim p)) v (eqZero v) := by
  have hz : ∀ z, ZeroOf Γ (.prim p) z ↔ z = p.zero :=
    fun z => ⟨fun ⟨_, hk⟩ => by simp only [zeroT, Out.ok.injEq] at hk; exact hk.symm, fun hz => ⟨0, by rw [hz]; rfl⟩⟩
  refine ZeroAnswer.congr (Z := fun z => z = p.zero) ?_ fun z => (hz z).symm
  cases h with
  | int hp h =>
    have : p.zero = .int 0 := by cases p <;> first | rfl | cases hp
    rw [this]
    exact ⟨fun h => by cases h; rfl, fun hb _ => by simp [eqZero] at hb; rw [hb]⟩
  | float64 f =>
    refine ⟨fun h => by cases h; rfl, fun hb ht => ?_⟩
    simp only [eqZero, F64.isZero, Bool.or_eq_true, beq_iff_eq] at hb
    rcases hb with rfl | rfl
    · rfl
    · exact absurd .negZero ht
  | float32 f =>
    refine ⟨fun h => by cases h; rfl, fun hb ht => ?_⟩
    simp only [eqZero, F64.isZero, Bool.or_eq_true, beq_iff_eq] at hb
    rcases hb with rfl | rfl
    · rfl
    · exact absurd .negZero ht
  | bool b => exact ⟨fun h => by cases h; rfl, fun hb _ => by simp [eqZero] at hb; subst hb; rfl⟩
  | string s => exact ⟨fun h => by cases h; rfl, fun hb _ => by simp [eqZero] at hb; subst hb; rfl⟩

theorem eqZero_nil {t : TExpr} (ht : ∀ k : Nat, zeroT (Γ.methods k) t = .ok .nil) {v : GoVal} (hv : eqZero v = true ↔ v = .nil) :
    ZeroAnswer (ZeroOf Γ t) v (eqZero v) := by
  refine ⟨?_, ?_⟩
  · rintro ⟨k, hk⟩
    rw [ht] at hk
    exact hv.2 (by cases hk; rfl)
  · intro hb _
    rw [hv.1 hb]
    exact ⟨0, ht 0⟩

theorem zeroOf_named {n : Nat} {z : GoVal} : ZeroOf Γ (.named n) z ↔ ZeroIs Γ n z := Iff.rfl
theorem zeroOf_name {e : TExpr} {n : Nat} (he : NameOf e n) {z : GoVal} : ZeroOf Γ e z ↔ ZeroIs Γ n z := by
  cases he <;> exact Iff.rfl

theorem zeroKnown_true {k : Nat} {t : TExpr} (h : zeroKnown Γ k t = .ok true) : Compares Γ t := by
  induction k generalizing t with
  | zero => cases t <;> first | exact .prim _ | exact .uuid | exact .star _ | exact .slice _ | exact .map _ | cases h
  | succ k ih =>
    cases t with
    | named n =>
      simp only [zeroKnown] at h
      cases hd : Γ.decl n with
      | none => rw [hd] at h; cases h
      | some d =>
        rw [hd] at h
        cases d with
        | struct => have := ih h; cases this
        | alias u => exact .name hd (ih h)
    | _ => first | exact .prim _ | exact .uuid | exact .star _ | exact .slice _ | exact .map _ | cases h

theorem zeroKnown_false {k : Nat} {t : TExpr} (h : zeroKnown Γ k t = .ok false) : ¬ Compares Γ t := by
  intro hc
  induction hc generalizing k with
  | name hd _ ih =>
    cases k with
    | zero => cases h
    | succ k => simp only [zeroKnown, hd] at h; exact ih h
  | _ => cases k <;> cases h

theorem eqZero_compares {t : TExpr} (hc : Compares Γ t) {v : GoVal} (hv : HasType Γ X t v) : ZeroAnswer (ZeroOf Γ t) v (eqZero v) := by
  induction hc with
  | prim p =>
    cases hv with
    | prim h => exact eqZero_prim h
    | alias he | struct he | foreign he => cases he
  | uuid =>
    cases hv with
    | uuid h =>
      refine ⟨?_, ?_⟩
      · rintro ⟨k, hk⟩; simp only [zeroT, Out.ok.injEq, GoVal.uuid.injEq] at hk; subst hk; simp [eqZero]
      · intro hb _; simp [eqZero] at hb; subst hb; exact ⟨0, rfl⟩
    | alias he | struct he | foreign he => cases he
  | star t =>
    refine eqZero_nil (fun _ => rfl) ?_
    rcases hv.star_cases with rfl | ⟨w, rfl, _⟩ <;> simp [eqZero]
  | slice t =>
    refine eqZero_nil (fun _ => rfl) ?_
    cases hv with
    | nilSlice => simp [eqZero]
    | slice => simp [eqZero]
    | bytes => simp [eqZero]
    | alias he | struct he | foreign he => cases he
  | map t =>
    refine eqZero_nil (fun _ => rfl) ?_
    rcases hv.map_cases with rfl | ⟨w, rfl, _⟩ <;> simp [eqZero]
  | name hd _ ih =>
    exact (ih (hv.of_alias (.named _) hd)).congr fun z => (zeroOf_named.trans (zeroIs_alias hd)).symm

theorem time_answer (t : Time) : ZeroAnswer (ZeroOf Γ .time) (.time t) t.isZero := by
  refine ⟨?_, ?_⟩
  · rintro ⟨k, hk⟩; simp only [zeroT, Out.ok.injEq, GoVal.time.injEq] at hk; subst hk; rfl
  · intro hb ht
    obtain ⟨ns, off⟩ := t
    simp only [Time.isZero, beq_iff_eq] at hb
    subst hb
    by_cases ho : off = 0
    · subst ho; exact ⟨0, rfl⟩
    · exact absurd (.location ho) ht

/-! ### tests -/

theorem hasType_denoted {t : TExpr} {v : GoVal} (h : HasType Γ X t v) (hc : Compares Γ (Γ.denoted t)) :
    HasType Γ X (Γ.denoted t) v ∧ ∀ z, ZeroOf Γ (Γ.denoted t) z ↔ ZeroOf Γ t z := by
  have name : ∀ n, NameOf t n → Γ.denoted t = Γ.denotedIdent n t → HasType Γ X (Γ.denoted t) v ∧ ∀ z, ZeroOf Γ (Γ.denoted t) z ↔ ZeroOf Γ t z := by
    intro n hn he
    cases hd : Γ.decl n with
    | none => simp only [Env.denotedIdent, hd] at he; rw [he]; exact ⟨h, fun _ => Iff.rfl⟩
    | some d =>
      cases d with
      | struct => simp only [Env.denotedIdent, hd, Decl.spec] at he; rw [he] at hc; cases hc
      | alias u =>
        simp only [Env.denotedIdent, hd, Decl.spec] at he
        rw [he]
        exact ⟨h.of_alias hn hd, fun z => ((zeroOf_name hn).trans (zeroIs_alias hd)).symm⟩
  cases t with
  | named n => exact name n (.named n) rfl
  | sel n => exact name n (.sel n) rfl
  | _ => exact ⟨h, fun _ => Iff.rfl⟩

/-- one test, given that the methods it may call answer rightly -/
theorem test_term {k : Nat} {known t : TExpr} {z : ZTest} (hz : zTest Γ k known t = .ok z)
    (hk : known = t ∨ known = Γ.denoted t) {v : GoVal} (hv : HasType Γ X t v)
    (hm : ∀ n, NameOf t n → Term (fun k => (Γ.methods k n).isZero v) (ZeroAnswer (ZeroIs Γ n) v)) :
    Term (fun k => runZTest (Γ.methods k) z v) (ZeroAnswer (ZeroOf Γ t) v) := by
  simp only [zTest] at hz
  obtain ⟨b, hb, hz⟩ := Out.bind_eq_ok.1 hz
  cases b with
  | true =>
    simp only [if_true, Out.pure_eq, Out.ok.injEq] at hz
    subst hz
    have hc := zeroKnown_true hb
    refine .pure ?_
    rcases hk with rfl | rfl
    · exact eqZero_compares hc hv
    · obtain ⟨h1, h2⟩ := hasType_denoted hv hc
      exact (eqZero_compares hc h1).congr h2
  | false =>
    simp only [Bool.false_eq_true, if_false] at hz
    split at hz
    · simp only [Out.pure_eq, Out.ok.injEq] at hz
      subst hz
      cases hv with
      | time t => exact .pure (time_answer t)
      | alias he | struct he | foreign he => cases he
    · simp only [Out.pure_eq, Out.ok.injEq] at hz
      subst hz
      exact (hm _ (.named _)).imp fun b h => h.congr fun z => Iff.rfl
    · simp only [Out.pure_eq, Out.ok.injEq] at hz
      subst hz
      exact (hm _ (.sel _)).imp fun b h => h.congr fun z => Iff.rfl
    · cases hz

theorem tests_term {k : Nat} : ∀ {fields : List FieldDecl} {ts : List ZTest} {gs : List GoVal},
    genZTests Γ k fields = .ok ts → gs.length = fields.length →
    (∀ (i : Nat) (fd : FieldDecl) (g : GoVal), fields[i]? = some fd → gs[i]? = some g → HasType Γ X fd.typ g ∧
      ∀ n, NameOf fd.typ n → Term (fun k => (Γ.methods k n).isZero g) (ZeroAnswer (ZeroIs Γ n) g)) →
    Term (fun k => runZTests (Γ.methods k) ts gs) (fun b =>
      ((∀ (i : Nat) (fd : FieldDecl) (g : GoVal), fields[i]? = some fd → gs[i]? = some g → ZeroOf Γ fd.typ g) → b = true) ∧
      (b = true → ∀ (i : Nat) (fd : FieldDecl) (g : GoVal), fields[i]? = some fd → gs[i]? = some g → ¬ Untidy g → ZeroOf Γ fd.typ g))
  | [], ts, gs, hg, hl, _ => by
    simp only [genZTests, Out.ok.injEq] at hg
    subst hg
    cases gs with
    | nil => exact .pure ⟨fun _ => rfl, fun _ i fd g h => by simp at h⟩
    | cons => cases hl
  | fd :: fds, ts, [], hg, hl, _ => by cases hl
  | fd :: fds, ts, g :: gs, hg, hl, h => by
    simp only [genZTests] at hg
    obtain ⟨t, h1, hg⟩ := Out.bind_eq_ok.1 hg
    obtain ⟨ts', h2, hg⟩ := Out.bind_eq_ok.1 hg
    simp only [Out.pure_eq, Out.ok.injEq] at hg
    subst hg
    obtain ⟨hv, hm⟩ := h 0 fd g rfl rfl
    refine (test_term h1 (Or.inr rfl) hv hm).bind fun b hb => ?_
    cases b with
    | false =>
      refine .pure ⟨fun hall => hb.zero (hall 0 fd g rfl rfl), by simp⟩
    | true =>
      have := tests_term (fields := fds) (gs := gs) h2 (by simpa using hl) fun i fd' g' hf hg' => h (i + 1) fd' g' (by simpa using hf) (by simpa using hg')
      refine this.imp fun b ⟨ha, hb'⟩ => ⟨?_, ?_⟩
      · intro hall
        exact ha fun i fd' g' hf hg' => hall (i + 1) fd' g' (by simpa using hf) (by simpa using hg')
      · intro hb2 i fd' g' hf hg' ht
        cases i with
        | zero => simp at hf hg'; subst hf; subst hg'; exact hb.tidy rfl ht
        | succ i => exact hb' hb2 i fd' g' (by simpa using hf) (by simpa using hg') ht

theorem all_const (M : Nat → Methods) : ∀ (vs : List GoVal), runAll M .const vs = .ok (vs.all eqZero)
  | [] => rfl
  | v :: vs => by
    simp only [runAll, runZTest, Out.ok_bind]
    cases h : eqZero v with
    | false => simp [h]
    | true => simp [h, all_const M vs]

theorem isZero_of_ir {n k1 : Nat} {d : Decl} {ir : ZeroIR} (hd : Γ.decl n = some d) (hg : genZero Γ k1 d = .ok ir) {v : GoVal}
    {P : Bool → Prop} (h : Term (fun k => runZero (Γ.methods k) ir v) P) :
    Term (fun k => (Γ.methods k n).isZero v) P := by
  refine Term.succ (h.congr k1 (o' := fun k => genZero Γ k d >>= fun ir => runZero (Γ.methods k) ir v) fun k hk => ?_)
    (fun k => by rw [methods_some hd]; rfl)
  have : genZero Γ k d = .ok ir := by
    clear h
    induction hk with
    | refl => exact hg
    | step _ ih => exact (genZero_mono Γ _ d).eq_of_ok ih
  simp only [this, Out.ok_bind]

theorem ZeroPackage.good (hP : ZeroPackage Γ X S) {n : Nat} {d : Decl} {t : TExpr} (hn : S n) (hd : Γ.decl n = some d) (ht : t ∈ d.types)
    {m : Nat} (hm : NameOf t m) : S m :=
  hP.closed n d t m hn hd ht (by cases hm <;> simp [TExpr.names])

/-- `IsZero` ends and its answer is right. -/
theorem isZero_term (hP : ZeroPackage Γ X S) (hA : NoArrayTests Γ S) {t : TExpr} {v : GoVal} (hv : HasType Γ X t v) :
    ∀ n, NameOf t n → S n → Term (fun k => (Γ.methods k n).isZero v) (ZeroAnswer (ZeroIs Γ n) v) := by
  induction hv with
  | @foreign e n v he hd h =>
    intro m hm hS
    cases hm.inj he
    obtain ⟨b, h1, h2⟩ := hP.foreign n v hS hd h
    exact (Term.pure (P := ZeroAnswer (ZeroIs Γ n) v) ⟨fun hz => h2.2 ((zeroIs_none hd).1 hz), fun hb _ => (zeroIs_none hd).2 (h2.1 hb)⟩).succ
      fun k => by rw [methods_none hd, h1]
  | @struct e n strict fields gs he hd hl h ih =>
    intro m hm hS
    cases hm.inj he
    obtain ⟨k1, ir, hg⟩ := hP.generated n _ hS hd
    refine isZero_of_ir hd hg ?_
    simp only [genZero] at hg
    rw [if_neg] at hg
    · obtain ⟨ts, h1, hg⟩ := Out.bind_eq_ok.1 hg
      simp only [Out.pure_eq, Out.ok.injEq] at hg
      subst hg
      refine (tests_term h1 hl fun i fd g hf hg => ⟨h i fd g hf hg, fun m' hm' => ih i fd g hf hg m' hm' ?_⟩).imp fun b hb => ?_
      · refine hP.good hS hd ?_ hm'
        simp only [Decl.types, List.mem_map]
        exact ⟨fd, List.mem_of_getElem? hf, rfl⟩
      · refine ⟨fun hz => hb.1 ?_, fun hb' ht => ?_⟩
        · obtain ⟨zs, h1, h2, h3⟩ := (zeroIs_struct hd).1 hz
          cases h1
          exact h3
        · refine (zeroIs_struct hd).2 ⟨gs, rfl, hl, fun i fd y hf hy => hb.2 hb' i fd y hf hy ?_⟩
          exact fun hu => ht (.struct (List.mem_of_getElem? hy) hu)
    · simp only [List.any_eq_true, not_exists, not_and]
      intro fd hf ha
      cases ht : fd.typ with
      | array len t => exact hA.1 n strict fields fd len t hS hd hf ht
      | _ => rw [ht] at ha; cases ha
  | @alias e u n v he hd h ih =>
    intro m hm hS
    cases hm.inj he
    obtain ⟨k1, ir, hg⟩ := hP.generated n _ hS hd
    refine isZero_of_ir hd hg ?_
    refine Term.imp (P := ZeroAnswer (ZeroOf Γ u) v) ?_ fun b hb => hb.congr fun z => (zeroIs_alias hd).symm
    have single : ∀ z, zTest Γ k1 u u = .ok z → Term (fun k => runZTest (Γ.methods k) z v) (ZeroAnswer (ZeroOf Γ u) v) :=
      fun z hz => test_term hz (Or.inl rfl) h fun m' hm' => ih m' hm' (hP.good hS hd (by simp [Decl.types]) hm')
    have len : ∀ l : Nat, v.len = .ok l → (∀ k : Nat, VJ.zeroT (Γ.methods k) u = .ok .nil) → (v = .nil → l = 0) → (l = 0 → ¬ Untidy v → v = .nil) →
        Term (fun k => runZero (Γ.methods k) .len v) (ZeroAnswer (ZeroOf Γ u) v) := by
      intro l hl hz h1 h2
      have : ∀ M : Nat → Methods, runZero M .len v = .ok (l == 0) := fun M => by simp [runZero, hl]
      simp only [this]
      refine .pure ⟨?_, ?_⟩
      · rintro ⟨k, hk⟩
        rw [hz] at hk
        have : l = 0 := h1 (by cases hk; rfl)
        simp [this]
      · intro hb ht
        rw [h2 (by simpa using hb) ht]
        exact ⟨0, hz 0⟩
    cases u with
    | map t =>
      simp only [genZero, Out.ok.injEq] at hg
      subst hg
      rcases h.map_cases with rfl | ⟨kvs, rfl, _⟩
      · exact len 0 rfl (fun _ => rfl) (fun _ => rfl) (fun _ _ => rfl)
      · refine len kvs.length rfl (fun _ => rfl) (fun h => by cases h) fun hl ht => ?_
        have : kvs = [] := List.length_eq_zero_iff.1 hl
        subst this
        exact absurd .emptyMap ht
    | slice t =>
      simp only [genZero, Out.ok.injEq] at hg
      subst hg
      cases h with
      | nilSlice => exact len 0 rfl (fun _ => rfl) (fun _ => rfl) (fun _ _ => rfl)
      | @slice _ es sp =>
        refine len es.length rfl (fun _ => rfl) (fun h => by cases h) fun hl ht => ?_
        have : es = [] := List.length_eq_zero_iff.1 hl
        subst this
        exact absurd (.emptySlice _) ht
      | bytes b =>
        refine len b.length rfl (fun _ => rfl) (fun h => by cases h) fun hl ht => ?_
        have : b = [] := List.length_eq_zero_iff.1 hl
        subst this
        exact absurd .emptyBytes ht
      | alias he | struct he | foreign he => cases he
    | array len t =>
      simp only [genZero] at hg
      split at hg
      · rename_i hb
        obtain rfl := isByte_iff.1 hb
        simp only [Out.ok.injEq] at hg
        subst hg
        cases h with
        | barr hl =>
          rename_i b
          refine .pure ⟨?_, ?_⟩
          · rintro ⟨k, hk⟩
            simp only [VJ.zeroT, TExpr.isByte, if_true, Out.ok.injEq, GoVal.barr.injEq] at hk
            subst hk
            simp
          · intro hb _
            refine ⟨0, ?_⟩
            simp only [VJ.zeroT, TExpr.isByte, if_true, Out.ok.injEq, GoVal.barr.injEq]
            rw [List.eq_replicate_of_mem (l := b) (a := 0) (by simpa using hb), hl]
        | array hb => exact absurd rfl hb
        | alias he | struct he | foreign he => cases he
      · rename_i hb
        obtain ⟨z, h1, hg⟩ := Out.bind_eq_ok.1 hg
        simp only [Out.pure_eq, Out.ok.injEq] at hg
        subst hg
        have hc := hA.2 n _ t hS hd
        simp only [zTest] at h1
        obtain ⟨b, hb', h1⟩ := Out.bind_eq_ok.1 h1
        cases b with
        | false => exact absurd hc (zeroKnown_false hb')
        | true =>
          simp only [if_true, Out.pure_eq, Out.ok.injEq] at h1
          subst h1
          obtain ⟨es, rfl, hl, hes⟩ := h.array_cases (fun h => hb (isByte_iff.2 h))
          simp only [runZero, all_const]
          refine .pure ⟨?_, ?_⟩
          · rintro ⟨k, hk⟩
            simp only [VJ.zeroT, hb] at hk
            obtain ⟨z, hz, hk⟩ := Out.bind_eq_ok.1 hk
            simp only [Out.pure_eq, Out.ok.injEq, GoVal.arr.injEq] at hk
            rw [List.all_eq_true]
            intro x hx
            have := hes x hx
            rw [← hk] at hx
            have hxz := List.eq_of_mem_replicate hx
            exact (eqZero_compares hc this).zero ⟨k, by rw [hxz]; exact hz⟩
          · intro hall ht
            rw [List.all_eq_true] at hall
            have hz : ∀ x ∈ es, ZeroOf Γ t x := fun x hx => (eqZero_compares hc (hes x hx)).tidy (hall x hx) fun hu => ht (.arr hx hu)
            have h0 : ∃ z, ZeroOf Γ t z := compares_zero hc
            obtain ⟨z, k, hk⟩ := h0
            refine ⟨k, ?_⟩
            simp only [VJ.zeroT, hb, hk, Out.ok_bind]
            simp only [Bool.false_eq_true, if_false, Out.pure_eq, Out.ok.injEq, GoVal.arr.injEq]
            rw [List.eq_replicate_of_mem (l := es) (a := z) fun x hx => zeroOf_unique (hz x hx) ⟨k, hk⟩, hl]
    | prim p =>
      simp only [genZero] at hg
      obtain ⟨z, h1, hg⟩ := Out.bind_eq_ok.1 hg
      simp only [Out.pure_eq, Out.ok.injEq] at hg
      subst hg
      exact single z h1
    | named m' =>
      simp only [genZero] at hg
      obtain ⟨z, h1, hg⟩ := Out.bind_eq_ok.1 hg
      simp only [Out.pure_eq, Out.ok.injEq] at hg
      subst hg
      exact single z h1
    | sel m' =>
      simp only [genZero] at hg
      obtain ⟨z, h1, hg⟩ := Out.bind_eq_ok.1 hg
      simp only [Out.pure_eq, Out.ok.injEq] at hg
      subst hg
      exact single z h1
    | time =>
      simp only [genZero] at hg
      obtain ⟨z, h1, hg⟩ := Out.bind_eq_ok.1 hg
      simp only [Out.pure_eq, Out.ok.injEq] at hg
      subst hg
      exact single z h1
    | uuid =>
      simp only [genZero] at hg
      obtain ⟨z, h1, hg⟩ := Out.bind_eq_ok.1 hg
      simp only [Out.pure_eq, Out.ok.injEq] at hg
      subst hg
      exact single z h1
    | star t => cases hg
    | structT => cases hg
  | _ => intro n hn; cases hn
where
  compares_zero {t : TExpr} (hc : Compares Γ t) : ∃ z, ZeroOf Γ t z := by
    induction hc with
    | name hd _ ih =>
      obtain ⟨z, hz⟩ := ih
      exact ⟨z, zeroOf_named.2 ((zeroIs_alias hd).2 hz)⟩
    | _ => exact ⟨_, 0, rfl⟩

end VJ
