import Verif.Props.Errors
import Verif.Spec.Named

/-!
# C19: types declared as other types
-/

namespace VJ
set_option linter.unusedSectionVars false

section
variable [Ext]

/-! ## Encoding -/

theorem marshal_call {Γ : Env} {n m : Nat} (h : DeclaredAs Γ n m) {v : GoVal} {w w' : W} {e : Option EErr} :
    MarshalsTo Γ n (some v) w e w' ↔ MarshalsTo Γ m (some v) w e w' := by
  obtain ⟨t, hd, hn⟩ := h
  have key : ∀ k, (Γ.methods (k + 1) n).marshalTo (some v) w = (Γ.methods k m).marshalTo (some v) w := by
    intro k
    cases hn <;> simp [Env.methods, hd, declMethods, genMarshal, runMarshal, Out.ok_bind]
  constructor
  · rintro ⟨k, h⟩
    cases k with
    | zero => simp [Env.methods, Methods.loop] at h
    | succ k => exact ⟨k, by rw [← key]; exact h⟩
  · rintro ⟨k, h⟩
    exact ⟨k + 1, by rw [key]; exact h⟩

theorem marshals_of_to {Γ : Env} {n m : Nat} {v : Option GoVal}
    (h : ∀ w e w', MarshalsTo Γ n v w e w' ↔ MarshalsTo Γ m v w e w') {r : Except EErr Str} :
    Marshals Γ n v r ↔ Marshals Γ m v r := by
  have key : ∀ {a b : Nat}, (∀ w e w', MarshalsTo Γ a v w e w' → MarshalsTo Γ b v w e w') → Marshals Γ a v r → Marshals Γ b v r := by
    rintro a b h ⟨k, hk⟩
    simp only [marshalJSON] at hk
    obtain ⟨⟨e, w⟩, h1, h2⟩ := Out.bind_eq_ok.1 hk
    obtain ⟨k', h3⟩ := h _ _ _ ⟨k, h1⟩
    exact ⟨k', by simp only [marshalJSON, h3, Out.ok_bind]; exact h2⟩
  exact ⟨key fun w e w' => (h w e w').1, key fun w e w' => (h w e w').2⟩

/-- **C19, encoding.**  A type declared as another type, through any chain of declarations,
encodes every value to the bytes, or with the error, of the type at the end of the chain, whatever
was written before. -/
theorem C19_encode {Γ : Env} {P : Nat → Prop} {n k : Nat} (h : DefinedFrom Γ P n k) {v : GoVal} {w w' : W} {e : Option EErr} :
    MarshalsTo Γ n (some v) w e w' ↔ MarshalsTo Γ k (some v) w e w' := by
  induction h with
  | one _ h => exact marshal_call h
  | more _ h _ ih => exact (marshal_call h).trans ih

/-- **C19, encoding**, for `MarshalJSON`. -/
theorem C19_encode_json {Γ : Env} {P : Nat → Prop} {n k : Nat} (h : DefinedFrom Γ P n k) {v : GoVal} {r : Except EErr Str} :
    Marshals Γ n (some v) r ↔ Marshals Γ k (some v) r :=
  marshals_of_to fun _ _ _ => C19_encode h

/-! ## Decoding, one step to a type with its own method -/

theorem zero_alias {Γ : Env} {n m : Nat} (h : DeclaredAs Γ n m) {z : GoVal} : ZeroIs Γ n z ↔ ZeroIs Γ m z := by
  obtain ⟨t, hd, hn⟩ := h
  have key : ∀ k, (Γ.methods (k + 1) n).zero = (Γ.methods k m).zero := by
    intro k
    cases hn <;> simp [Env.methods, hd, declMethods, zeroT]
  constructor
  · rintro ⟨k, h⟩
    cases k with
    | zero => simp [Env.methods, Methods.loop] at h
    | succ k => exact ⟨k, by rw [← key]; exact h⟩
  · rintro ⟨k, h⟩
    exact ⟨k + 1, by rw [key]; exact h⟩

theorem conv_alias {Γ : Env} {n m : Nat} (h : DeclaredAs Γ n m) {x y : GoVal} : ConvIs Γ n x y ↔ ConvIs Γ m x y := by
  obtain ⟨t, hd, hn⟩ := h
  have key : ∀ k, (Γ.methods (k + 1) n).conv x = (Γ.methods k m).conv x := by
    intro k
    cases hn <;> simp [Env.methods, hd, declMethods, convT]
  constructor
  · rintro ⟨k, h⟩
    cases k with
    | zero => simp [Env.methods, Methods.loop] at h
    | succ k => exact ⟨k, by rw [← key]; exact h⟩
  · rintro ⟨k, h⟩
    exact ⟨k + 1, by rw [key]; exact h⟩

theorem transit_code {Γ : Env} {n : Nat} {t : TExpr} (hd : Γ.decl n = some (.alias t)) (hdec : HasDecoder Γ n) (ht : t.isCollection = false) :
    (∀ u, t ≠ .star u) ∧ ∃ k x b, genFill Γ k (.alias t) = .ok (.transit t x) ∧ Plan Γ (Fld.prepare Γ false t {} true false) (.const (str "(root)")) x b := by
  obtain ⟨d, k, ir, hd', hg⟩ := hdec
  rw [hd] at hd'; cases hd'
  obtain ⟨hst, r, hr, hns, rfl⟩ := genFill_transit ht hg
  exact ⟨hst, k, r.x, r.filled, hg, typedValue_plan hr (prepare_resolve Γ false t {} true false) hns⟩

theorem prepare_self (Γ : Env) {t : TExpr} (hst : ∀ u, t ≠ .star u) : (Fld.prepare Γ false t {} true false).expr = t := by
  rw [prepare_expr]; cases t <;> first | rfl | exact absurd rfl (hst _)

/-- One declaration: a new value of the other type is decoded, and taken over if that went well. -/
theorem calls_fills {Γ : Env} {n m : Nat} {t : TExpr} (hd : Γ.decl n = some (.alias t)) (hdec : HasDecoder Γ n) (hc : Calls Γ t m)
    {v : JV} {old new : GoVal} {e : Option Err} :
    Fills Γ n v old e new ↔
      ∃ z x, ZeroIs Γ m z ∧ Fills Γ m v z e x ∧ ((e = none ∧ ConvIs Γ m x new) ∨ (e ≠ none ∧ new = old)) := by
  have hn := pointee_nameOf hc
  obtain ⟨hst, k, x, b, hg, hp⟩ := transit_code hd hdec (by cases hn <;> rfl)
  have hex := prepare_self Γ hst
  rw [← hex] at hc
  rcases plan_nested hp hc with ⟨hx, _⟩ | ⟨_, hf, _⟩
  · rw [hex] at hx
    subst hx
    rw [fills_iff_ir hd hg]
    have hz : ∀ K, zeroT (Γ.methods K) t = (Γ.methods K m).zero := by intro K; cases hn <;> rfl
    have hf : ∀ K s, fillT (Γ.methods K) t v s = (Γ.methods K m).fill v s := by intro K s; cases hn <;> rfl
    have hcv : ∀ K s, convT (Γ.methods K) t s = (Γ.methods K m).conv s := by intro K s; cases hn <;> rfl
    constructor
    · rintro ⟨K, h⟩
      simp only [runFill, runExtr, hz, hf, hcv] at h
      obtain ⟨tv, h1, h2⟩ := Out.bind_eq_ok.1 h
      obtain ⟨z, h3, h4⟩ := Out.bind_eq_ok.1 h1
      obtain ⟨⟨e', x⟩, h5, h6⟩ := Out.bind_eq_ok.1 h4
      simp only [Out.pure_eq, Out.ok.injEq] at h6
      subst h6
      cases e' with
      | none =>
        simp only at h2
        obtain ⟨w, h7, h8⟩ := Out.bind_eq_ok.1 h2
        simp only [Out.pure_eq, Out.ok.injEq, Prod.mk.injEq] at h8
        obtain ⟨rfl, rfl⟩ := h8
        exact ⟨z, x, ⟨K, h3⟩, ⟨K, h5⟩, Or.inl ⟨rfl, K, h7⟩⟩
      | some e' =>
        simp only [Out.pure_eq, Out.ok.injEq, Prod.mk.injEq] at h2
        obtain ⟨rfl, rfl⟩ := h2
        exact ⟨z, x, ⟨K, h3⟩, ⟨K, h5⟩, Or.inr ⟨by simp, rfl⟩⟩
    · rintro ⟨z, x, ⟨K1, h1⟩, ⟨K2, h2⟩, h⟩
      rcases h with ⟨rfl, K3, h3⟩ | ⟨he, rfl⟩
      · refine ⟨K1 + K2 + K3, ?_⟩
        have a := (methods_mono Γ (show K1 ≤ K1 + K2 + K3 by omega) m).zero.eq_of_ok h1
        have b := ((methods_mono Γ (show K2 ≤ K1 + K2 + K3 by omega) m).fill v z).eq_of_ok h2
        have c := ((methods_mono Γ (show K3 ≤ K1 + K2 + K3 by omega) m).conv x).eq_of_ok h3
        simp only [runFill, runExtr, hz, hf, hcv, a, b, c, Out.ok_bind, Out.pure_eq]
      · refine ⟨K1 + K2, ?_⟩
        have a := (methods_mono Γ (show K1 ≤ K1 + K2 by omega) m).zero.eq_of_ok h1
        have b := ((methods_mono Γ (show K2 ≤ K1 + K2 by omega) m).fill v z).eq_of_ok h2
        cases e with
        | none => exact absurd rfl he
        | some e => simp only [runFill, runExtr, hz, hf, hcv, a, b, Out.ok_bind, Out.pure_eq]
  · cases hf

/-! ## Chains that end in a struct -/

theorem calls_of_chain {Γ : Env} {P : Nat → Prop} {m k : Nat} (h : DefinedFrom Γ P m k) (hk : ∀ p, Γ.decl k ≠ some (.alias (.prim p)))
    {t : TExpr} (ht : NameOf t m) : Calls Γ t m := by
  have key : ∀ {m u : _}, DefinedFrom Γ P m k → Γ.decl m = some (.alias u) → ∃ m', NameOf u m' ∧ ∀ p, ¬ IsPrim Γ u p := by
    intro m u h hd
    have hmore : ∀ {m' : Nat} {p : Prim}, NameOf u m' → IsPrim Γ u p → Γ.decl m' = some (.alias (.prim p)) := by
      intro m' p h1 h2
      cases h1 with
      | named => cases h2; assumption
      | sel => cases h2; assumption
    cases h with
    | one _ h =>
      obtain ⟨t', hd', hn⟩ := h
      rw [hd] at hd'; cases hd'
      exact ⟨_, hn, fun p hp => hk p (hmore hn hp)⟩
    | more _ h rest =>
      obtain ⟨t', hd', hn⟩ := h
      rw [hd] at hd'; cases hd'
      refine ⟨_, hn, fun p hp => ?_⟩
      have hm := hmore hn hp
      cases rest with
      | one _ h => obtain ⟨_, a, b⟩ := h; rw [hm] at a; cases a; cases b
      | more _ h _ => obtain ⟨_, a, b⟩ := h; rw [hm] at a; cases a; cases b
  have hd : ∃ u, Γ.decl m = some (.alias u) := by
    cases h with
    | one _ h => exact ⟨_, h.choose_spec.1⟩
    | more _ h _ => exact ⟨_, h.choose_spec.1⟩
  obtain ⟨u, hd⟩ := hd
  obtain ⟨m', hn, hp⟩ := key h hd
  cases ht with
  | named => exact .name hd hn hp
  | sel => exact .sel fun p h' => by cases h' with | sel h' => rw [hd] at h'; cases h'; cases hn

theorem conv_struct {Γ : Env} {k : Nat} (hk : StructDecl Γ k) {x y : GoVal} : ConvIs Γ k x y ↔ y = x := by
  obtain ⟨strict, fields, hd⟩ := hk
  constructor
  · rintro ⟨K, h⟩
    cases K with
    | zero => simp [Env.methods, Methods.loop] at h
    | succ K => simp [Env.methods, hd, declMethods] at h; exact h.symm
  · rintro rfl
    exact ⟨1, by simp [Env.methods, hd, declMethods]⟩

theorem zero_chain {Γ : Env} {P : Nat → Prop} {n k : Nat} (h : DefinedFrom Γ P n k) {z : GoVal} : ZeroIs Γ n z ↔ ZeroIs Γ k z := by
  induction h with
  | one _ h => exact zero_alias h
  | more _ h _ ih => exact (zero_alias h).trans ih

theorem conv_chain {Γ : Env} {P : Nat → Prop} {n k : Nat} (h : DefinedFrom Γ P n k) {x y : GoVal} : ConvIs Γ n x y ↔ ConvIs Γ k x y := by
  induction h with
  | one _ h => exact conv_alias h
  | more _ h _ ih => exact (conv_alias h).trans ih

/-- **C19, decoding a type defined from a struct.**  Through any chain of declarations, decoding
such a type is decoding a *new* value of the struct: the same documents are accepted, with the
same errors; what the receiver held before does not matter, and an error leaves it alone. -/
theorem C19_decode_struct {Γ : Env} {n k : Nat} (h : DefinedFrom Γ (HasDecoder Γ) n k) (hk : StructDecl Γ k) {v : JV}
    {old new : GoVal} {e : Option Err} :
    Fills Γ n v old e new ↔ ∃ z x, ZeroIs Γ k z ∧ Fills Γ k v z e x ∧ ((e = none ∧ new = x) ∨ (e ≠ none ∧ new = old)) := by
  have hkp : ∀ p, Γ.decl k ≠ some (.alias (.prim p)) := by
    obtain ⟨_, _, hd⟩ := hk; intro p; rw [hd]; simp
  induction h generalizing old new e with
  | @one n k hp h =>
    obtain ⟨t, hd, hn⟩ := h
    have hc : Calls Γ t k := by
      obtain ⟨_, _, hs⟩ := hk
      cases hn with
      | named => exact .struct hs
      | sel => exact .sel fun p h => by cases h with | sel h => rw [hs] at h; cases h
    rw [calls_fills hd hp hc]
    simp only [conv_struct hk]
  | @more n m k hp h rest ih =>
    obtain ⟨t, hd, hn⟩ := h
    rw [calls_fills hd hp (calls_of_chain rest hkp hn)]
    simp only [conv_chain rest, conv_struct hk, zero_chain rest]
    constructor
    · rintro ⟨z, x, hz, hf, h⟩
      obtain ⟨z', x', hz', hf', h'⟩ := (ih hk hkp).1 hf
      refine ⟨z', x', hz', hf', ?_⟩
      rcases h with ⟨rfl, rfl⟩ | ⟨he, rfl⟩
      · rcases h' with ⟨_, rfl⟩ | ⟨he, _⟩
        · exact Or.inl ⟨rfl, rfl⟩
        · exact absurd rfl he
      · exact Or.inr ⟨he, rfl⟩
    · rintro ⟨z, x, hz, hf, h⟩
      rcases h with ⟨rfl, rfl⟩ | ⟨he, rfl⟩
      · exact ⟨z, new, hz, (ih hk hkp).2 ⟨z, new, hz, hf, Or.inl ⟨rfl, rfl⟩⟩, Or.inl ⟨rfl, rfl⟩⟩
      · exact ⟨z, z, hz, (ih hk hkp).2 ⟨z, x, hz, hf, Or.inr ⟨he, rfl⟩⟩, Or.inr ⟨he, rfl⟩⟩

/-! ## Chains that end in a predeclared type, a time or a UUID -/

/-- the type at the end of the chain -/
inductive Scalar | prim (p : Prim) | time | uuid

/-- the statement that reads it -/
def Scalar.extr : Scalar → Out Extr
  | .prim p => primExtraction false (.const (str "(root)")) p
  | .time => .ok (.time [] none)
  | .uuid => .ok (.uuid [])

def Scalar.conv : Scalar → GoVal → GoVal
  | .prim p => p.conv
  | _ => id

def ScalarType (Γ : Env) (t : TExpr) : Scalar → Prop
  | .prim p => PrimName Γ t p
  | .time => Is Γ t .time
  | .uuid => Is Γ t .uuid

theorem scalarType_unique {Γ : Env} {t : TExpr} {b b' : Scalar} (h : ScalarType Γ t b) (h' : ScalarType Γ t b') : b = b' := by
  cases b <;> cases b' <;> simp only [ScalarType] at h h'
  · rw [primName_unique h h']
  · exact (primName_is h h' (by simp) (by simp) (by simp)).elim
  · exact (primName_is h h' (by simp) (by simp) (by simp)).elim
  · exact (primName_is h' h (by simp) (by simp) (by simp)).elim
  · rfl
  · have := is_unique h h' (by simp) (by simp) (by simp) (by simp) (by simp) (by simp); cases this
  · exact (primName_is h' h (by simp) (by simp) (by simp)).elim
  · have := is_unique h h' (by simp) (by simp) (by simp) (by simp) (by simp) (by simp); cases this
  · rfl

/-- the outcome of reading a scalar -/
def Scalar.Reads (b : Scalar) (v : JV) (old : GoVal) (e : Option Err) (new : GoVal) : Prop :=
  ∃ x, b.extr = .ok x ∧ ∃ tv, runExtr (fun _ => Methods.loop) x 0 v old = .ok tv ∧
    ((∃ e0, (tv = .ret e0 old ∨ tv = .done (.error e0) old) ∧ e = some e0 ∧ new = old) ∨
     (∃ val, tv = .done (.ok val) old ∧ e = none ∧ new = b.conv val))

theorem scalar_run {b : Scalar} {x : Extr} (hx : b.extr = .ok x) (M : Nat → Methods) (v : JV) (old : GoVal) :
    runExtr M x 0 v old = runExtr (fun _ => Methods.loop) x 0 v old ∧
    ∃ tv, runExtr (fun _ => Methods.loop) x 0 v old = .ok tv ∧
      ((∃ e0, tv = .ret e0 old ∨ tv = .done (.error e0) old) ∨ ∃ val, tv = .done (.ok val) old) := by
  have hr : ∀ {r : Except Err GoVal}, (∃ e0, TV.done r old = .ret e0 old ∨ TV.done r old = .done (.error e0) old) ∨
      ∃ val, TV.done r old = .done (.ok val) old := by
    intro r
    cases r with
    | error e => exact Or.inl ⟨e, Or.inr rfl⟩
    | ok val => exact Or.inr ⟨val, rfl⟩
  cases b with
  | prim p =>
    cases p <;> simp only [Scalar.extr, primExtraction, Out.ok.injEq, Bool.false_eq_true, if_false, reduceCtorEq] at hx <;> subst hx
    all_goals first
      | exact ⟨rfl, _, rfl, hr⟩
      | (simp only [runExtr]
         cases v.getStr with
         | ok s => exact ⟨trivial, _, rfl, hr⟩
         | error c => exact ⟨trivial, _, rfl, Or.inl ⟨_, Or.inl rfl⟩⟩)
  | time =>
    simp only [Scalar.extr, Out.ok.injEq] at hx; subst hx
    simp only [runExtr]
    cases v.getStr with
    | ok s => exact ⟨trivial, _, rfl, hr⟩
    | error c => exact ⟨trivial, _, rfl, Or.inl ⟨_, Or.inl rfl⟩⟩
  | uuid =>
    simp only [Scalar.extr, Out.ok.injEq] at hx; subst hx
    simp only [runExtr]
    cases v.getStr with
    | ok s => exact ⟨trivial, _, rfl, hr⟩
    | error c => exact ⟨trivial, _, rfl, Or.inl ⟨_, Or.inl rfl⟩⟩

theorem scalar_plan {Γ : Env} {f : Fld} {x : Extr} {fl : Bool} {b : Scalar} (hp : Plan Γ f (.const (str "(root)")) x fl)
    (hs : ScalarType Γ f.expr b) (htags : f.tags = {}) (hdc : f.dontCheckErr = false) : b.extr = .ok x := by
  have two : ∀ {b' : Scalar}, ScalarType Γ f.expr b' → b = b' := fun h => scalarType_unique hs h
  have no : ∀ {u : TExpr}, Is Γ f.expr u → (∀ n, u ≠ .named n) → (∀ n, u ≠ .sel n) → (∀ q, u ≠ .prim q) → u ≠ .time → u ≠ .uuid → False := by
    intro u h h1 h2 h3 h4 h5
    cases b with
    | prim p => exact primName_is hs h h1 h2 h3
    | time => exact h4 (is_unique h hs h3 h1 h2 (by simp) (by simp) (by simp))
    | uuid => exact h5 (is_unique h hs h3 h1 h2 (by simp) (by simp) (by simp))
  have nc : ∀ {m : Nat}, Calls Γ f.expr m → False := by
    intro m hc
    cases b with
    | prim p => exact primName_noCalls hs m hc
    | time => exact calls_no hc hs (by simp) (by simp) (by simp) (by simp)
    | uuid => exact calls_no hc hs (by simp) (by simp) (by simp) (by simp)
  cases hp with
  | @prim _ _ p _ h hx =>
    cases two (b' := .prim p) h
    rw [hdc] at hx
    exact hx
  | fresh h _ => exact (nc h).elim
  | inPlace h _ => exact (nc h).elim
  | anon h =>
    rw [h] at hs
    cases b with
    | prim p => cases hs with | base h => cases h
    | time => cases hs
    | uuid => cases hs
  | time h hl =>
    cases two (b' := .time) h
    rw [htags] at hl ⊢
    have : decodeLayout ({} : Tags).layout = .ok none := rfl
    rw [this] at hl; cases hl
    rfl
  | uuid h => cases two (b' := .uuid) h; rw [htags]; rfl
  | bytes h => exact (no h (by simp) (by simp) (by simp) (by simp) (by simp)).elim
  | fixedBytes h => exact (no h (by simp) (by simp) (by simp) (by simp) (by simp)).elim
  | slice h => exact (no h (by simp) (by simp) (by simp) (by simp) (by simp)).elim
  | array h => exact (no h (by simp) (by simp) (by simp) (by simp) (by simp)).elim
  | map h => exact (no h (by simp) (by simp) (by simp) (by simp) (by simp)).elim

theorem scalarType_notColl {Γ : Env} {t : TExpr} {b : Scalar} (hs : ScalarType Γ t b) : t.isCollection = false := by
  cases b with
  | prim p =>
    cases hs with
    | base h => cases h <;> rfl
    | chain => rfl
  | time => cases hs <;> rfl
  | uuid => cases hs <;> rfl

theorem scalar_conv {Γ : Env} {t : TExpr} {b : Scalar} (hs : ScalarType Γ t b) {K : Nat} {x y : GoVal} :
    (convT (Γ.methods K) t x = .ok y → y = b.conv x) ∧ convT (Γ.methods 2) t x = .ok (b.conv x) := by
  cases b with
  | prim p => exact ⟨fun h => convT_primName hs h, convT_primName_ok hs x⟩
  | time =>
    exact ⟨fun h => convT_is hs (by simp) (by simp) (by simp) h,
      convT_lift (show 1 ≤ 2 by omega) (convT_is_ok hs (by simp) (by simp) (by simp) x)⟩
  | uuid =>
    exact ⟨fun h => convT_is hs (by simp) (by simp) (by simp) h,
      convT_lift (show 1 ≤ 2 by omega) (convT_is_ok hs (by simp) (by simp) (by simp) x)⟩

theorem scalar_fills {Γ : Env} {n : Nat} {t : TExpr} {b : Scalar} (hd : Γ.decl n = some (.alias t)) (hdec : HasDecoder Γ n)
    (hs : ScalarType Γ t b) {v : JV} {old new : GoVal} {e : Option Err} : Fills Γ n v old e new ↔ b.Reads v old e new := by
  obtain ⟨hst, k, x, fl, hg, hp⟩ := transit_code hd hdec (scalarType_notColl hs)
  have hx : b.extr = .ok x := scalar_plan hp (by rw [prepare_self Γ hst]; exact hs) rfl rfl
  rw [fills_iff_ir hd hg]
  constructor
  · rintro ⟨K, h⟩
    obtain ⟨hM, tv, htv, hc⟩ := scalar_run hx (Γ.methods K) v old
    simp only [runFill, hM, htv, Out.ok_bind] at h
    refine ⟨x, hx, tv, htv, ?_⟩
    rcases hc with ⟨e0, rfl | rfl⟩ | ⟨val, rfl⟩
    · simp only [Out.pure_eq, Out.ok.injEq, Prod.mk.injEq] at h
      exact Or.inl ⟨e0, Or.inl rfl, h.1.symm, h.2.symm⟩
    · simp only [Out.pure_eq, Out.ok.injEq, Prod.mk.injEq] at h
      exact Or.inl ⟨e0, Or.inr rfl, h.1.symm, h.2.symm⟩
    · obtain ⟨w, h1, h2⟩ := Out.bind_eq_ok.1 h
      simp only [Out.pure_eq, Out.ok.injEq, Prod.mk.injEq] at h2
      obtain ⟨rfl, rfl⟩ := h2
      exact Or.inr ⟨val, rfl, rfl, (scalar_conv hs).1 h1⟩
  · rintro ⟨x', hx', tv, htv, h⟩
    rw [hx] at hx'; cases hx'
    refine ⟨2, ?_⟩
    simp only [runFill, (scalar_run hx (Γ.methods 2) v old).1, htv, Out.ok_bind]
    rcases h with ⟨e0, rfl | rfl, rfl, rfl⟩ | ⟨val, rfl, rfl, rfl⟩
    · rfl
    · rfl
    · simp only [(scalar_conv (K := 0) (y := .nil) hs).2, Out.ok_bind, Out.pure_eq]

theorem scalar_conv_reads {b : Scalar} (hf : b = .prim .float32 → RoundsOnce) {v : JV} {old new : GoVal}
    (h : b.Reads v old none new) : b.conv new = new := by
  obtain ⟨x, hx, tv, htv, h⟩ := h
  rcases h with ⟨e0, _, he, _⟩ | ⟨val, rfl, _, rfl⟩
  · cases he
  · cases b with
    | time => rfl
    | uuid => rfl
    | prim p =>
      show p.conv (p.conv val) = p.conv val
      by_cases hp : p = .float32
      · subst hp
        have := hf rfl
        cases val <;> simp [Prim.conv, Prim.wrap]
        exact this _
      · cases val with
        | int i =>
          cases hi : p.isInt with
          | true =>
            have h1 : ∀ j, p.conv (.int j) = .int (p.wrap j) := by intro j; cases p <;> rfl
            rw [h1, h1, wrap_idem hi]
          | false => cases p <;> simp [Prim.isInt] at hi <;> simp [Prim.conv, Prim.wrap]
        | float f => cases p <;> first | rfl | exact absurd rfl hp
        | _ => cases p <;> rfl

/-- every type of the chain has a decoder, and the chain ends in the scalar type -/
inductive ScalarChain (Γ : Env) : Nat → Scalar → Prop
  | base {n : Nat} {t : TExpr} {b : Scalar} (hd : Γ.decl n = some (.alias t)) (hs : ScalarType Γ t b) : ScalarChain Γ n b
  | step {n m : Nat} {t : TExpr} {b : Scalar} (hd : Γ.decl n = some (.alias t)) (hn : NameOf t m) (hdm : HasDecoder Γ m)
      (rest : ScalarChain Γ m b) : ScalarChain Γ n b

theorem scalarChain_unique {Γ : Env} {m : Nat} {b b' : Scalar} (h : ScalarChain Γ m b) {t : TExpr} (ht : NameOf t m)
    (h' : ScalarType Γ t b') : b = b' := by
  have direct : ∀ {m : Nat} {b b' : Scalar} {u : TExpr}, ScalarChain Γ m b → Γ.decl m = some (.alias u) → ScalarType Γ u b' →
      (∀ k, ¬ NameOf u k) → b = b' := by
    intro m b b' u h hd hs hno
    cases h with
    | base hd' hs' => rw [hd] at hd'; cases hd'; exact scalarType_unique hs' hs
    | step hd' hn => rw [hd] at hd'; cases hd'; exact absurd hn (hno _)
  have isPrim : ∀ {m : Nat} {b : Scalar} {u : TExpr} {p : Prim}, ScalarChain Γ m b → Γ.decl m = some (.alias u) → IsPrim Γ u p → b = .prim p := by
    intro m b u p h hd hs
    cases h with
    | base hd' hs' => rw [hd] at hd'; cases hd'; exact scalarType_unique (b' := .prim p) hs' (.base hs)
    | step hd' hn _ rest =>
      rw [hd] at hd'; cases hd'
      cases hn with
      | named => cases hs with | named hs => exact direct (b' := .prim p) rest hs (.base (.self p)) (by intro k hk; cases hk)
      | sel => cases hs with | sel hs => exact direct (b' := .prim p) rest hs (.base (.self p)) (by intro k hk; cases hk)
  cases b' with
  | prim p =>
    cases h' with
    | base h' =>
      cases ht with
      | named => cases h' with | named h' => exact isPrim h h' (.self p)
      | sel => cases h' with | sel h' => exact isPrim h h' (.self p)
    | chain hd h' => cases ht; exact isPrim h hd h'
  | time =>
    cases ht with
    | named => cases h' with | named h' => exact direct (b' := .time) h h' (.self _) (by intro k hk; cases hk)
    | sel => cases h'
  | uuid =>
    cases ht with
    | named => cases h' with | named h' => exact direct (b' := .uuid) h h' (.self _) (by intro k hk; cases hk)
    | sel => cases h'

theorem scalarChain_conv {Γ : Env} {m : Nat} {b : Scalar} (h : ScalarChain Γ m b) {x y : GoVal} : ConvIs Γ m x y ↔ y = b.conv x := by
  induction h with
  | @base n t b hd hs =>
    constructor
    · rintro ⟨K, h⟩
      cases K with
      | zero => simp [Env.methods, Methods.loop] at h
      | succ K => simp only [Env.methods, hd, declMethods] at h; exact (scalar_conv hs).1 h
    · rintro rfl
      exact ⟨3, by simp only [Env.methods, hd, declMethods]; exact (scalar_conv (K := 0) (y := .nil) hs).2⟩
  | step hd hn _ _ ih => exact (conv_alias ⟨_, hd, hn⟩).trans ih

theorem scalarChain_zero {Γ : Env} {m : Nat} {b : Scalar} (h : ScalarChain Γ m b) : ∃ z, ZeroIs Γ m z := by
  induction h with
  | @base n t b hd hs =>
    have key : ∃ z, zeroT (Γ.methods 2) t = .ok z := by
      cases b with
      | prim p =>
        cases hs with
        | base h =>
          cases h with
          | self => exact ⟨_, rfl⟩
          | named h => exact ⟨_, (by simp only [zeroT, Env.methods, h, declMethods]; rfl)⟩
          | sel h => exact ⟨_, (by simp only [zeroT, Env.methods, h, declMethods]; rfl)⟩
        | chain hd' h =>
          cases h with
          | self => exact ⟨_, (by simp only [zeroT, Env.methods, hd', declMethods]; rfl)⟩
          | named h => exact ⟨_, (by simp only [zeroT, Env.methods, hd', h, declMethods]; rfl)⟩
          | sel h => exact ⟨_, (by simp only [zeroT, Env.methods, hd', h, declMethods]; rfl)⟩
      | time =>
        cases hs with
        | self => exact ⟨_, rfl⟩
        | named h => exact ⟨_, (by simp only [zeroT, Env.methods, h, declMethods]; rfl)⟩
      | uuid =>
        cases hs with
        | self => exact ⟨_, rfl⟩
        | named h => exact ⟨_, (by simp only [zeroT, Env.methods, h, declMethods]; rfl)⟩
    obtain ⟨z, hz⟩ := key
    exact ⟨z, 3, by simp only [Env.methods, hd, declMethods]; exact hz⟩
  | step hd hn _ _ ih =>
    obtain ⟨z, hz⟩ := ih
    exact ⟨z, (zero_alias ⟨_, hd, hn⟩).2 hz⟩

theorem scalarChain_named {Γ : Env} {m : Nat} {b : Scalar} (h : ScalarChain Γ m b) {t : TExpr} (ht : NameOf t m)
    (hno : ∀ b', ¬ ScalarType Γ t b') : Calls Γ t m ∨ (t = .sel m) := by
  cases ht with
  | sel => exact Or.inr rfl
  | named =>
    left
    cases h with
    | @base _ u b hd hs =>
      cases b with
      | prim p =>
        cases hs with
        | base hs => exact absurd (.chain hd hs) (hno (.prim p))
        | @chain k w p hk hs =>
          exact .name hd (.named k) fun q hq => by
            cases hq with
            | named hq => exact hno (.prim q) (.chain hd (.named hq))
      | time =>
        cases hs with
        | self => exact absurd (.named hd) (hno .time)
        | @named k _ hk => exact .name hd (.named k) fun q hq => by cases hq with | named hq => rw [hk] at hq; cases hq
      | uuid =>
        cases hs with
        | self => exact absurd (.named hd) (hno .uuid)
        | @named k _ hk => exact .name hd (.named k) fun q hq => by cases hq with | named hq => rw [hk] at hq; cases hq
    | step hd hn _ _ => exact .name hd hn fun q hq => hno (.prim q) (.chain hd hq)

theorem scalarChain_calls {Γ : Env} {m : Nat} {b : Scalar} (h : ScalarChain Γ m b) {t : TExpr} (ht : NameOf t m)
    (hno : ∀ b', ¬ ScalarType Γ t b') : Calls Γ t m := by
  rcases scalarChain_named h ht hno with h | rfl
  · exact h
  · cases ht; exact .sel fun p hp => hno (.prim p) (.base hp)

theorem scalarChain_fills {Γ : Env} {n : Nat} {b : Scalar} (h : ScalarChain Γ n b) (hdec : HasDecoder Γ n)
    (hfl : b = .prim .float32 → RoundsOnce) {v : JV} {old new : GoVal} {e : Option Err} :
    Fills Γ n v old e new ↔ b.Reads v old e new := by
  induction h generalizing old new e with
  | base hd hs => exact scalar_fills hd hdec hs
  | @step n m t b hd hn hdm rest ih =>
    by_cases hs : ∃ b', ScalarType Γ t b'
    · obtain ⟨b', hs⟩ := hs
      cases scalarChain_unique rest hn hs
      exact scalar_fills hd hdec hs
    · have hc := scalarChain_calls rest hn fun b' hb => hs ⟨b', hb⟩
      rw [calls_fills hd hdec hc]
      simp only [scalarChain_conv rest, ih hdm hfl]
      have indep : ∀ {z s : GoVal}, (∀ w, b.Reads v z none w → b.Reads v s none w) ∧
          (∀ e0 w, b.Reads v z (some e0) w → b.Reads v s (some e0) s) := by
        intro z s
        have two : ∀ {x : Extr}, b.extr = .ok x → ∀ {tv}, runExtr (fun _ => Methods.loop) x 0 v z = .ok tv →
            (∀ e0, tv = .ret e0 z → runExtr (fun _ => Methods.loop) x 0 v s = .ok (.ret e0 s)) ∧
            (∀ r, tv = .done r z → runExtr (fun _ => Methods.loop) x 0 v s = .ok (.done r s)) := by
          intro x hx tv h
          cases b with
          | prim p =>
            cases p <;> simp only [Scalar.extr, primExtraction, Out.ok.injEq, Bool.false_eq_true, if_false, reduceCtorEq] at hx <;> subst hx
            all_goals
              simp only [runExtr] at h ⊢
              first
              | (cases h; refine ⟨?_, ?_⟩ <;> intro r hr <;> cases hr <;> rfl)
              | (cases hg : v.getStr <;> rw [hg] at h <;> cases h <;> refine ⟨?_, ?_⟩ <;> intro r hr <;> cases hr <;> rfl)
          | time =>
            simp only [Scalar.extr, Out.ok.injEq] at hx; subst hx
            simp only [runExtr] at h ⊢
            cases hg : v.getStr <;> rw [hg] at h <;> cases h <;> refine ⟨?_, ?_⟩ <;> intro r hr <;> cases hr <;> rfl
          | uuid =>
            simp only [Scalar.extr, Out.ok.injEq] at hx; subst hx
            simp only [runExtr] at h ⊢
            cases hg : v.getStr <;> rw [hg] at h <;> cases h <;> refine ⟨?_, ?_⟩ <;> intro r hr <;> cases hr <;> rfl
        constructor
        · rintro w ⟨x, hx, tv, htv, h⟩
          rcases h with ⟨_, _, he, _⟩ | ⟨val, rfl, _, rfl⟩
          · cases he
          · exact ⟨x, hx, _, (two hx htv).2 _ rfl, Or.inr ⟨val, rfl, rfl, rfl⟩⟩
        · rintro e0 w ⟨x, hx, tv, htv, h⟩
          rcases h with ⟨e1, rfl | rfl, he, rfl⟩ | ⟨_, _, he, _⟩
          · cases he
            exact ⟨x, hx, _, (two hx htv).1 _ rfl, Or.inl ⟨_, Or.inl rfl, rfl, rfl⟩⟩
          · cases he
            exact ⟨x, hx, _, (two hx htv).2 _ rfl, Or.inl ⟨_, Or.inr rfl, rfl, rfl⟩⟩
          · cases he
      obtain ⟨z, hz⟩ := scalarChain_zero rest
      constructor
      · rintro ⟨z', x, _, hx, h⟩
        rcases h with ⟨rfl, rfl⟩ | ⟨he, rfl⟩
        · rw [scalar_conv_reads hfl hx]; exact indep.1 _ hx
        · cases e with
          | none => exact absurd rfl he
          | some e => exact indep.2 _ _ hx
      · intro h
        cases e with
        | none =>
          exact ⟨z, new, hz, indep.1 _ h, Or.inl ⟨rfl, (scalar_conv_reads hfl h).symm⟩⟩
        | some e =>
          have : new = old := by
            obtain ⟨_, _, _, _, h⟩ := h
            rcases h with ⟨_, _, _, h⟩ | ⟨_, _, he, _⟩
            · exact h
            · cases he
          exact ⟨z, z, hz, indep.2 _ _ h, Or.inr ⟨by simp, this⟩⟩

theorem scalarChain_of {Γ : Env} {n k : Nat} (h : DefinedFrom Γ (HasDecoder Γ) n k) {b : Scalar} (hk : ScalarChain Γ k b)
    (hdec : HasDecoder Γ k) : ScalarChain Γ n b ∧ HasDecoder Γ n := by
  induction h with
  | one hp h =>
    obtain ⟨t, hd, hn⟩ := h
    exact ⟨.step hd hn hdec hk, hp⟩
  | more hp h rest ih =>
    obtain ⟨t, hd, hn⟩ := h
    exact ⟨.step hd hn (ih hk hdec).2 (ih hk hdec).1, hp⟩

/-- **C19, decoding a type defined from a predeclared type, a time or a UUID.**  Through any chain
of declarations such a type accepts the documents of the type at the end of the chain, returns the
same errors, and leaves the same value. -/
theorem C19_decode_scalar {Γ : Env} {n k : Nat} (h : DefinedFrom Γ (HasDecoder Γ) n k) (hk : ScalarDecl Γ k) (hdec : HasDecoder Γ k)
    (hround : Γ.decl k = some (.alias (.prim .float32)) → RoundsOnce) {v : JV} {old new : GoVal} {e : Option Err} :
    Fills Γ n v old e new ↔ Fills Γ k v old e new := by
  have key : ∀ b : Scalar, ScalarChain Γ k b → (b = .prim .float32 → RoundsOnce) → (Fills Γ n v old e new ↔ Fills Γ k v old e new) := by
    intro b hb hfl
    have hn := scalarChain_of h hb hdec
    rw [scalarChain_fills hn.1 hn.2 hfl, scalarChain_fills hb hdec hfl]
  rcases hk with ⟨p, hk⟩ | hk | hk
  · refine key (.prim p) (.base hk (.base (.self p))) ?_
    intro hb; cases hb; exact hround hk
  · exact key .time (.base hk (.self _)) (by intro h; cases h)
  · exact key .uuid (.base hk (.self _)) (by intro h; cases h)

theorem unmarshals_of_fills {Γ : Env} {n k : Nat} {data : Str} {s : GoVal}
    (h : ∀ v e s', Fills Γ n v s e s' ↔ Fills Γ k v s e s') {e : Option Err} {s' : GoVal} :
    Unmarshals Γ n data s e s' ↔ Unmarshals Γ k data s e s' := by
  simp only [Unmarshals, unmarshalJSON]
  cases parseBytes data with
  | none => exact ⟨fun ⟨k, h⟩ => ⟨k, h⟩, fun ⟨k, h⟩ => ⟨k, h⟩⟩
  | some v => exact h v e s'

/-- **C19, decoding a type defined from a predeclared type, a time or a UUID**, for `UnmarshalJSON`
on any text. -/
theorem C19_decode_scalar_text {Γ : Env} {n k : Nat} (h : DefinedFrom Γ (HasDecoder Γ) n k) (hk : ScalarDecl Γ k) (hdec : HasDecoder Γ k)
    (hround : Γ.decl k = some (.alias (.prim .float32)) → RoundsOnce) {data : Str} {old new : GoVal} {e : Option Err} :
    Unmarshals Γ n data old e new ↔ Unmarshals Γ k data old e new :=
  unmarshals_of_fills fun _ _ _ => C19_decode_scalar h hk hdec hround

/-! ## Types declared as a named list -/

theorem named_noCalls {Γ : Env} {m : Nat} {u : TExpr} (hm : Γ.decl m = some (.alias u)) (h : ∀ k, ¬ NameOf u k) (hu : u ≠ .structT)
    (j : Nat) : ¬ Calls Γ (.named m) j := by
  intro hc
  cases hc with
  | struct h' => rw [hm] at h'; cases h'
  | structLit h' => rw [hm] at h'; cases h'; exact hu rfl
  | foreign h' => rw [hm] at h'; cases h'
  | name h' hn => rw [hm] at h'; cases h'; exact h _ hn

theorem primName_zero {Γ : Env} {t : TExpr} {p : Prim} (h : PrimName Γ t p) : ∃ z, ZeroOf Γ t z := by
  have key : ∃ z, zeroT (Γ.methods 2) t = .ok z := by
    cases h with
    | base h =>
      cases h with
      | self => exact ⟨_, rfl⟩
      | named h => exact ⟨_, (by simp only [zeroT, Env.methods, h, declMethods]; rfl)⟩
      | sel h => exact ⟨_, (by simp only [zeroT, Env.methods, h, declMethods]; rfl)⟩
    | chain hd' h =>
      cases h with
      | self => exact ⟨_, (by simp only [zeroT, Env.methods, hd', declMethods]; rfl)⟩
      | named h => exact ⟨_, (by simp only [zeroT, Env.methods, hd', h, declMethods]; rfl)⟩
      | sel h => exact ⟨_, (by simp only [zeroT, Env.methods, hd', h, declMethods]; rfl)⟩
  exact ⟨key.choose, 2, key.choose_spec⟩

theorem primName_decodes {Γ : Env} {t : TExpr} {p : Prim} (h : PrimName Γ t p) {a : JV} {c w : GoVal} (hd : Decodes Γ [] t a c w) :
    DecodesNew Γ [] t a w := by
  have hk := primName_final h
  refine .other (primName_noCalls h) fun old => .prim h ?_
  cases hd with
  | prim h' hd => rw [primName_unique h h']; exact hd
  | time h' _ => exact (primName_is h h' (by simp) (by simp) (by simp)).elim
  | uuid h' _ => exact (primName_is h h' (by simp) (by simp) (by simp)).elim
  | call hc _ => exact absurd hc (primName_noCalls h _)
  | bytes h' _ => exact (primName_is h h' (by simp) (by simp) (by simp)).elim
  | bytesNull h' => exact (primName_is h h' (by simp) (by simp) (by simp)).elim
  | fixedBytes h' _ _ => exact (primName_is h h' (by simp) (by simp) (by simp)).elim
  | fixedBytesNull h' => exact (primName_is h h' (by simp) (by simp) (by simp)).elim
  | slice h' => exact (primName_is h h' (by simp) (by simp) (by simp)).elim
  | array h' => exact (primName_is h h' (by simp) (by simp) (by simp)).elim
  | map h' => exact (primName_is h h' (by simp) (by simp) (by simp)).elim
  | ptr _ => cases h with | base h => cases h
  | namedPtr hn _ =>
    cases h with
    | base h => cases h with | named h => rw [hn] at h; cases h
    | chain hd h => rw [hn] at hd; cases hd; cases h

theorem primName_new {Γ : Env} {t : TExpr} {p : Prim} (h : PrimName Γ t p) {a : JV} {w : GoVal} (hd : DecodesNew Γ [] t a w) (c : GoVal) :
    Decodes Γ [] t a c w := by
  cases hd with
  | call hc => exact absurd hc (primName_noCalls h _)
  | other _ hd => exact hd c

theorem primName_plain {Γ : Env} {t : TExpr} {p : Prim} (h : PrimName Γ t p) : t.nullLike = false ∧ pointee t = t := by
  cases h with
  | base h => cases h <;> exact ⟨rfl, rfl⟩
  | chain => exact ⟨rfl, rfl⟩

theorem primName_keepsAll {Γ : Env} {t : TExpr} {p : Prim} (h : PrimName Γ t p) : KeepsErrors Γ t ∧ ¬ LosesErrors Γ t := by
  constructor
  · refine keepsErrors_leaf fun elt he => ?_
    rcases he with h' | ⟨_, h'⟩ | h' <;> exact primName_is h h' (by simp) (by simp) (by simp)
  · rintro (h' | h' | ⟨_, h'⟩) <;> rw [(primName_plain h).2] at h' <;> exact primName_is h h' (by simp) (by simp) (by simp)

/-- **C19, partial: `type A B` with `type B []T`**, `T` a predeclared type or a name for one.  Every
array that `B` accepts is accepted by `A`, and the other way round, and the elements are the same;
the spare capacity of `A` may keep old elements.  Documents that are not arrays, and errors, differ
(`Examples.C19_slice_null`, `Examples.C19_slice_error`). -/
theorem C19_decode_slice_partial {Γ : Env} {n m : Nat} {elt : TExpr} {p : Prim} (hn : Γ.decl n = some (.alias (.named m)))
    (hm : Γ.decl m = some (.alias (.slice elt))) (hdn : HasDecoder Γ n) (hdm : HasDecoder Γ m) (hp : PrimName Γ elt p)
    (hb : elt ≠ .prim .byte) {l : List JV} {old old' : GoVal} (hold : old = .nil ∨ ∃ es sp, old = .slice es sp) {es : List GoVal} :
    (∃ spare, Fills Γ n (.arr l) old none (.slice es spare)) ↔ Fills Γ m (.arr l) old' none (.slice es []) := by
  have hnc := named_noCalls hm (by intro k h; cases h) (by simp)
  have hke : KeepsErrors Γ (.named m) :=
    keepsErrors_elems (Or.inl (.named hm)) (primName_keepsAll hp).2 (by rw [(primName_plain hp).2]; exact (primName_keepsAll hp).1)
  have his : Is Γ (.named m) (.slice elt) := .named hm
  constructor
  · rintro ⟨spare, h⟩
    have hr := (transit_iff hn hdn rfl).1 h hke
    cases hr with
    | fresh hc => exact absurd hc (hnc _)
    | other _ _ hd =>
      obtain ⟨l', z, cells, news, hl, hs, hz, hst, hlen, _, he⟩ := decodes_slice_inv hb his hd
      cases hl
      cases hs
      refine (named_iff hm hdm (old := old') trivial).2 (.slice hb hlen fun i a w ha hw => ?_) fun _ _ => ?_
      · have hi : i < cells.length := by
          have h1 : i < l.length := (List.getElem?_eq_some_iff.1 ha).1
          cases hst with
          | fromNil => simpa using h1
          | grow _ => simpa using h1
          | reuse h => simp; omega
        exact primName_decodes hp (he i a cells[i] w ha (List.getElem?_eq_getElem hi) hw (by simp [(primName_plain hp).1]))
      · rename_i h; cases h; exact primName_zero hp
  · intro h
    obtain ⟨z, hz⟩ := primName_zero hp
    have hr := (named_iff hm hdm (old := old') trivial).1 h (by show KeepsErrors Γ (pointee elt); rw [(primName_plain hp).2]; exact (primName_keepsAll hp).1)
    have helem : es.length = l.length ∧ ∀ (i : Nat) (a : JV) (w : GoVal), l[i]? = some a → es[i]? = some w → DecodesNew Γ [] elt a w := by
      cases hr with
      | slice _ hlen he => exact ⟨hlen, he⟩
      | fresh hc => exact absurd hc (isCollection_calls rfl _)
      | other h => cases h
    have hcells : ∃ cells, Storage old l.length z cells := by
      rcases hold with rfl | ⟨es, sp, rfl⟩
      · exact ⟨_, .fromNil⟩
      · by_cases hle : l.length ≤ es.length + sp.length
        · exact ⟨_, .reuse hle⟩
        · exact ⟨_, .grow (by omega)⟩
    obtain ⟨cells, hc⟩ := hcells
    refine ⟨cells.drop l.length, (transit_iff hn hdn rfl).2 (.other rfl hnc ?_)⟩
    exact .slice his hb hz hc helem.1 (fun i w h => by rw [(primName_plain hp).1] at h; cases h)
      fun i a c w ha _ hw _ => primName_new hp (helem.2 i a w ha hw) c

/-- **C19, partial: `type A B` with `type B [N]T`**, `T` a predeclared type or a name for one.  `A`
and `B` accept the same arrays, with the same result. -/
theorem C19_decode_array_partial {Γ : Env} {n m len : Nat} {elt : TExpr} {p : Prim} (hn : Γ.decl n = some (.alias (.named m)))
    (hm : Γ.decl m = some (.alias (.array len elt))) (hdn : HasDecoder Γ n) (hdm : HasDecoder Γ m) (hp : PrimName Γ elt p)
    (hb : elt ≠ .prim .byte) {l : List JV} {os : List GoVal} (hold : os.length = len) {new : GoVal} :
    Fills Γ n (.arr l) (.arr os) none new ↔ Fills Γ m (.arr l) (.arr os) none new := by
  have hnc := named_noCalls hm (by intro k h; cases h) (by simp)
  have hke : KeepsErrors Γ (.named m) :=
    keepsErrors_elems (Or.inr (Or.inl ⟨_, .named hm⟩)) (primName_keepsAll hp).2 (by rw [(primName_plain hp).2]; exact (primName_keepsAll hp).1)
  have his : Is Γ (.named m) (.array len elt) := .named hm
  rw [C14_named_array_iff hm hdm hb (by rw [(primName_plain hp).2]; exact (primName_keepsAll hp).1) hold]
  constructor
  · intro h
    have hr := (transit_iff hn hdn rfl).1 h hke
    cases hr with
    | fresh hc => exact absurd hc (hnc _)
    | other _ _ hd =>
      obtain ⟨l', z, news, hl, hs, hz, h1, h2, he⟩ := decodes_array_inv hb his hd
      cases hl
      exact ⟨h1, news, hs, h2, fun i a w ha hw => primName_decodes hp (he i a w ha hw)⟩
  · rintro ⟨h1, news, rfl, h2, he⟩
    obtain ⟨z, hz⟩ := primName_zero hp
    exact (transit_iff hn hdn rfl).2 (.other rfl hnc (.array his hb hz h1 h2 fun i a w ha hw => primName_new hp (he i a w ha hw) z))

end

namespace Examples
open Sample
attribute [local instance] Sample.ext

/-- type Hot Warm, type Warm Temp, type Temp int8 -/
theorem hot_chain : DefinedFrom Γ (HasDecoder Γ) 60 20 :=
  .more ⟨_, 3, _, rfl, rfl⟩ ⟨_, rfl, .named 21⟩ (.one ⟨_, 3, _, rfl, rfl⟩ ⟨_, rfl, .named 20⟩)

set_option maxRecDepth 200000 in
/-- `C19_decode_scalar`: a chain of three declarations, and an error -/
example : Fills Γ 60 (.num (str "7")) (.int 1) none (.int 7) ∧
    Fills Γ 60 (.bool true) (.int 1) (some (.plain (.wrongType .number .boolean))) (.int 1) :=
  have h {v old e new} := C19_decode_scalar (v := v) (old := old) (e := e) (new := new) hot_chain (Or.inl ⟨_, rfl⟩) ⟨_, 3, _, rfl, rfl⟩ (by intro h; cases h)
  ⟨h.2 ⟨5, rfl⟩, h.2 ⟨5, rfl⟩⟩

/-- … a time and a UUID -/
example : DefinedFrom Γ (HasDecoder Γ) 63 39 ∧ ScalarDecl Γ 39 ∧ HasDecoder Γ 39 ∧ ScalarDecl Γ 37 ∧ HasDecoder Γ 37 :=
  ⟨.one ⟨_, 3, _, rfl, rfl⟩ ⟨_, rfl, .named 39⟩, Or.inr (Or.inl rfl), ⟨_, 3, _, rfl, rfl⟩, Or.inr (Or.inr rfl), ⟨_, 3, _, rfl, rfl⟩⟩

set_option maxRecDepth 200000 in
/-- `C19_decode_scalar_text` -/
example : Unmarshals Γ 60 (str " 7") (.int 1) none (.int 7) := by
  have hp : parseBytes (str " 7") = some (.num (str "7")) := by rfl
  refine (C19_decode_scalar_text hot_chain (Or.inl ⟨_, rfl⟩) ⟨_, 3, _, rfl, rfl⟩ (by intro h; cases h)).2 ⟨5, ?_⟩
  simp only [unmarshalJSON, hp]
  rfl

/-- type Anew Again, type Again Base -/
theorem anew_chain : DefinedFrom Γ (HasDecoder Γ) 62 2 :=
  .more ⟨_, 3, _, rfl, rfl⟩ ⟨_, rfl, .named 33⟩ (.one ⟨_, 3, _, rfl, rfl⟩ ⟨_, rfl, .named 2⟩)

set_option maxRecDepth 200000 in
/-- `C19_decode_struct`: the document says nothing about the field, so it becomes zero -/
theorem anew_fills : Fills Γ 62 (.obj []) (.struct [.int 5]) none (.struct [.int 0]) :=
  (C19_decode_struct anew_chain ⟨_, _, rfl⟩).2 ⟨.struct [.int 0], .struct [.int 0], ⟨3, rfl⟩, ⟨5, rfl⟩, Or.inl ⟨rfl, rfl⟩⟩

set_option maxRecDepth 200000 in
/-- `C19_encode` and `C19_encode_json` -/
example : MarshalsTo Γ 60 (some (.int 7)) W.empty none (W.empty.raw (str "7")) ∧
    Marshals Γ 62 (some (.struct [.int 5])) (.ok (str "{\"rev\":5}")) :=
  ⟨(C19_encode hot_chain).2 ⟨5, rfl⟩, (C19_encode_json anew_chain).2 ⟨5, rfl⟩⟩

set_option maxRecDepth 200000 in
/-- **Finding, contradicts C19.**  A type defined from a struct forgets what the receiver held; the
struct itself keeps the fields the document does not mention. -/
theorem C19_struct_forgets : ∃ (v : JV) (old new : GoVal), DeclaredAs Γ 33 2 ∧ Fills Γ 2 v old none old ∧
    Fills Γ 33 v old none new ∧ new ≠ old :=
  ⟨.obj [], .struct [.int 5], .struct [.int 0], ⟨_, rfl, .named 2⟩, ⟨5, rfl⟩, ⟨5, rfl⟩, by simp⟩

set_option maxRecDepth 200000 in
/-- **Finding, contradicts C19.**  `type B []int16` accepts `null`; `type A B` refuses it. -/
theorem C19_slice_null : ∃ e, DeclaredAs Γ 61 24 ∧ Fills Γ 24 .null (.slice [.int 5] []) none (.slice [.int 5] []) ∧
    Fills Γ 61 .null (.slice [.int 5] []) (some e) (.slice [.int 5] []) :=
  ⟨_, ⟨_, rfl, .named 24⟩, ⟨5, rfl⟩, ⟨5, rfl⟩⟩

set_option maxRecDepth 200000 in
/-- **Finding, contradicts C19.**  For a document that is not an array, `type A B` reports an error
with an empty path, `type B []int16` one without path; after a bad element, only `B` is changed. -/
theorem C19_slice_error : DeclaredAs Γ 61 24 ∧
    Fills Γ 24 (.bool true) (.slice [.int 5] []) (some ⟨none, .wrongType .array .boolean⟩) (.slice [.int 5] []) ∧
    Fills Γ 61 (.bool true) (.slice [.int 5] []) (some ⟨some [], .wrongType .array .boolean⟩) (.slice [.int 5] []) ∧
    Fills Γ 24 (.arr [.num (str "1"), .bool true]) (.slice [.int 5] []) (some ⟨some (str "1"), .wrongType .number .boolean⟩) (.slice [.int 1, .int 0] []) ∧
    Fills Γ 61 (.arr [.num (str "1"), .bool true]) (.slice [.int 5] []) (some ⟨some (str "1"), .wrongType .number .boolean⟩) (.slice [.int 5] []) :=
  ⟨⟨_, rfl, .named 24⟩, ⟨5, rfl⟩, ⟨5, rfl⟩, ⟨5, rfl⟩, ⟨5, rfl⟩⟩

set_option maxRecDepth 200000 in
/-- **Finding, contradicts C19.**  `null` leaves a `type B []byte` alone and makes a `type A B` nil;
`null` leaves a `type B [2]int16` alone and is an error for `type A B`. -/
theorem C19_bytes_null : ∃ e, DeclaredAs Γ 64 4 ∧ Fills Γ 4 .null (.bytes [5]) none (.bytes [5]) ∧ Fills Γ 64 .null (.bytes [5]) none .nil ∧
    DeclaredAs Γ 65 25 ∧ Fills Γ 25 .null (.arr [.int 5, .int 6]) none (.arr [.int 5, .int 6]) ∧
    Fills Γ 65 .null (.arr [.int 5, .int 6]) (some e) (.arr [.int 5, .int 6]) :=
  ⟨_, ⟨_, rfl, .named 4⟩, ⟨5, rfl⟩, ⟨5, rfl⟩, ⟨_, rfl, .named 25⟩, ⟨5, rfl⟩, ⟨5, rfl⟩⟩

set_option maxRecDepth 200000 in
/-- **Finding, contradicts C19.**  With struct elements, `type B []Base` makes new elements and
`type A B` decodes into the old ones. -/
theorem C19_slice_stale : DeclaredAs Γ 68 67 ∧
    Fills Γ 67 (.arr [.obj []]) (.slice [.struct [.int 5]] []) none (.slice [.struct [.int 0]] []) ∧
    Fills Γ 68 (.arr [.obj []]) (.slice [.struct [.int 5]] []) none (.slice [.struct [.int 5]] []) :=
  ⟨⟨_, rfl, .named 67⟩, ⟨5, rfl⟩, ⟨5, rfl⟩⟩

/-- the hypotheses of `C19_decode_slice_partial` and `C19_decode_array_partial` -/
example : Γ.decl 61 = some (.alias (.named 24)) ∧ Γ.decl 24 = some (.alias (.slice (.prim .int16))) ∧ HasDecoder Γ 61 ∧ HasDecoder Γ 24 ∧
    Γ.decl 65 = some (.alias (.named 25)) ∧ Γ.decl 25 = some (.alias (.array 2 (.prim .int16))) ∧ HasDecoder Γ 65 ∧ HasDecoder Γ 25 :=
  ⟨rfl, rfl, ⟨_, 4, _, rfl, rfl⟩, ⟨_, 4, _, rfl, rfl⟩, rfl, rfl, ⟨_, 4, _, rfl, rfl⟩, ⟨_, 4, _, rfl, rfl⟩⟩
set_option maxRecDepth 200000 in
example : ∃ spare, Fills Γ 61 (.arr [.num (str "1")]) (.slice [.int 5, .int 6] []) none (.slice [.int 1] spare) :=
  (C19_decode_slice_partial (elt := .prim .int16) rfl rfl ⟨_, 4, _, rfl, rfl⟩ ⟨_, 4, _, rfl, rfl⟩ (.base (.self _)) (by simp)
    (old' := .nil) (Or.inr ⟨_, _, rfl⟩)).2 ⟨5, rfl⟩
set_option maxRecDepth 200000 in
example : Fills Γ 65 (.arr [.num (str "1"), .num (str "2")]) (.arr [.int 5, .int 6]) none (.arr [.int 1, .int 2]) :=
  (C19_decode_array_partial (len := 2) (elt := .prim .int16) rfl rfl ⟨_, 4, _, rfl, rfl⟩ ⟨_, 4, _, rfl, rfl⟩ (.base (.self _)) (by simp) rfl).2 ⟨5, rfl⟩

end Examples

end VJ
