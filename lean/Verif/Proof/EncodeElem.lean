import Verif.Proof.JsonBuild
import Verif.Proof.Frame
import Verif.Proof.Total

/-!
# Encoding of elements
-/

namespace VJ

variable {Γ : Env} {X : Nat → GoVal → Prop} {S : Nat → Prop} {F : Nat → Option GoVal → JV → Prop}

/-! ### parts of values -/

theorem Part.trans {T t u : TExpr} {V v w : GoVal} (h : Part Γ T V t v) (h' : Part Γ t v u w) : Part Γ T V u w := by
  induction h' with
  | self => exact h
  | ptr _ ih => exact .ptr ih
  | slice _ hv ih => exact .slice ih hv
  | array _ hv ih => exact .array ih hv
  | map _ hv ih => exact .map ih hv
  | alias _ he hd ih => exact .alias ih he hd
  | field _ he hd hf hg ih => exact .field ih he hd hf hg

theorem Part.is {T t u : TExpr} {V v : GoVal} (h : Part Γ T V t v) (hi : Is Γ t u) : Part Γ T V u v := by
  cases hi with
  | self => exact h
  | named hd => exact h.alias (.named _) hd

theorem Part.isPrim {T t : TExpr} {V v : GoVal} {p : Prim} (h : Part Γ T V t v) (hi : IsPrim Γ t p) : Part Γ T V (.prim p) v := by
  cases hi with
  | self => exact h
  | named hd => exact h.alias (.named _) hd
  | sel hd => exact h.alias (.sel _) hd

/-- the parts do not depend on how the type is named -/
theorem Part.rename {e e' t : TExpr} {n : Nat} {V v : GoVal} (h : NameOf e n) (h' : NameOf e' n) (hp : Part Γ e V t v) :
    (t = e ∧ v = V) ∨ Part Γ e' V t v := by
  induction hp with
  | self => exact .inl ⟨rfl, rfl⟩
  | ptr _ ih =>
    rcases ih with ⟨rfl, _⟩ | ih
    · cases h
    · exact .inr (.ptr ih)
  | slice _ hv ih =>
    rcases ih with ⟨rfl, _⟩ | ih
    · cases h
    · exact .inr (.slice ih hv)
  | array _ hv ih =>
    rcases ih with ⟨rfl, _⟩ | ih
    · cases h
    · exact .inr (.array ih hv)
  | map _ hv ih =>
    rcases ih with ⟨rfl, _⟩ | ih
    · cases h
    · exact .inr (.map ih hv)
  | alias _ he hd ih =>
    rcases ih with ⟨rfl, rfl⟩ | ih
    · cases he.inj h; exact .inr (.alias .self h' hd)
    · exact .inr (.alias ih he hd)
  | field _ he hd hf hg ih =>
    rcases ih with ⟨rfl, rfl⟩ | ih
    · cases he.inj h; exact .inr (.field .self h' hd hf hg)
    · exact .inr (.field ih he hd hf hg)

section
variable [Ext]

theorem Written.toPart {T t : TExpr} {V v : GoVal} (h : Written Γ T V t v) : Part Γ T V t v := by
  induction h with
  | self => exact .self
  | ptr _ ih => exact .ptr ih
  | slice _ hv ih => exact .slice ih hv
  | array _ hv ih => exact .array ih hv
  | map _ hv ih => exact .map ih hv
  | alias _ he hd ih => exact .alias ih he hd
  | field _ he hd hf hg _ ih => exact .field ih he hd hf hg

theorem Written.trans {T t u : TExpr} {V v w : GoVal} (h : Written Γ T V t v) (h' : Written Γ t v u w) : Written Γ T V u w := by
  induction h' with
  | self => exact h
  | ptr _ ih => exact .ptr ih
  | slice _ hv ih => exact .slice ih hv
  | array _ hv ih => exact .array ih hv
  | map _ hv ih => exact .map ih hv
  | alias _ he hd ih => exact .alias ih he hd
  | field _ he hd hf hg ho ih => exact .field ih he hd hf hg ho

/-- one step into a value -/
inductive WStep (Γ : Env) : TExpr → GoVal → TExpr → GoVal → Prop
  | ptr {t : TExpr} {v : GoVal} : WStep Γ (.star t) (.ptr v) t v
  | slice {t : TExpr} {v : GoVal} {es sp : List GoVal} (hv : v ∈ es) : WStep Γ (.slice t) (.slice es sp) t v
  | array {t : TExpr} {n : Nat} {v : GoVal} {es : List GoVal} (hv : v ∈ es) : WStep Γ (.array n t) (.arr es) t v
  | map {t : TExpr} {kv : Str × GoVal} {kvs : List (Str × GoVal)} (hv : kv ∈ kvs) : WStep Γ (.map t) (.map kvs) t kv.2
  | alias {e u : TExpr} {n : Nat} {v : GoVal} (he : NameOf e n) (hd : Γ.decl n = some (.alias u)) : WStep Γ e v u v
  | field {e : TExpr} {n i : Nat} {strict : Bool} {fields : List FieldDecl} {fd : FieldDecl} {gs : List GoVal} {g : GoVal}
      (he : NameOf e n) (hd : Γ.decl n = some (.struct strict fields)) (hf : fields[i]? = some fd) (hg : gs[i]? = some g)
      (ho : ¬ Omitted Γ fd g) : WStep Γ e (.struct gs) fd.typ g

theorem WStep.written {T t : TExpr} {V v : GoVal} (h : WStep Γ T V t v) : Written Γ T V t v := by
  cases h with
  | ptr => exact .ptr .self
  | slice hv => exact .slice .self hv
  | array hv => exact .array .self hv
  | map hv => exact .map .self hv
  | alias he hd => exact .alias .self he hd
  | field he hd hf hg ho => exact .field .self he hd hf hg ho

theorem Written.front {T t : TExpr} {V v : GoVal} (h : Written Γ T V t v) :
    (t = T ∧ v = V) ∨ ∃ u g, WStep Γ T V u g ∧ Written Γ u g t v := by
  have key : ∀ {t t' : TExpr} {v v' : GoVal}, ((t = T ∧ v = V) ∨ ∃ u g, WStep Γ T V u g ∧ Written Γ u g t v) → WStep Γ t v t' v' →
      ((t' = T ∧ v' = V) ∨ ∃ u g, WStep Γ T V u g ∧ Written Γ u g t' v') := by
    rintro t t' v v' (⟨rfl, rfl⟩ | ⟨u, g, h1, h2⟩) hs
    · exact .inr ⟨_, _, hs, .self⟩
    · exact .inr ⟨u, g, h1, h2.trans hs.written⟩
  induction h with
  | self => exact .inl ⟨rfl, rfl⟩
  | ptr _ ih => exact key ih .ptr
  | slice _ hv ih => exact key ih (.slice hv)
  | array _ hv ih => exact key ih (.array hv)
  | map _ hv ih => exact key ih (.map hv)
  | alias _ he hd ih => exact key ih (.alias he hd)
  | field _ he hd hf hg ho ih => exact key ih (.field he hd hf hg ho)
theorem Written.is {T t u : TExpr} {V v : GoVal} (h : Written Γ T V t v) (hi : Is Γ t u) : Written Γ T V u v := by
  cases hi with
  | self => exact h
  | named hd => exact h.alias (.named _) hd

theorem Written.isPrim {T t : TExpr} {V v : GoVal} {p : Prim} (h : Written Γ T V t v) (hi : IsPrim Γ t p) : Written Γ T V (.prim p) v := by
  cases hi with
  | self => exact h
  | named hd => exact h.alias (.named _) hd
  | sel hd => exact h.alias (.sel _) hd

theorem Written.rename {e e' t : TExpr} {n : Nat} {V v : GoVal} (h : NameOf e n) (h' : NameOf e' n) (hp : Written Γ e V t v) :
    (t = e ∧ v = V) ∨ Written Γ e' V t v := by
  induction hp with
  | self => exact .inl ⟨rfl, rfl⟩
  | ptr _ ih =>
    rcases ih with ⟨rfl, _⟩ | ih
    · cases h
    · exact .inr (.ptr ih)
  | slice _ hv ih =>
    rcases ih with ⟨rfl, _⟩ | ih
    · cases h
    · exact .inr (.slice ih hv)
  | array _ hv ih =>
    rcases ih with ⟨rfl, _⟩ | ih
    · cases h
    · exact .inr (.array ih hv)
  | map _ hv ih =>
    rcases ih with ⟨rfl, _⟩ | ih
    · cases h
    · exact .inr (.map ih hv)
  | alias _ he hd ih =>
    rcases ih with ⟨rfl, rfl⟩ | ih
    · cases he.inj h; exact .inr (.alias .self h' hd)
    · exact .inr (.alias ih he hd)
  | field _ he hd hf hg ho ih =>
    rcases ih with ⟨rfl, rfl⟩ | ih
    · cases he.inj h; exact .inr (.field .self h' hd hf hg ho)
    · exact .inr (.field ih he hd hf hg ho)

theorem Fine.part {T t : TExpr} {V v : GoVal} (h : Fine Γ F T V) (hp : Written Γ T V t v) : Fine Γ F t v where
  floats p f h1 := h.floats p f (hp.trans h1)
  commas e n st fs gs h1 := h.commas e n st fs gs (hp.trans h1)
  splices e n st fs gs h1 := h.splices e n st fs gs (hp.trans h1)

theorem Fine.rename {e e' : TExpr} {n : Nat} {v : GoVal} (he : NameOf e n) (he' : NameOf e' n) (h : Fine Γ F e v) : Fine Γ F e' v where
  floats p f h1 := by
    rcases h1.rename he' he with ⟨rfl, _⟩ | h1
    · cases he'
    · exact h.floats p f h1
  commas a m st fs gs h1 ha hd := by
    rcases h1.rename he' he with ⟨rfl, rfl⟩ | h1
    · have := ha.inj he'; subst this; exact h.commas e m st fs gs .self he hd
    · exact h.commas a m st fs gs h1 ha hd
  splices a m st fs gs h1 ha hd := by
    rcases h1.rename he' he with ⟨rfl, rfl⟩ | h1
    · have := ha.inj he'; subst this; exact h.splices e m st fs gs .self he hd
    · exact h.splices a m st fs gs h1 ha hd

theorem Fine.float {t : TExpr} {p : Prim} {f : F64} (h : Fine Γ F t (.float f)) (hp : IsPrim Γ t p) : NumText (Ext.fmtFloat f) :=
  h.floats p f (Written.self.isPrim hp)

/-! ### types of a package -/

/-- a type expression that may occur in the package -/
structure EGood (Γ : Env) (S : Nat → Prop) (t : TExpr) : Prop where
  good : Good S t
  sels : ∀ m ∈ t.sels, Γ.decl m = none

omit [Ext] in
theorem EGood.sub {t u : TExpr} (h : EGood Γ S t) (hn : ∀ m ∈ u.names, m ∈ t.names) (hs : ∀ m ∈ u.sels, m ∈ t.sels)
    (ha : t.anon = false → u.anon = false) : EGood Γ S u :=
  ⟨⟨fun m hm => h.good.names m (hn m hm), ha h.good.noAnon⟩, fun m hm => h.sels m (hs m hm)⟩

omit [Ext] in
theorem EGood.star {t : TExpr} (h : EGood Γ S (.star t)) : EGood Γ S t := h.sub (fun _ h => h) (fun _ h => h) (fun h => h)
omit [Ext] in
theorem EGood.slice {t : TExpr} (h : EGood Γ S (.slice t)) : EGood Γ S t := h.sub (fun _ h => h) (fun _ h => h) (fun h => h)
omit [Ext] in
theorem EGood.array {t : TExpr} {n : Nat} (h : EGood Γ S (.array n t)) : EGood Γ S t := h.sub (fun _ h => h) (fun _ h => h) (fun h => h)
omit [Ext] in
theorem EGood.map {t : TExpr} (h : EGood Γ S (.map t)) : EGood Γ S t := h.sub (fun _ h => h) (fun _ h => h) (fun h => h)
omit [Ext] in
theorem EGood.sel {n : Nat} (h : EGood Γ S (.sel n)) : Γ.decl n = none := h.sels n (by simp [TExpr.sels])
omit [Ext] in
theorem EGood.name {t : TExpr} {n : Nat} (h : EGood Γ S t) (hn : NameOf t n) : S n := h.good.name hn

omit [Ext] in
theorem TypeSet.types {d : Decl} {n : Nat} {t : TExpr} (hP : TypeSet Γ S) (hn : S n) (hd : Γ.decl n = some d)
    (ht : t ∈ d.types) : EGood Γ S t :=
  ⟨⟨fun m hm => hP.closed n d t m hn hd ht hm, hP.noAnon n d t hn hd ht⟩, fun m hm => hP.sels n d t m hn hd ht hm⟩

omit [Ext] in
theorem TypeSet.alias {n : Nat} {t : TExpr} (hP : TypeSet Γ S) (hn : S n) (hd : Γ.decl n = some (.alias t)) : EGood Γ S t :=
  hP.types hn hd (by simp [Decl.types])

omit [Ext] in
theorem TypeSet.field {n : Nat} {strict : Bool} {fields : List FieldDecl} {fd : FieldDecl} (hP : TypeSet Γ S) (hn : S n)
    (hd : Γ.decl n = some (.struct strict fields)) (hf : fd ∈ fields) : EGood Γ S fd.typ :=
  hP.types hn hd (by simp only [Decl.types, List.mem_map]; exact ⟨fd, hf, rfl⟩)

omit [Ext] in
theorem EGood.is {t u : TExpr} (hP : TypeSet Γ S) (h : EGood Γ S t) (hi : Is Γ t u) : EGood Γ S u := by
  cases hi with
  | self => exact h
  | named hd => exact hP.alias (h.name (.named _)) hd

/-! ### scalars -/

/-- text of a scalar -/
def scalarText : GoVal → Str
  | .int i => intStr i
  | .float f => Ext.fmtFloat f
  | .bool b => boolText b
  | .str s => jsonStr s
  | _ => []

theorem scalar_json {p : Prim} {v : GoVal} (hv : PrimTyped p v) (hf : ∀ f, v = .float f → NumText (Ext.fmtFloat f)) :
    ∃ jv, ScalarDoc v jv ∧ Json jv (scalarText v) := by
  cases hv with
  | int => exact ⟨_, .int _, .num (intStr_num _)⟩
  | float64 f => exact ⟨_, .float _, .num (hf f rfl)⟩
  | float32 f => exact ⟨_, .float _, .num (hf f rfl)⟩
  | bool b => exact ⟨_, .bool _, bool_json b⟩
  | string s => exact ⟨_, .str _, jsonStr_json s⟩

theorem primVExt_run {M : Nat → Methods} {p : Prim} {x : VExt} (hx : primVExt p = .ok x) {v : GoVal} (hv : PrimTyped p v)
    (label : ECtx) (w : W) : runVExt M label x v w = .ok (none, w.raw (scalarText v)) := by
  cases hv with
  | int hp hr => cases p <;> simp only [primVExt, Prim.isWhole] at hx hp <;> cases hx <;> first | rfl | cases hp
  | _ => simp only [primVExt] at hx <;> cases hx <;> rfl

omit [Ext] in
theorem hasType_isPrim {t : TExpr} {p : Prim} {v : GoVal} (h : IsPrim Γ t p) (hv : HasType Γ X t v) : PrimTyped p v := by
  have key : HasType Γ X (.prim p) v → PrimTyped p v := fun h => by
    cases h with
    | prim h => exact h
    | alias he | struct he | foreign he => cases he
  cases h with
  | self => exact key hv
  | named hd => exact key (hv.of_alias (.named _) hd)
  | sel hd => exact key (hv.of_alias (.sel _) hd)

/-! ### what the generator emits for an element -/

inductive LeafPlan (Γ : Env) : TExpr → VExt → Prop
  | prim {t : TExpr} {p : Prim} {x : VExt} (ht : PrimName Γ t p) (hx : primVExt p = .ok x) : LeafPlan Γ t x
  | ptr {t y : TExpr} {p : Prim} {x : VExt} (ht : Is Γ t (.star y)) (hy : IsPrim Γ y p) (hx : primVExt p = .ok x) : LeafPlan Γ t (.star x)
  | time : LeafPlan Γ .time .time
  | call {t : TExpr} {n : Nat} (ht : NameOf t n) (hp : ∀ p, ¬ IsPrim Γ t p) : LeafPlan Γ t (.call n)
  | callPtr {y : TExpr} {n : Nat} (hy : NameOf y n) (hp : ∀ p, ¬ IsPrim Γ y p) : LeafPlan Γ (.star y) (.callPtr n)

/-- `t` is the element type or what it stands for -/
def Step (Γ : Env) (srcT t : TExpr) : Prop := t = srcT ∨ t = Γ.denoted srcT

omit [Ext] in
theorem step_is {srcT t : TExpr} (h : Step Γ srcT t) (hg : EGood Γ S srcT) (hs : t ≠ .structT) : Is Γ srcT t := by
  rcases h with rfl | rfl
  · exact .self _
  · cases srcT with
    | named n =>
      simp only [Env.denoted, Env.denotedIdent] at hs ⊢
      cases hd : Γ.decl n with
      | none => exact .self _
      | some d =>
        cases d with
        | alias u => exact .named hd
        | struct => simp [hd, Decl.spec] at hs
    | sel n => simp only [Env.denoted, Env.denotedIdent, hg.sel]; exact .self _
    | _ => exact .self _

omit [Ext] in
theorem step_prim {srcT t : TExpr} {p : Prim} (h : Step Γ srcT t) (hg : EGood Γ S srcT) (hp : IsPrim Γ t p) : PrimName Γ srcT p := by
  have : t ≠ .structT := by rintro rfl; cases hp
  cases step_is h hg this with
  | self => exact .base hp
  | named hd => exact .chain hd hp

omit [Ext] in
/-- a name that stands for something other than a predeclared type -/
theorem step_call {srcT t : TExpr} (h : Step Γ srcT t) (hp : ∀ p, ¬ IsPrim Γ t p) :
    ∀ p, ¬ IsPrim Γ srcT p := by
  intro p h'
  rcases h with rfl | rfl
  · exact hp p h'
  · rw [denoted_prim.2 h'] at hp; exact hp p (.self p)

/-- `leafExt` behind the pointer -/
def leafCore (Γ : Env) (srcT : TExpr) (st : Bool) (t : TExpr) (d : Bool) : Out VExt :=
  if t ≠ Γ.denoted t ∧ (Γ.denoted t).isOrdinal then
    match Γ.denoted t with
    | .prim p => do
      let x ← primVExt p
      return (if st = true then .star x else x)
    | _ => .unsupp
  else match t with
    | .prim .string => if st ∨ srcT = .prim .string ∨ d then .ok (if st = true then .star .str else .str) else .unsupp
    | .prim p => do
      let x ← primVExt p
      return (if st = true then .star x else x)
    | .named _ | .sel _ | .structT => callExt srcT
    | .time => if st ∨ srcT ≠ .time then .unsupp else .ok .time
    | _ => .unsupp

omit [Ext] in
theorem leafExt_star (srcT y : TExpr) (d : Bool) : leafExt Γ srcT (.star y) d = leafCore Γ srcT true y d := rfl
omit [Ext] in
theorem leafExt_other {srcT t : TExpr} (h : ∀ y, t ≠ .star y) (d : Bool) : leafExt Γ srcT t d = leafCore Γ srcT false t d := by
  cases t <;> first | rfl | exact absurd rfl (h _)

/-- what `leafCore` can return -/
inductive LeafRes (Γ : Env) (srcT : TExpr) (st : Bool) (t : TExpr) : VExt → Prop
  | prim {p : Prim} {x : VExt} (hp : IsPrim Γ t p) (hx : primVExt p = .ok x) : LeafRes Γ srcT st t (if st = true then .star x else x)
  | call {x : VExt} (hp : ∀ p, ¬ IsPrim Γ t p) (hn : (∃ n, NameOf t n) ∨ t = .structT) (hx : callExt srcT = .ok x) : LeafRes Γ srcT st t x
  | time (h1 : st = false) (h2 : srcT = .time) : LeafRes Γ srcT st t .time

omit [Ext] in
theorem leafCore_res {srcT t : TExpr} {st d : Bool} {x : VExt} (h : leafCore Γ srcT st t d = .ok x) : LeafRes Γ srcT st t x := by
  unfold leafCore at h
  split at h
  · split at h
    · rename_i p hp
      obtain ⟨x', hx, he⟩ := Out.bind_eq_ok.1 h
      simp only [Out.pure_eq, Out.ok.injEq] at he; subst he
      exact .prim (denoted_prim.1 hp) hx
    · cases h
  · rename_i hc
    have hno : (∃ n, NameOf t n) ∨ t = .structT → ∀ p, ¬ IsPrim Γ t p := by
      intro hn p hp
      refine hc ⟨?_, by rw [denoted_prim.2 hp]; rfl⟩
      rw [denoted_prim.2 hp]
      rcases hn with ⟨n, hn⟩ | rfl
      · cases hn <;> simp
      · simp
    clear hc
    cases t with
    | named n => exact .call (hno (.inl ⟨n, .named n⟩)) (.inl ⟨n, .named n⟩) h
    | sel n => exact .call (hno (.inl ⟨n, .sel n⟩)) (.inl ⟨n, .sel n⟩) h
    | structT => exact .call (hno (.inr rfl)) (.inr rfl) h
    | time =>
      simp only at h
      split at h
      · cases h
      · rename_i hne
        simp only [Out.ok.injEq] at h; subst h
        simp only [not_or, Bool.not_eq_true, Decidable.not_not, ne_eq] at hne
        exact .time hne.1 hne.2
    | prim p =>
      by_cases hp : p = .string
      · subst hp
        simp only at h
        split at h
        · simp only [Out.ok.injEq] at h; subst h
          exact .prim (.self .string) rfl
        · cases h
      · have h' : (do let x ← primVExt p; return (if st = true then VExt.star x else x)) = Out.ok x := by
          cases p <;> first | exact h | exact absurd rfl hp
        obtain ⟨x', hx, he⟩ := Out.bind_eq_ok.1 h'
        simp only [Out.pure_eq, Out.ok.injEq] at he; subst he
        exact .prim (.self p) hx
    | _ => cases h

omit [Ext] in
theorem leafExt_plan {srcT t : TExpr} {d : Bool} {x : VExt} (h : leafExt Γ srcT t d = .ok x) (hs : Step Γ srcT t)
    (hg : EGood Γ S srcT) : LeafPlan Γ srcT x := by
  by_cases hstar : ∃ y, t = .star y
  · obtain ⟨y, rfl⟩ := hstar
    have hi : Is Γ srcT (.star y) := step_is hs hg (by simp)
    rw [leafExt_star] at h
    cases leafCore_res h with
    | prim hp hx => exact .ptr hi hp hx
    | time h1 => cases h1
    | call hp hn hx =>
      cases hi with
      | self =>
        cases y with
        | named n => simp only [callExt, Out.ok.injEq] at hx; subst hx; exact .callPtr (.named _) hp
        | sel n => simp only [callExt, Out.ok.injEq] at hx; subst hx; exact .callPtr (.sel _) hp
        | _ => simp [callExt] at hx
      | named hd =>
        simp only [callExt, Out.ok.injEq] at hx; subst hx
        refine .call (.named _) fun p hp => ?_
        cases hp with
        | named hd' => rw [hd] at hd'; cases hd'
  · rw [leafExt_other (fun y hy => hstar ⟨y, hy⟩)] at h
    cases leafCore_res h with
    | prim hp hx => exact .prim (step_prim hs hg hp) hx
    | time _ h2 => subst h2; exact .time
    | call hp hn hx =>
      cases srcT with
      | named n => simp only [callExt, Out.ok.injEq] at hx; subst hx; exact .call (.named _) (step_call hs hp)
      | sel n => simp only [callExt, Out.ok.injEq] at hx; subst hx; exact .call (.sel _) (step_call hs hp)
      | star y =>
        exfalso
        rcases hs with rfl | rfl <;> rcases hn with ⟨n, hn⟩ | h' <;> first | cases hn | cases h'
      | _ => simp [callExt] at hx

inductive ElemPlan (Γ : Env) : TExpr → VExt → Prop
  | leaf {t : TExpr} {x : VExt} (hl : ∀ e, ¬ ListOf Γ t e) (h : LeafPlan Γ t x) : ElemPlan Γ t x
  | list {t e : TExpr} {x : VExt} (ht : ListOf Γ t e) (h : LeafPlan Γ e x) : ElemPlan Γ t (.arr x)

omit [Ext] in
theorem isByte_false {e : TExpr} (h : e.isByte = false) : e ≠ .prim .byte := by rintro rfl; cases h

omit [Ext] in
theorem listOf_denoted {t e : TExpr} (h : ListOf Γ t e) : Γ.denoted t = .slice e ∨ ∃ n, Γ.denoted t = .array n e := by
  have key : ∀ {u}, Is Γ t u → (∀ n, ¬ NameOf u n) → Γ.denoted t = u := by
    intro u hi hu
    cases hi with
    | self => cases t <;> first | rfl | exact absurd (NameOf.named _) (hu _) | exact absurd (NameOf.sel _) (hu _)
    | named hd => simp [Env.denoted, Env.denotedIdent, hd, Decl.spec]
  rcases h.2 with h | ⟨n, h⟩
  · exact .inl (key h (by rintro n ⟨⟩))
  · exact .inr ⟨n, key h (by rintro n ⟨⟩)⟩

omit [Ext] in
theorem valueExt_plan (hP : TypeSet Γ S) {srcT : TExpr} {d : Bool} {x : VExt} (h : valueExt Γ srcT (Γ.denoted srcT) d = .ok x)
    (hg : EGood Γ S srcT) : ElemPlan Γ srcT x := by
  have hl : ∀ {e}, (Γ.denoted srcT = .slice e ∨ ∃ n, Γ.denoted srcT = .array n e) → ∀ {x : VExt},
      (if e.isByte = true then .unsupp else match e with
        | .slice _ | .array _ _ => .unsupp
        | _ => do
          let x ← leafExt Γ e e false
          return .arr x : Out VExt) = .ok x → ElemPlan Γ srcT x := by
    intro e he x h
    split at h
    · cases h
    · rename_i hb
      have hl : ListOf Γ srcT e := by
        refine ⟨isByte_false (by simpa using hb), ?_⟩
        rcases he with he | ⟨n, he⟩
        · exact .inl (he ▸ step_is (.inr rfl) hg (by rw [he]; simp))
        · exact .inr ⟨n, he ▸ step_is (.inr rfl) hg (by rw [he]; simp)⟩
      have hge : EGood Γ S e := by
        rcases hl.2 with h | ⟨n, h⟩
        · exact (hg.is hP h).slice
        · exact (hg.is hP h).array
      have key : ∀ {x}, (do let x ← leafExt Γ e e false; return VExt.arr x) = Out.ok x → ElemPlan Γ srcT x := by
        intro x h
        obtain ⟨x', hx, he⟩ := Out.bind_eq_ok.1 h
        cases he
        exact .list hl (leafExt_plan hx (.inl rfl) hge)
      split at h <;> first | (cases h; done) | exact key h
  cases hd : Γ.denoted srcT with
  | slice e => rw [hd] at h; exact hl (.inl hd) h
  | array n e => rw [hd] at h; exact hl (.inr ⟨n, hd⟩) h
  | _ =>
    refine .leaf (fun e hle => ?_) (leafExt_plan (t := Γ.denoted srcT) (d := d) ?_ (.inr rfl) hg)
    · rcases listOf_denoted hle with h' | ⟨_, h'⟩ <;> rw [hd] at h' <;> cases h'
    · rw [hd] at h ⊢; exact h

end

end VJ
