import Verif.Proof.Plan
import Verif.Spec.Typing

/-!
# Decoding ends, and preserves types
-/

namespace VJ
set_option linter.unusedSectionVars false
set_option linter.unusedSimpArgs false

/-- with enough nested calls the computation ends with a result in `P` -/
def Term {α : Type} (o : Nat → Out α) (P : α → Prop) : Prop :=
  ∃ a, P a ∧ ∃ k0, ∀ k, k0 ≤ k → o k = .ok a

namespace Term
variable {α β : Type}

theorem pure {P : α → Prop} {a : α} (h : P a) : Term (fun _ => .ok a) P := ⟨a, h, 0, fun _ _ => rfl⟩

theorem bind {o : Nat → Out α} {f : Nat → α → Out β} {P : α → Prop} {Q : β → Prop} (h : Term o P)
    (hf : ∀ a, P a → Term (fun k => f k a) Q) : Term (fun k => o k >>= f k) Q := by
  obtain ⟨a, ha, k1, h1⟩ := h
  obtain ⟨b, hb, k2, h2⟩ := hf a ha
  refine ⟨b, hb, max k1 k2, fun k hk => ?_⟩
  show (o k >>= f k) = _
  rw [h1 k (by omega), Out.ok_bind]
  exact h2 k (by omega)

theorem imp {o : Nat → Out α} {P Q : α → Prop} (h : Term o P) (hi : ∀ a, P a → Q a) : Term o Q := by
  obtain ⟨a, ha, k, hk⟩ := h
  exact ⟨a, hi a ha, k, hk⟩

/-- one more level of calls -/
theorem succ {o o' : Nat → Out α} {P : α → Prop} (h : Term o P) (he : ∀ k, o' (k + 1) = o k) : Term o' P := by
  obtain ⟨a, ha, k0, hk⟩ := h
  refine ⟨a, ha, k0 + 1, fun k h => ?_⟩
  obtain ⟨k, rfl⟩ : ∃ j, k = j + 1 := ⟨k - 1, by omega⟩
  rw [he, hk k (by omega)]

theorem congr {o o' : Nat → Out α} {P : α → Prop} (h : Term o P) (k1 : Nat) (he : ∀ k, k1 ≤ k → o' k = o k) : Term o' P := by
  obtain ⟨a, ha, k0, hk⟩ := h
  exact ⟨a, ha, max k0 k1, fun k h => by rw [he k (by omega), hk k (by omega)]⟩

theorem ok {o : Nat → Out α} {P : α → Prop} (h : Term o P) : ∃ k a, o k = .ok a ∧ P a := by
  obtain ⟨a, ha, k0, hk⟩ := h
  exact ⟨k0, a, hk k0 (Nat.le_refl _), ha⟩

theorem const {o : Out α} {P : α → Prop} (h : Term (fun _ => o) P) : ∃ a, o = .ok a ∧ P a := by
  obtain ⟨a, ha, k0, hk⟩ := h
  exact ⟨a, hk k0 (Nat.le_refl _), ha⟩

end Term

/-! ### typed values -/

variable {Γ : Env} {X : Nat → GoVal → Prop} {S : Nat → Prop}

theorem NameOf.inj {e : TExpr} {n m : Nat} (h : NameOf e n) (h' : NameOf e m) : n = m := by
  cases h <;> cases h' <;> rfl

theorem HasType.name {e e' : TExpr} {n : Nat} {v : GoVal} (h : NameOf e n) (h' : NameOf e' n) (ht : HasType Γ X e v) :
    HasType Γ X e' v := by
  cases ht with
  | alias he hd h1 => cases he.inj h; exact .alias h' hd h1
  | struct he hd hl h1 => cases he.inj h; exact .struct h' hd hl h1
  | foreign he hd h1 => cases he.inj h; exact .foreign h' hd h1
  | _ => cases h

theorem HasType.of_alias {e t : TExpr} {n : Nat} {v : GoVal} (h : NameOf e n) (hd : Γ.decl n = some (.alias t))
    (ht : HasType Γ X e v) : HasType Γ X t v := by
  cases ht with
  | alias he hd' h1 => cases he.inj h; rw [hd] at hd'; cases hd'; exact h1
  | struct he hd' hl h1 => cases he.inj h; rw [hd] at hd'; cases hd'
  | foreign he hd' h1 => cases he.inj h; rw [hd] at hd'; cases hd'
  | _ => cases h

theorem HasType.of_foreign {e : TExpr} {n : Nat} {v : GoVal} (h : NameOf e n) (hd : Γ.decl n = none)
    (ht : HasType Γ X e v) : X n v := by
  cases ht with
  | alias he hd' h1 => cases he.inj h; rw [hd] at hd'; cases hd'
  | struct he hd' hl h1 => cases he.inj h; rw [hd] at hd'; cases hd'
  | foreign he hd' h1 => cases he.inj h; exact h1
  | _ => cases h

theorem HasType.of_struct {e : TExpr} {n : Nat} {v : GoVal} {strict : Bool} {fields : List FieldDecl} (h : NameOf e n)
    (hd : Γ.decl n = some (.struct strict fields)) (ht : HasType Γ X e v) :
    ∃ gs, v = .struct gs ∧ gs.length = fields.length ∧
      ∀ (i : Nat) (fd : FieldDecl) (g : GoVal), fields[i]? = some fd → gs[i]? = some g → HasType Γ X fd.typ g := by
  cases ht with
  | alias he hd' h1 => cases he.inj h; rw [hd] at hd'; cases hd'
  | struct he hd' hl h1 => cases he.inj h; rw [hd] at hd'; cases hd'; exact ⟨_, rfl, hl, h1⟩
  | foreign he hd' h1 => cases he.inj h; rw [hd] at hd'; cases hd'
  | _ => cases h

theorem HasType.is {t u : TExpr} {v : GoVal} (h : Is Γ t u) (ht : HasType Γ X u v) : HasType Γ X t v := by
  cases h with
  | self => exact ht
  | named hd => exact .alias (.named _) hd ht

theorem HasType.of_is {t u : TExpr} {v : GoVal} (h : Is Γ t u) (ht : HasType Γ X t v) : HasType Γ X u v := by
  cases h with
  | self => exact ht
  | named hd => exact ht.of_alias (.named _) hd

theorem HasType.isPrim {t : TExpr} {p : Prim} {v : GoVal} (h : IsPrim Γ t p) (hv : PrimTyped p v) : HasType Γ X t v := by
  cases h with
  | self => exact .prim hv
  | named hd => exact .alias (.named _) hd (.prim hv)
  | sel hd => exact .alias (.sel _) hd (.prim hv)

theorem HasType.primName {t : TExpr} {p : Prim} {v : GoVal} (h : PrimName Γ t p) (hv : PrimTyped p v) : HasType Γ X t v := by
  cases h with
  | base h => exact .isPrim h hv
  | chain hd h => exact .alias (.named _) hd (.isPrim h hv)

theorem HasType.slice_cases {t : TExpr} {v : GoVal} (hb : t ≠ .prim .byte) (h : HasType Γ X (.slice t) v) :
    v = .nil ∨ ∃ es sp, v = .slice es sp ∧ (∀ c ∈ es, HasType Γ X t c) ∧ ∀ c ∈ sp, HasType Γ X t c := by
  cases h with
  | nilSlice => exact Or.inl rfl
  | slice _ h1 h2 => exact Or.inr ⟨_, _, rfl, h1, h2⟩
  | bytes => exact absurd rfl hb
  | alias he | struct he | foreign he => cases he

theorem HasType.array_cases {t : TExpr} {n : Nat} {v : GoVal} (hb : t ≠ .prim .byte) (h : HasType Γ X (.array n t) v) :
    ∃ es : List GoVal, v = .arr es ∧ es.length = n ∧ ∀ c ∈ es, HasType Γ X t c := by
  cases h with
  | array _ hl h1 => exact ⟨_, rfl, hl, h1⟩
  | barr => exact absurd rfl hb
  | alias he | struct he | foreign he => cases he

theorem HasType.map_cases {t : TExpr} {v : GoVal} (h : HasType Γ X (.map t) v) :
    v = .nil ∨ ∃ kvs : List (Str × GoVal), v = .map kvs ∧ (kvs.map (·.1)).Nodup ∧ ∀ kv ∈ kvs, HasType Γ X t kv.2 := by
  cases h with
  | nilMap => exact Or.inl rfl
  | map h1 h2 => exact Or.inr ⟨_, rfl, h1, h2⟩
  | alias he | struct he | foreign he => cases he

theorem HasType.star_cases {t : TExpr} {v : GoVal} (h : HasType Γ X (.star t) v) :
    v = .nil ∨ ∃ w, v = .ptr w ∧ HasType Γ X t w := by
  cases h with
  | nilPtr => exact Or.inl rfl
  | ptr h => exact Or.inr ⟨_, rfl, h⟩
  | alias he | struct he | foreign he => cases he

/-- nil is a value of pointers, slices and maps -/
theorem HasType.nil {t : TExpr} (h : t.nullLike = true) (ha : ∀ n u, t ≠ .array n u) (hs : t.anon = false) :
    HasType Γ X t .nil := by
  cases t with
  | star => exact .nilPtr _
  | slice => exact .nilSlice _
  | map => exact .nilMap _
  | array n u => exact absurd rfl (ha n u)
  | structT => cases hs
  | _ => cases h

/-! ### types of the package -/

/-- a type expression that may occur in the package -/
structure Good (S : Nat → Prop) (t : TExpr) : Prop where
  names : ∀ m ∈ t.names, S m
  noAnon : t.anon = false

theorem Good.star {t : TExpr} (h : Good S (.star t)) : Good S t := ⟨h.1, h.2⟩
theorem Good.slice {t : TExpr} (h : Good S (.slice t)) : Good S t := ⟨h.1, h.2⟩
theorem Good.map {t : TExpr} (h : Good S (.map t)) : Good S t := ⟨h.1, h.2⟩
theorem Good.array {t : TExpr} {n : Nat} (h : Good S (.array n t)) : Good S t := ⟨h.1, h.2⟩
theorem Good.pointee {t : TExpr} (h : Good S t) : Good S (pointee t) := by
  cases t <;> first | exact h | exact h.star
theorem Good.name {t : TExpr} {n : Nat} (h : Good S t) (hn : NameOf t n) : S n := by
  cases hn <;> exact h.names _ (by simp [TExpr.names])

variable [Ext]

theorem Package.types {d : Decl} {n : Nat} {t : TExpr} (hP : Package Γ X S) (hn : S n) (hd : Γ.decl n = some d)
    (ht : t ∈ d.types) : Good S t :=
  ⟨fun m hm => hP.closed n d t m hn hd ht hm, hP.noAnon n d t hn hd ht⟩

theorem Package.alias {n : Nat} {t : TExpr} (hP : Package Γ X S) (hn : S n) (hd : Γ.decl n = some (.alias t)) : Good S t :=
  hP.types hn hd (by simp [Decl.types])

theorem Package.field {n : Nat} {strict : Bool} {fields : List FieldDecl} {fd : FieldDecl} (hP : Package Γ X S) (hn : S n)
    (hd : Γ.decl n = some (.struct strict fields)) (hf : fd ∈ fields) : Good S fd.typ :=
  hP.types hn hd (by simp only [Decl.types, List.mem_map]; exact ⟨fd, hf, rfl⟩)

theorem Good.is {t u : TExpr} (hP : Package Γ X S) (h : Good S t) (hi : Is Γ t u) : Good S u := by
  cases hi with
  | self => exact h
  | named hd => exact hP.alias (h.name (.named _)) hd

/-! ### zero values -/

theorem PrimTyped.zero (p : Prim) : PrimTyped p p.zero := by
  cases p <;> simp only [Prim.zero] <;>
    first
      | exact .int rfl (by simp [Prim.inRange])
      | exact .float64 _
      | exact .float32 _
      | exact .bool _
      | exact .string _

theorem zeroT_term {t : TExpr} (hg : Good S t)
    (h : ∀ m ∈ t.inline, ∀ e, NameOf e m → Term (fun k => (Γ.methods k m).zero) (HasType Γ X e)) :
    Term (fun k => zeroT (Γ.methods k) t) (HasType Γ X t) := by
  induction t with
  | prim p => exact .pure (.prim (.zero p))
  | named n => exact h n (by simp [TExpr.inline]) _ (.named n)
  | sel n => exact h n (by simp [TExpr.inline]) _ (.sel n)
  | time => exact .pure (.time _)
  | uuid => exact .pure (.uuid (by simp [uuidNil]))
  | structT => cases hg.noAnon
  | star t _ => exact .pure (.nilPtr _)
  | slice t _ => exact .pure (.nilSlice _)
  | map t _ => exact .pure (.nilMap _)
  | array n t ih =>
    simp only [zeroT]
    split
    · rename_i hb
      obtain rfl := isByte_iff.1 hb
      exact .pure (.barr (by simp))
    · rename_i hb
      refine (ih hg.array (fun m hm => h m (by simpa [TExpr.inline] using hm))).bind fun z hz => .pure ?_
      refine .array (fun h => hb (isByte_iff.2 h)) (by simp) fun v hv => ?_
      rw [List.eq_of_mem_replicate hv]; exact hz

theorem zeroFields_term : ∀ {fields : List FieldDecl},
    (∀ fd ∈ fields, Term (fun k => zeroT (Γ.methods k) fd.typ) (HasType Γ X fd.typ)) →
    Term (fun k => zeroFields (Γ.methods k) fields) (fun gs => gs.length = fields.length ∧
      ∀ (i : Nat) (fd : FieldDecl) (g : GoVal), fields[i]? = some fd → gs[i]? = some g → HasType Γ X fd.typ g)
  | [], _ => .pure ⟨rfl, by simp⟩
  | fd :: fds, h => by
    refine (h fd (by simp)).bind fun z hz => ?_
    refine (zeroFields_term (fields := fds) fun fd' hf => h fd' (by simp [hf])).bind fun zs hzs => .pure ⟨by simp [hzs.1], ?_⟩
    intro i fd' g h1 h2
    cases i with
    | zero => simp at h1 h2; subst h1; subst h2; exact hz
    | succ i => exact hzs.2 i fd' g (by simpa using h1) (by simpa using h2)

theorem methods_none {n : Nat} (hd : Γ.decl n = none) (k : Nat) : Γ.methods (k + 1) n = Γ.ext n := by
  simp [Env.methods, hd]

theorem methods_some {n : Nat} {d : Decl} (hd : Γ.decl n = some d) (k : Nat) :
    Γ.methods (k + 1) n = declMethods Γ k (Γ.methods k) d := by
  simp [Env.methods, hd]

/-- every type of the package has a zero value -/
theorem Package.zero (hP : Package Γ X S) {n : Nat} (hn : S n) {e : TExpr} (he : NameOf e n) :
    Term (fun k => (Γ.methods k n).zero) (HasType Γ X e) := by
  obtain ⟨rank, hr⟩ := hP.acyclic
  induction hk : rank n using Nat.strongRecOn generalizing n e with
  | _ r ih =>
    cases hd : Γ.decl n with
    | none =>
      obtain ⟨z, hz, hx⟩ := hP.foreignZero n hn hd
      exact (Term.pure (HasType.foreign he hd hx)).succ fun k => by rw [methods_none hd, hz]
    | some d =>
      cases d with
      | struct strict fields =>
        refine Term.succ (o := fun k => zeroFields (Γ.methods k) fields >>= fun zs => pure (.struct zs)) ?_
          (fun k => by rw [methods_some hd]; rfl)
        refine (zeroFields_term fun fd hf => ?_).bind fun gs hgs => .pure (.struct he hd hgs.1 hgs.2)
        refine zeroT_term (hP.field hn hd hf) fun m hm e' he' => ?_
        have hlt := hr n _ m hn hd (by simp only [Decl.inner, List.mem_flatMap]; exact ⟨fd, hf, by simp [hm]⟩)
        have hSm : S m := by
          refine (hP.field hn hd hf).names m ?_
          exact TExpr_inline_names hm
        exact ih (rank m) (by omega) hSm he' rfl
      | alias t =>
        refine Term.succ (o := fun k => zeroT (Γ.methods k) t) ?_ (fun k => by rw [methods_some hd]; rfl)
        refine (zeroT_term (hP.alias hn hd) fun m hm e' he' => ?_).imp fun v hv => .alias he hd hv
        have hlt := hr n _ m hn hd (by simpa [Decl.inner] using hm)
        exact ih (rank m) (by omega) ((hP.alias hn hd).names m (TExpr_inline_names hm)) he' rfl
where
  TExpr_inline_names {t : TExpr} {m : Nat} (h : m ∈ t.inline) : m ∈ t.names := by
    induction t with
    | named n => exact h
    | sel n => exact h
    | array n t ih => exact ih h
    | _ => simp [TExpr.inline] at h

theorem Package.zeroT (hP : Package Γ X S) {t : TExpr} (hg : Good S t) :
    Term (fun k => zeroT (Γ.methods k) t) (HasType Γ X t) :=
  zeroT_term hg fun m hm _ he => hP.zero (hg.names m (Package.zero.TExpr_inline_names hm)) he

/-! ### conversions -/

theorem PrimTyped.conv {p : Prim} {v : GoVal} (h : PrimTyped p v) : PrimTyped p (p.conv v) := by
  cases h with
  | int hp h =>
    rename_i i
    have : p.conv (.int i) = .int (p.wrap i) := by cases p <;> rfl
    rw [this]
    exact .int hp (Prim.wrap_range _)
  | float64 f => exact .float64 _
  | float32 f => exact .float32 _
  | bool b => exact .bool _
  | string s => exact .string _

/-- converting a value to its own type gives a value of the type -/
theorem Package.conv (hP : Package Γ X S) {t : TExpr} {v : GoVal} (hv : HasType Γ X t v) (hg : Good S t) :
    Term (fun k => convT (Γ.methods k) t v) (HasType Γ X t) := by
  induction hv with
  | prim h => exact .pure (.prim h.conv)
  | alias he hd h ih =>
    have key := ih (hP.alias (hg.name he) hd)
    have := (Term.succ key (o' := fun k => (Γ.methods k _).conv _) (fun k => by rw [methods_some hd]; rfl)).imp
      (Q := HasType Γ X _) fun w hw => HasType.alias he hd hw
    cases he <;> exact this
  | @struct e n strict fields gs he hd hl h _ =>
    have : Term (fun k => (Γ.methods k n).conv (.struct gs)) (HasType Γ X e) :=
      (Term.pure (HasType.struct he hd hl h)).succ (fun k => by rw [methods_some hd]; rfl)
    cases he <;> exact this
  | @foreign e n v he hd h =>
    obtain ⟨w, h1, h2⟩ := hP.foreignConv n v (hg.name he) hd h
    have : Term (fun k => (Γ.methods k n).conv v) (HasType Γ X e) :=
      (Term.pure (HasType.foreign he hd h2)).succ (fun k => by rw [methods_none hd, h1])
    cases he <;> exact this
  | time t => exact .pure (.time t)
  | uuid h => exact .pure (.uuid h)
  | nilPtr t => exact .pure (.nilPtr t)
  | ptr h _ => exact .pure (.ptr h)
  | nilSlice t => exact .pure (.nilSlice t)
  | slice hb h hs _ _ => exact .pure (.slice hb h hs)
  | bytes b => exact .pure (.bytes b)
  | array hb hl h _ => exact .pure (.array hb hl h)
  | barr hl => exact .pure (.barr hl)
  | nilMap t => exact .pure (.nilMap t)
  | map hk h _ => exact .pure (.map hk h)

/-- the conversion of an extracted number -/
theorem conv_isPrim {t : TExpr} {p : Prim} {v : GoVal} (h : IsPrim Γ t p) (hv : PrimTyped p (p.conv v)) :
    Term (fun k => convT (Γ.methods k) t v) (HasType Γ X t) := by
  cases h with
  | self => exact .pure (.prim hv)
  | named hd => exact (Term.pure (HasType.alias (.named _) hd (.prim hv))).succ (fun k => by simp only [convT]; rw [methods_some hd]; rfl)
  | sel hd => exact (Term.pure (HasType.alias (.sel _) hd (.prim hv))).succ (fun k => by simp only [convT]; rw [methods_some hd]; rfl)

theorem conv_primName {t : TExpr} {p : Prim} {v : GoVal} (h : PrimName Γ t p) (hv : PrimTyped p (p.conv v)) :
    Term (fun k => convT (Γ.methods k) t v) (HasType Γ X t) := by
  cases h with
  | base h => exact conv_isPrim h hv
  | chain hd h =>
    exact ((conv_isPrim (X := X) h hv).imp fun w hw => HasType.alias (.named _) hd hw).succ
      (fun k => by simp only [convT]; rw [methods_some hd]; rfl)

end VJ
