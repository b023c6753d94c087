import Verif.Proof.EncodePlan
import Verif.Proof.FieldFacts

/-!
# A value has one document
-/

namespace VJ

variable [Ext] {Γ : Env} {F : Nat → Option GoVal → JV → Prop}

theorem scalarDoc_unique {v : GoVal} {a b : JV} (h : ScalarDoc v a) (h' : ScalarDoc v b) : a = b := by
  cases h <;> cases h' <;> rfl

omit [Ext] in
theorem listing_unique {v : GoVal} {a b : List GoVal} (h : Listing v a) (h' : Listing v b) : a = b := by
  cases h <;> cases h' <;> rfl

omit [Ext] in
/-- documents of the elements agree -/
theorem docs_unique {α : Type} {P Q : α → JV → Prop} (hq : ∀ x a b, P x a → Q x b → a = b) {es : List α} {da db : List JV}
    (la : da.length = es.length) (lb : db.length = es.length)
    (ha : ∀ (i : Nat) (x : α) (d : JV), es[i]? = some x → da[i]? = some d → P x d)
    (hb : ∀ (i : Nat) (x : α) (d : JV), es[i]? = some x → db[i]? = some d → Q x d) : da = db := by
  apply List.ext_getElem?
  intro i
  by_cases hi : i < es.length
  · have e1 := List.getElem?_eq_getElem hi
    have e2 := List.getElem?_eq_getElem (la.symm ▸ hi : i < da.length)
    have e3 := List.getElem?_eq_getElem (lb.symm ▸ hi : i < db.length)
    rw [e2, e3, hq _ _ _ (ha i _ _ e1 e2) (hb i _ _ e1 e3)]
  · rw [List.getElem?_eq_none (by omega), List.getElem?_eq_none (by omega)]

/-! ### fields -/

/-- what the document of a field of kind `k` is; `P` gives the documents of what it contains -/
def FieldRes (Γ : Env) (P : Place → GoVal → JV → Prop) (fd : FieldDecl) (k : EKind) (v : GoVal) (jv : JV) : Prop :=
  (Omitted Γ fd v ∧ jv = .obj []) ∨ ¬ Omitted Γ fd v ∧
  ((IsEmpty Γ k v ∧ (∀ n, k ≠ .method n) ∧ ∃ d, EmptyDoc fd.tags k v d ∧ jv = .obj [(fd.tags.jsonName, d)]) ∨
   match k with
    | .scalar => ¬ ZeroScalar v ∧ ∃ d, ScalarDoc v d ∧ jv = .obj [(fd.tags.jsonName, d)]
    | .ptr => ∃ g d, v = .ptr g ∧ ScalarDoc g d ∧ jv = .obj [(fd.tags.jsonName, d)]
    | .ptr2 => ∃ g d, v = .ptr (.ptr g) ∧ ScalarDoc g d ∧ jv = .obj [(fd.tags.jsonName, d)]
    | .time => ∃ t, v = .time t ∧ t.isZero = false ∧ jv = .obj [(fd.tags.jsonName, .str (Ext.fmtTime (writeLayout fd.tags.layout) t))]
    | .timePtr => ∃ t, v = .ptr (.time t) ∧ jv = .obj [(fd.tags.jsonName, .str (Ext.fmtTime (writeLayout fd.tags.layout) t))]
    | .uuid => ∃ b, v = .uuid b ∧ jv = .obj [(fd.tags.jsonName, .str (uuidText b))]
    | .uuidPtr => ∃ b, v = .ptr (.uuid b) ∧ jv = .obj [(fd.tags.jsonName, .str (uuidText b))]
    | .method n => (fd.tags.jsonName ≠ [] ∧ ∃ d, P (.decl n) v d ∧ jv = .obj [(fd.tags.jsonName, d)]) ∨ (fd.tags.jsonName = [] ∧ P (.decl n) v jv)
    | .methodPtr n => ∃ g d, v = .ptr g ∧ P (.decl n) g d ∧ jv = .obj [(fd.tags.jsonName, d)]
    | .map e => ∃ kvs docs, v = .map kvs ∧ docs.length = kvs.length ∧
        (∀ (i : Nat) (kv : Str × GoVal) (d : JV), kvs[i]? = some kv → docs[i]? = some d → P (.elem true e) kv.2 d) ∧
        jv = .obj [(fd.tags.jsonName, .obj ((kvs.map (·.1)).zip docs))]
    | .list e => ∃ es docs, Listing v es ∧ docs.length = es.length ∧
        (∀ (i : Nat) (x : GoVal) (d : JV), es[i]? = some x → docs[i]? = some d → P (.elem true e) x d) ∧
        jv = .obj [(fd.tags.jsonName, .arr docs)]
    | .bytes => ∃ b, v = .bytes b ∧ jv = .obj [(fd.tags.jsonName, .str (b64Encode b))]
    | .fixedBytes => ∃ b, v = .barr b ∧ (∃ x ∈ b, x ≠ 0) ∧ jv = .obj [(fd.tags.jsonName, .str (b64Encode b))])

theorem emptyDoc_unique {tags : Tags} {k : EKind} {v : GoVal} {a b : JV} (h : EmptyDoc tags k v a) (h' : EmptyDoc tags k v b) : a = b := by
  cases h with
  | float f => cases h' with
    | float => rfl
    | scalar hf => exact absurd rfl (hf _)
    | null _ h => exact absurd rfl h.1
  | scalar hf hs => cases h' with
    | float f => exact absurd rfl (hf _)
    | scalar hf' hs' => exact scalarDoc_unique hs hs'
    | null _ h => exact absurd rfl h.1
  | time => cases h' with
    | time => rfl
    | null _ h => exact absurd rfl h.2.1
  | timePtr => cases h' with
    | timePtr => rfl
    | null _ h => exact absurd rfl h.2.2.1
  | null _ h => cases h' with
    | float => exact absurd rfl h.1
    | scalar => exact absurd rfl h.1
    | time => exact absurd rfl h.2.1
    | timePtr => exact absurd rfl h.2.2.1
    | null => rfl

theorem fieldRes_unique {P Q : Place → GoVal → JV → Prop} (hq : ∀ pl v a b, P pl v a → Q pl v b → a = b) {fd : FieldDecl} {k : EKind}
    {v : GoVal} {a b : JV} (h : FieldRes Γ P fd k v a) (h' : FieldRes Γ Q fd k v b) : a = b := by
  rcases h with ⟨ho, rfl⟩ | ⟨ho, h⟩
  · rcases h' with ⟨_, rfl⟩ | ⟨ho', _⟩
    · rfl
    · exact absurd ho ho'
  · rcases h' with ⟨ho', _⟩ | ⟨_, h'⟩
    · exact absurd ho' ho
    · rcases h with ⟨he, hm, d, h1, rfl⟩ | h <;> rcases h' with ⟨he', hm', d', h1', rfl⟩ | h'
      · rw [emptyDoc_unique h1 h1']
      · exfalso
        cases k with
        | scalar => cases he; exact h'.1 ‹_›
        | time => cases he; obtain ⟨t, h2, h3, _⟩ := h'; cases h2; simp_all
        | method n => exact hm n rfl
        | fixedBytes => cases he; obtain ⟨b, h2, ⟨x, h3, h4⟩, _⟩ := h'; cases h2; exact h4 (‹∀ x ∈ _, x = _› x h3)
        | list e => cases he; obtain ⟨es, docs, h2, _⟩ := h'; cases h2
        | uuid => cases he
        | uuidPtr => cases he
        | map e => cases he; obtain ⟨_, _, h2, _⟩ := h'; cases h2
        | ptr => cases he; obtain ⟨_, _, h2, _⟩ := h'; cases h2
        | ptr2 => cases he <;> (obtain ⟨_, _, h2, _⟩ := h'; cases h2)
        | timePtr => cases he; obtain ⟨_, h2, _⟩ := h'; cases h2
        | methodPtr => cases he; obtain ⟨_, _, h2, _⟩ := h'; cases h2
        | bytes => cases he; obtain ⟨_, h2, _⟩ := h'; cases h2
      · exfalso
        cases k with
        | scalar => cases he'; exact h.1 ‹_›
        | time => cases he'; obtain ⟨t, h2, h3, _⟩ := h; cases h2; simp_all
        | method n => exact hm' n rfl
        | fixedBytes => cases he'; obtain ⟨b, h2, ⟨x, h3, h4⟩, _⟩ := h; cases h2; exact h4 (‹∀ x ∈ _, x = _› x h3)
        | list e => cases he'; obtain ⟨es, docs, h2, _⟩ := h; cases h2
        | uuid => cases he'
        | uuidPtr => cases he'
        | map e => cases he'; obtain ⟨_, _, h2, _⟩ := h; cases h2
        | ptr => cases he'; obtain ⟨_, _, h2, _⟩ := h; cases h2
        | ptr2 => cases he' <;> (obtain ⟨_, _, h2, _⟩ := h; cases h2)
        | timePtr => cases he'; obtain ⟨_, h2, _⟩ := h; cases h2
        | methodPtr => cases he'; obtain ⟨_, _, h2, _⟩ := h; cases h2
        | bytes => cases he'; obtain ⟨_, h2, _⟩ := h; cases h2
      · cases k with
        | scalar => obtain ⟨_, d, h1, rfl⟩ := h; obtain ⟨_, d', h2, rfl⟩ := h'; rw [scalarDoc_unique h1 h2]
        | ptr => obtain ⟨g, d, rfl, h1, rfl⟩ := h; obtain ⟨g', d', he, h2, rfl⟩ := h'; cases he; rw [scalarDoc_unique h1 h2]
        | ptr2 => obtain ⟨g, d, rfl, h1, rfl⟩ := h; obtain ⟨g', d', he, h2, rfl⟩ := h'; cases he; rw [scalarDoc_unique h1 h2]
        | time => obtain ⟨g, rfl, _, rfl⟩ := h; obtain ⟨g', he, _, rfl⟩ := h'; cases he; rfl
        | timePtr => obtain ⟨g, rfl, rfl⟩ := h; obtain ⟨g', he, rfl⟩ := h'; cases he; rfl
        | uuid => obtain ⟨g, rfl, rfl⟩ := h; obtain ⟨g', he, rfl⟩ := h'; cases he; rfl
        | uuidPtr => obtain ⟨g, rfl, rfl⟩ := h; obtain ⟨g', he, rfl⟩ := h'; cases he; rfl
        | method n =>
          rcases h with ⟨hn, d, h1, rfl⟩ | ⟨hn, h1⟩ <;> rcases h' with ⟨hn', d', h2, rfl⟩ | ⟨hn', h2⟩
          · rw [hq _ _ _ _ h1 h2]
          · exact absurd hn' hn
          · exact absurd hn hn'
          · exact hq _ _ _ _ h1 h2
        | methodPtr n => obtain ⟨g, d, rfl, h1, rfl⟩ := h; obtain ⟨g', d', he, h2, rfl⟩ := h'; cases he; rw [hq _ _ _ _ h1 h2]
        | map e =>
          obtain ⟨kvs, docs, rfl, l1, h1, rfl⟩ := h
          obtain ⟨kvs', docs', he, l2, h2, rfl⟩ := h'
          cases he
          rw [docs_unique (P := fun kv => P (.elem true e) kv.2) (Q := fun kv => Q (.elem true e) kv.2) (fun kv => hq _ kv.2) l1 l2 h1 h2]
        | list e =>
          obtain ⟨es, docs, hl, l1, h1, rfl⟩ := h
          obtain ⟨es', docs', hl', l2, h2, rfl⟩ := h'
          cases listing_unique hl hl'
          rw [docs_unique (P := P (.elem true e)) (Q := Q (.elem true e)) (fun x => hq _ x) l1 l2 h1 h2]
        | bytes => obtain ⟨g, rfl, rfl⟩ := h; obtain ⟨g', he, rfl⟩ := h'; cases he; rfl
        | fixedBytes => obtain ⟨g, rfl, _, rfl⟩ := h; obtain ⟨g', he, _, rfl⟩ := h'; cases he; rfl

/-! ### declared types -/

/-- what the document of a value of a declared type is -/
def DeclRes (Γ : Env) (F : Nat → Option GoVal → JV → Prop) (P : Place → GoVal → JV → Prop) (n : Nat) (v : GoVal) (jv : JV) : Prop :=
  match Γ.decl n with
  | none => F n (some v) jv
  | some (.struct _ fields) => ∃ (gs : List GoVal) (ms : List (List (Str × JV))), v = .struct gs ∧ jv = .obj ms.flatten ∧
      gs.length = fields.length ∧ ms.length = fields.length ∧
      ∀ (i : Nat) (fd : FieldDecl) (g : GoVal) (m : List (Str × JV)), fields[i]? = some fd → gs[i]? = some g → ms[i]? = some m →
        P (.field fd) g (.obj m)
  | some (.alias u) =>
    match u with
    | .prim _ => ScalarDoc v jv
    | .time => ∃ tm s, v = .time tm ∧ Ext.timeText tm = some s ∧ jv = .str s
    | .uuid => ∃ b, v = .uuid b ∧ jv = .str (uuidText b)
    | .slice e => (v = .nil ∧ jv = .null) ∨ (e = .prim .byte ∧ ∃ b, v = .bytes b ∧ jv = .str (b64Encode b)) ∨
        (e ≠ .prim .byte ∧ ∃ es docs, Listing v es ∧ docs.length = es.length ∧
        (∀ (i : Nat) (x : GoVal) (d : JV), es[i]? = some x → docs[i]? = some d → P (.elem true e) x d) ∧ jv = .arr docs)
    | .array _ e => (e = .prim .byte ∧ ∃ b, v = .barr b ∧ jv = .str (b64Encode b)) ∨
        (e ≠ .prim .byte ∧ ∃ es docs, Listing v es ∧ docs.length = es.length ∧
        (∀ (i : Nat) (x : GoVal) (d : JV), es[i]? = some x → docs[i]? = some d → P (.elem true e) x d) ∧ jv = .arr docs)
    | .map e => (v = .nil ∧ jv = .null) ∨ (∃ kvs docs, v = .map kvs ∧ docs.length = kvs.length ∧
        (∀ (i : Nat) (kv : Str × GoVal) (d : JV), kvs[i]? = some kv → docs[i]? = some d → P (.elem true e) kv.2 d) ∧
        jv = .obj ((kvs.map (·.1)).zip docs))
    | .named m => P (.decl m) v jv
    | .sel m => P (.decl m) v jv
    | _ => False

theorem declRes_unique {P Q : Place → GoVal → JV → Prop} (hq : ∀ pl v a b, P pl v a → Q pl v b → a = b)
    (hF : ∀ n r a b, F n r a → F n r b → a = b) {n : Nat}
    {v : GoVal} {a b : JV} (h : DeclRes Γ F P n v a) (h' : DeclRes Γ F Q n v b) : a = b := by
  unfold DeclRes at h h'
  cases hd : Γ.decl n with
  | none => simp only [hd] at h h'; exact hF _ _ _ _ h h'
  | some d =>
    cases d with
    | struct strict fields =>
      simp only [hd] at h h'
      obtain ⟨gs, ms, rfl, rfl, l1, l2, h1⟩ := h
      obtain ⟨gs', ms', he, rfl, l1', l2', h2⟩ := h'
      cases he
      have : ms = ms' := by
        apply List.ext_getElem?
        intro i
        by_cases hi : i < fields.length
        · have e0 := List.getElem?_eq_getElem hi
          have e1 := List.getElem?_eq_getElem (l1.symm ▸ hi : i < gs.length)
          have e2 := List.getElem?_eq_getElem (l2.symm ▸ hi : i < ms.length)
          have e3 := List.getElem?_eq_getElem (l2'.symm ▸ hi : i < ms'.length)
          have := hq _ _ _ _ (h1 i _ _ _ e0 e1 e2) (h2 i _ _ _ e0 e1 e3)
          simp only [JV.obj.injEq] at this
          rw [e2, e3, this]
        · rw [List.getElem?_eq_none (by omega), List.getElem?_eq_none (by omega)]
      rw [this]
    | alias u =>
      simp only [hd] at h h'
      cases u with
      | prim => exact scalarDoc_unique h h'
      | time => obtain ⟨tm, s, rfl, h1, rfl⟩ := h; obtain ⟨tm', s', he, h2, rfl⟩ := h'; cases he; rw [h1] at h2; cases h2; rfl
      | uuid => obtain ⟨g, rfl, rfl⟩ := h; obtain ⟨g', he, rfl⟩ := h'; cases he; rfl
      | slice e =>
        rcases h with ⟨rfl, rfl⟩ | ⟨hb, b, rfl, rfl⟩ | ⟨hb, es, docs, hl, l1, h1, rfl⟩
        · rcases h' with ⟨_, rfl⟩ | ⟨hb, b, h, _⟩ | ⟨_, _, _, hl, _⟩
          · rfl
          · cases h
          · cases hl
        · rcases h' with ⟨h, _⟩ | ⟨hb', b, h, rfl⟩ | ⟨hb', _, _, hl, _⟩
          · cases h
          · cases h; rfl
          · exact absurd hb hb'
        · rcases h' with ⟨rfl, _⟩ | ⟨hb', b, h, rfl⟩ | ⟨hb', es', docs', hl', l2, h2, rfl⟩
          · cases hl
          · exact absurd hb' hb
          · cases listing_unique hl hl'
            rw [docs_unique (P := P (.elem true e)) (Q := Q (.elem true e)) (fun x => hq _ x) l1 l2 h1 h2]
      | array len e =>
        rcases h with ⟨hb, b, rfl, rfl⟩ | ⟨hb, es, docs, hl, l1, h1, rfl⟩
        · rcases h' with ⟨hb', b, h, rfl⟩ | ⟨hb', _, _, hl, _⟩
          · cases h; rfl
          · exact absurd hb hb'
        · rcases h' with ⟨hb', b, h, rfl⟩ | ⟨hb', es', docs', hl', l2, h2, rfl⟩
          · exact absurd hb' hb
          · cases listing_unique hl hl'
            rw [docs_unique (P := P (.elem true e)) (Q := Q (.elem true e)) (fun x => hq _ x) l1 l2 h1 h2]
      | map e =>
        rcases h with ⟨rfl, rfl⟩ | ⟨kvs, docs, rfl, l1, h1, rfl⟩
        · rcases h' with ⟨_, rfl⟩ | ⟨_, _, h, _⟩
          · rfl
          · cases h
        · rcases h' with ⟨h, _⟩ | ⟨kvs', docs', he, l2, h2, rfl⟩
          · cases h
          · cases he
            rw [docs_unique (P := fun kv => P (.elem true e) kv.2) (Q := fun kv => Q (.elem true e) kv.2) (fun kv => hq _ kv.2) l1 l2 h1 h2]
      | named m => exact hq _ _ _ _ h h'
      | sel m => exact hq _ _ _ _ h h'
      | star => exact h.elim
      | structT => exact h.elim

/-! ### elements -/

/-- what the document of an element is -/
inductive ElemRes (Γ : Env) (F : Nat → Option GoVal → JV → Prop) (P : Place → GoVal → JV → Prop) (o : Bool) (t : TExpr) (v : GoVal) (jv : JV) : Prop
  | prim {p : Prim} (ht : PrimName Γ t p) (h : ScalarDoc v jv)
  | time (tm : Time) (ht : t = .time) (hv : v = .time tm) (h : jv = .str (Ext.fmtTime layoutNano tm))
  | ptr {y : TExpr} {p : Prim} (ht : PtrTo Γ t y) (hy : IsPrim Γ y p) (h : (v = .nil ∧ jv = .null) ∨ ∃ g, v = .ptr g ∧ ScalarDoc g jv)
  | callPtr {y : TExpr} {n : Nat} (ht : t = .star y) (hy : NameOf y n) (hp : ∀ p, ¬ IsPrim Γ y p)
      (h : (v = .nil ∧ NilDoc Γ F n jv) ∨ ∃ g, v = .ptr g ∧ P (.decl n) g jv)
  | list {e : TExpr} (ho : o = true) (ht : ListOf Γ t e) (h : (v = .nil ∧ jv = .arr []) ∨ ∃ es docs, Listing v es ∧ docs.length = es.length ∧
      (∀ (i : Nat) (x : GoVal) (d : JV), es[i]? = some x → docs[i]? = some d → P (.elem false e) x d) ∧ jv = .arr docs)
  | name {n : Nat} (ht : NameOf t n) (hp : ∀ p, ¬ PrimName Γ t p) (hl : o = true → ∀ e, ¬ ListOf Γ t e) (h : P (.decl n) v jv)

def Res (Γ : Env) (F : Nat → Option GoVal → JV → Prop) (P : Place → GoVal → JV → Prop) : Place → GoVal → JV → Prop
  | .elem o t, v, jv => ElemRes Γ F P o t v jv
  | .decl n, v, jv => DeclRes Γ F P n v jv
  | .field fd, v, jv => ∃ k, FieldKind Γ fd.typ k ∧ FieldRes Γ P fd k v jv

theorem Res.ofDecl {P : Place → GoVal → JV → Prop} {n : Nat} {v : GoVal} {jv : JV} (h : DeclRes Γ F P n v jv) : Res Γ F P (.decl n) v jv := h

section
variable {P : Place → GoVal → JV → Prop} {n : Nat} {v : GoVal}

theorem declRes_struct {strict : Bool} {fields : List FieldDecl} {gs : List GoVal} {ms : List (List (Str × JV))}
    (hd : Γ.decl n = some (.struct strict fields)) (hl : gs.length = fields.length) (hm : ms.length = fields.length)
    (h : ∀ (i : Nat) (fd : FieldDecl) (g : GoVal) (m : List (Str × JV)), fields[i]? = some fd → gs[i]? = some g → ms[i]? = some m →
      P (.field fd) g (.obj m)) : DeclRes Γ F P n (.struct gs) (.obj ms.flatten) := by
  unfold DeclRes; rw [hd]; exact ⟨gs, ms, rfl, rfl, hl, hm, h⟩

theorem declRes_nil {u : TExpr} (hd : Γ.decl n = some (.alias u)) (hu : IsCollection u) : DeclRes Γ F P n .nil .null := by
  unfold DeclRes; rw [hd]
  rcases hu with ⟨e, rfl⟩ | ⟨e, rfl⟩
  · exact .inl ⟨rfl, rfl⟩
  · exact .inl ⟨rfl, rfl⟩

theorem declRes_list {u e : TExpr} {es : List GoVal} {docs : List JV} (hd : Γ.decl n = some (.alias u))
    (hb : e ≠ .prim .byte) (hu : u = .slice e ∨ ∃ len, u = .array len e) (hv : Listing v es) (hl : docs.length = es.length)
    (h : ∀ (i : Nat) (x : GoVal) (d : JV), es[i]? = some x → docs[i]? = some d → P (.elem true e) x d) : DeclRes Γ F P n v (.arr docs) := by
  unfold DeclRes; rw [hd]
  rcases hu with rfl | ⟨len, rfl⟩
  · exact .inr (.inr ⟨hb, es, docs, hv, hl, h, rfl⟩)
  · exact .inr ⟨hb, es, docs, hv, hl, h, rfl⟩

theorem declRes_map {e : TExpr} {kvs : List (Str × GoVal)} {docs : List JV} (hd : Γ.decl n = some (.alias (.map e)))
    (hl : docs.length = kvs.length)
    (h : ∀ (i : Nat) (kv : Str × GoVal) (d : JV), kvs[i]? = some kv → docs[i]? = some d → P (.elem true e) kv.2 d) :
    DeclRes Γ F P n (.map kvs) (.obj ((kvs.map (·.1)).zip docs)) := by
  unfold DeclRes; rw [hd]
  exact .inr ⟨kvs, docs, rfl, hl, h, rfl⟩

theorem declRes_name {m : Nat} {u : TExpr} {jv : JV} (hd : Γ.decl n = some (.alias u)) (hu : NameOf u m) (h : P (.decl m) v jv) :
    DeclRes Γ F P n v jv := by
  unfold DeclRes; rw [hd]
  cases hu <;> exact h
end

theorem enc_declRes {n : Nat} {v : GoVal} {jv : JV} (h : Enc Γ F (.decl n) v jv) : DeclRes Γ F (Enc Γ F) n v jv := by
  cases h with
  | foreign hd h => unfold DeclRes; rw [hd]; exact h
  | struct hd hl hm h => exact declRes_struct hd hl hm h
  | namedScalar hd h => unfold DeclRes; rw [hd]; exact h
  | namedTime hd h => unfold DeclRes; rw [hd]; exact ⟨_, _, rfl, h, rfl⟩
  | namedUUID b hd => unfold DeclRes; rw [hd]; exact ⟨_, rfl, rfl⟩
  | namedNil hd hu => exact declRes_nil hd hu
  | namedBytes b hd => unfold DeclRes; rw [hd]; exact .inr (.inl ⟨rfl, _, rfl, rfl⟩)
  | namedFixed b hd => unfold DeclRes; rw [hd]; exact .inl ⟨rfl, _, rfl, rfl⟩
  | namedList hd hb hu hv hl h => exact declRes_list hd hb hu hv hl h
  | namedMap hd hl h => exact declRes_map hd hl h
  | namedName hd hu h => exact declRes_name hd hu h

theorem enc_prim {n : Nat} {p : Prim} {v : GoVal} {jv : JV} (hd : Γ.decl n = some (.alias (.prim p))) (h : Enc Γ F (.decl n) v jv) :
    ScalarDoc v jv := by
  have := enc_declRes h
  unfold DeclRes at this; rw [hd] at this; exact this

theorem enc_primName {t : TExpr} {n : Nat} {p : Prim} {v : GoVal} {jv : JV} (ht : NameOf t n) (hp : PrimName Γ t p) (h : Enc Γ F (.decl n) v jv) :
    ScalarDoc v jv := by
  cases hp with
  | base hp =>
    cases hp with
    | self => cases ht
    | named hd => cases ht; exact enc_prim hd h
    | sel hd => cases ht; exact enc_prim hd h
  | chain hd hp =>
    cases ht
    have := enc_declRes h
    unfold DeclRes at this; rw [hd] at this
    cases hp with
    | self => exact this
    | named hd => exact enc_prim hd this
    | sel hd => exact enc_prim hd this

/-- the rules, read backwards, together with an induction hypothesis -/
theorem enc_res {I : Place → GoVal → JV → Prop} (step : ∀ pl v jv, Res Γ F (fun pl v jv => Enc Γ F pl v jv ∧ I pl v jv) pl v jv → I pl v jv)
    {pl : Place} {v : GoVal} {jv : JV} (h : Enc Γ F pl v jv) : Res Γ F (fun pl v jv => Enc Γ F pl v jv ∧ I pl v jv) pl v jv := by
  induction h with
  | scalar ht h => exact .prim ht h
  | time tm => exact .time tm rfl rfl rfl
  | nilScalar ht hy => exact .ptr ht hy (.inl ⟨rfl, rfl⟩)
  | ptrScalar ht hy h => exact .ptr ht hy (.inr ⟨_, rfl, h⟩)
  | nilPtr hy hp h => exact .callPtr rfl hy hp (.inl ⟨rfl, h⟩)
  | ptr hy hp h ih => exact .callPtr rfl hy hp (.inr ⟨_, rfl, h, step _ _ _ ih⟩)
  | nilList ht => exact .list rfl ht (.inl ⟨rfl, rfl⟩)
  | list ht hv hl h ih => exact .list rfl ht (.inr ⟨_, _, hv, hl, fun i x d h1 h2 => ⟨h i x d h1 h2, step _ _ _ (ih i x d h1 h2)⟩, rfl⟩)
  | name ht hp hl h ih =>
    rename_i t n v jv
    by_cases hpn : ∃ p, PrimName Γ t p
    · obtain ⟨p, hpn⟩ := hpn
      exact .prim hpn (enc_primName ht hpn h)
    · exact .name ht (fun p h => hpn ⟨p, h⟩) hl ⟨h, step _ _ _ ih⟩
  | foreign hd h => refine Res.ofDecl ?_; unfold DeclRes; rw [hd]; exact h
  | struct hd hl hm h ih => exact Res.ofDecl (declRes_struct hd hl hm fun i fd g m h1 h2 h3 => ⟨h i fd g m h1 h2 h3, step _ _ _ (ih i fd g m h1 h2 h3)⟩)
  | namedScalar hd h => refine Res.ofDecl ?_; unfold DeclRes; rw [hd]; exact h
  | namedTime hd h => refine Res.ofDecl ?_; unfold DeclRes; rw [hd]; exact ⟨_, _, rfl, h, rfl⟩
  | namedUUID b hd => refine Res.ofDecl ?_; unfold DeclRes; rw [hd]; exact ⟨_, rfl, rfl⟩
  | namedNil hd hu => exact Res.ofDecl (declRes_nil hd hu)
  | namedBytes b hd => refine Res.ofDecl ?_; unfold DeclRes; rw [hd]; exact .inr (.inl ⟨rfl, _, rfl, rfl⟩)
  | namedFixed b hd => refine Res.ofDecl ?_; unfold DeclRes; rw [hd]; exact .inl ⟨rfl, _, rfl, rfl⟩
  | namedList hd hb hu hv hl h ih => exact Res.ofDecl (declRes_list hd hb hu hv hl fun i x d h1 h2 => ⟨h i x d h1 h2, step _ _ _ (ih i x d h1 h2)⟩)
  | namedMap hd hl h ih => exact Res.ofDecl (declRes_map hd hl fun i kv d h1 h2 => ⟨h i kv d h1 h2, step _ _ _ (ih i kv d h1 h2)⟩)
  | namedName hd hu h ih => exact Res.ofDecl (declRes_name hd hu ⟨h, step _ _ _ ih⟩)
  | omitted h =>
    obtain ⟨k, hk, h'⟩ := id h
    exact ⟨k, hk, .inl ⟨h, rfl⟩⟩
  | empty hk hv ho h =>
    refine ⟨_, hk, .inr ⟨?_, .inl ⟨hv, ?_, _, h, rfl⟩⟩⟩
    · refine not_omitted hk fun _ => ⟨ho, ?_⟩
      rintro ⟨n, rfl⟩
      cases h with
      | null _ h => exact absurd rfl (h.2.2.2 n)
    · rintro n rfl
      cases h with
      | null _ h => exact absurd rfl (h.2.2.2 n)
  | scalarField hk hv h => exact ⟨_, hk, .inr ⟨not_omitted hk (fun h => by cases h; exact absurd (by assumption) hv), .inr ⟨hv, _, h, rfl⟩⟩⟩
  | ptrField hk h => exact ⟨_, hk, .inr ⟨not_omitted hk (fun h => by cases h), .inr ⟨_, _, rfl, h, rfl⟩⟩⟩
  | ptr2Field hk h => exact ⟨_, hk, .inr ⟨not_omitted hk (fun h' => by cases h'), .inr ⟨_, _, rfl, h, rfl⟩⟩⟩
  | timeField hk hz => exact ⟨_, hk, .inr ⟨not_omitted hk (fun h => by cases h; simp_all), .inr ⟨_, rfl, hz, rfl⟩⟩⟩
  | timePtrField hk => exact ⟨_, hk, .inr ⟨not_omitted hk (fun h => by cases h), .inr ⟨_, rfl, rfl⟩⟩⟩
  | uuidField hk => exact ⟨_, hk, .inr ⟨not_omitted hk (fun h => by cases h), .inr ⟨_, rfl, rfl⟩⟩⟩
  | uuidPtrField hk => exact ⟨_, hk, .inr ⟨not_omitted hk (fun h => by cases h), .inr ⟨_, rfl, rfl⟩⟩⟩
  | methodField hk hn ho h ih =>
    refine ⟨_, hk, .inr ⟨not_omitted hk (fun h => ?_), .inr (.inl ⟨hn, _, ⟨h, step _ _ _ ih⟩, rfl⟩)⟩⟩
    cases h with
    | method hz =>
      exact ⟨Bool.eq_false_iff.mpr fun ho' => (by cases isZero_unique hz (ho ho')), fun _ => hn⟩
  | methodPtrField hk h ih => exact ⟨_, hk, .inr ⟨not_omitted hk (fun h => by cases h), .inr ⟨_, _, rfl, ⟨h, step _ _ _ ih⟩, rfl⟩⟩⟩
  | spliced hk hn hz h ih =>
    refine ⟨_, hk, .inr ⟨not_omitted hk (fun h => ?_), .inr (.inr ⟨hn, h, step _ _ _ ih⟩)⟩⟩
    cases h with
    | method hz' => cases isZero_unique hz hz'
  | mapField hk hl h ih =>
    exact ⟨_, hk, .inr ⟨not_omitted hk (fun h => by cases h), .inr ⟨_, _, rfl, hl, fun i kv d h1 h2 => ⟨h i kv d h1 h2, step _ _ _ (ih i kv d h1 h2)⟩, rfl⟩⟩⟩
  | listField hk hv hl h ih =>
    exact ⟨_, hk, .inr ⟨not_omitted hk (fun h => by cases h; cases hv),
      .inr ⟨_, _, hv, hl, fun i kv d h1 h2 => ⟨h i kv d h1 h2, step _ _ _ (ih i kv d h1 h2)⟩, rfl⟩⟩⟩
  | bytesField hk => exact ⟨_, hk, .inr ⟨not_omitted hk (fun h => by cases h), .inr ⟨_, rfl, rfl⟩⟩⟩
  | fixedField hk hb =>
    refine ⟨_, hk, .inr ⟨not_omitted hk (fun h => ?_), .inr ⟨_, rfl, hb, rfl⟩⟩⟩
    cases h with
    | fixedBytes h => obtain ⟨x, hx, hx0⟩ := hb; exact absurd (h x hx) hx0

/-! ### together -/

omit [Ext] in
theorem nilDoc_unique (hF : ∀ n r a b, F n r a → F n r b → a = b) {n : Nat} {a b : JV} (h : NilDoc Γ F n a) (h' : NilDoc Γ F n b) : a = b := by
  cases h with
  | noFields hd => cases h' with
    | noFields => rfl
    | null hd' hs => rw [hd] at hd'; cases hd'; exact absurd rfl (hs _)
    | foreign hd' => rw [hd] at hd'; cases hd'
  | null hd hs => cases h' with
    | noFields hd' => rw [hd] at hd'; cases hd'; exact absurd rfl (hs _)
    | null => rfl
    | foreign hd' => rw [hd] at hd'; cases hd'
  | foreign hd h => cases h' with
    | noFields hd' => rw [hd] at hd'; cases hd'
    | null hd' => rw [hd] at hd'; cases hd'
    | foreign _ h' => exact hF _ _ _ _ h h'

omit [Ext] in
/-- kinds of elements exclude one another -/
theorem primName_ptr {t y : TExpr} {p : Prim} (h : PrimName Γ t p) (h' : Is Γ t (.star y)) : False := by
  cases h' with
  | self => cases h with | base h => cases h
  | named hd => cases h with
    | base h => cases h with | named hd' => rw [hd] at hd'; cases hd'
    | chain hd' h => rw [hd] at hd'; cases hd'; cases h

omit [Ext] in
theorem primName_list {t e : TExpr} {p : Prim} (h : PrimName Γ t p) (h' : ListOf Γ t e) : False := by
  obtain ⟨_, h' | ⟨n, h'⟩⟩ := h'
  all_goals
    cases h' with
    | self => cases h with | base h => cases h
    | named hd => cases h with
      | base h => cases h with | named hd' => rw [hd] at hd'; cases hd'
      | chain hd' h => rw [hd] at hd'; cases hd'; cases h

theorem ptr_list {t e y : TExpr} (h : Is Γ t (.star y)) (h' : ListOf Γ t e) : False := by
  obtain ⟨_, h' | ⟨n, h'⟩⟩ := h'
  all_goals
    have := is_unique h h' (by simp) (by simp) (by simp) (by simp) (by simp) (by simp)
    cases this

theorem list_unique {t e e' : TExpr} (h : ListOf Γ t e) (h' : ListOf Γ t e') : e = e' := by
  obtain ⟨_, h | ⟨n, h⟩⟩ := h <;> obtain ⟨_, h' | ⟨n', h'⟩⟩ := h'
  all_goals
    have := is_unique h h' (by simp) (by simp) (by simp) (by simp) (by simp) (by simp)
    cases this
    try rfl

theorem ptr_unique {t y y' : TExpr} (h : Is Γ t (.star y)) (h' : Is Γ t (.star y')) : y = y' := by
  have := is_unique h h' (by simp) (by simp) (by simp) (by simp) (by simp) (by simp)
  cases this; rfl

omit [Ext] in
theorem not_time_list {e : TExpr} (h : ListOf Γ .time e) : False := by
  obtain ⟨_, h | ⟨n, h⟩⟩ := h <;> cases h

omit [Ext] in
theorem not_star_list {y e : TExpr} (h : ListOf Γ (.star y) e) : False := by
  obtain ⟨_, h | ⟨n, h⟩⟩ := h <;> cases h

theorem elemRes_unique {P Q : Place → GoVal → JV → Prop} (hq : ∀ pl v a b, P pl v a → Q pl v b → a = b)
    (hPE : ∀ pl v a, P pl v a → Enc Γ F pl v a) (hQE : ∀ pl v a, Q pl v a → Enc Γ F pl v a)
    (hF : ∀ n r a b, F n r a → F n r b → a = b) {o : Bool} {t : TExpr} {v : GoVal} {a b : JV}
    (h : ElemRes Γ F P o t v a) (h' : ElemRes Γ F Q o t v b) : a = b := by
  -- a name declared as a pointer has no method
  have ptrName : ∀ {y : TExpr} {n : Nat} {v : GoVal} {jv : JV}, NameOf t n → PtrTo Γ t y → Enc Γ F (.decl n) v jv → False := by
    intro y n v jv hn hp he
    cases hp with
    | self => cases hn
    | named hd =>
      cases hn
      have := enc_declRes he
      unfold DeclRes at this; rw [hd] at this; exact this
  cases h with
  | prim ht h => cases h' with
    | prim _ h' => exact scalarDoc_unique h h'
    | time tm ht' => subst ht'; cases ht with | base h => cases h
    | ptr ht' => exact (primName_ptr ht ht').elim
    | callPtr ht' => subst ht'; exact (primName_ptr ht (.self _)).elim
    | list _ ht' => exact (primName_list ht ht').elim
    | name _ hp => exact absurd ht (hp _)
  | time tm ht hv h =>
    subst ht
    cases h' with
    | prim ht => cases ht with | base h => cases h
    | time tm' _ hv' h' => subst hv; cases hv'; rw [h, h']
    | ptr ht' => cases ht'
    | callPtr ht' => cases ht'
    | list _ ht' => exact (not_time_list ht').elim
    | name ht => cases ht
  | ptr ht hy h => cases h' with
    | prim ht' => exact (primName_ptr ht' ht).elim
    | time tm ht' => subst ht'; cases ht
    | ptr ht' hy' h' =>
      rcases h with ⟨rfl, rfl⟩ | ⟨g, rfl, h⟩ <;> rcases h' with ⟨h1, rfl⟩ | ⟨g', h1, h'⟩
      · rfl
      · cases h1
      · cases h1
      · cases h1; exact scalarDoc_unique h h'
    | callPtr ht' _ hp => subst ht'; cases ptr_unique ht (.self _); exact absurd hy (hp _)
    | list _ ht' => exact (ptr_list ht ht').elim
    | name hn _ _ h' => exact (ptrName hn ht (hQE _ _ _ h')).elim
  | callPtr ht hy hp h =>
    subst ht
    cases h' with
    | prim ht' => exact (primName_ptr ht' (.self _)).elim
    | time tm ht' => cases ht'
    | ptr ht' hy' => cases ptr_unique ht' (.self _); exact absurd hy' (hp _)
    | callPtr ht' hy' _ h' =>
      cases ht'
      have := hy.inj hy'
      subst this
      rcases h with ⟨rfl, h⟩ | ⟨g, rfl, h⟩ <;> rcases h' with ⟨h1, h'⟩ | ⟨g', h1, h'⟩
      · exact nilDoc_unique hF h h'
      · cases h1
      · cases h1
      · cases h1; exact hq _ _ _ _ h h'
    | list _ ht' => exact (not_star_list ht').elim
    | name hn => cases hn
  | list ho ht h => cases h' with
    | prim ht' => exact (primName_list ht' ht).elim
    | time tm ht' => subst ht'; exact (not_time_list ht).elim
    | ptr ht' => exact (ptr_list ht' ht).elim
    | callPtr ht' => subst ht'; exact (not_star_list ht).elim
    | list _ ht' h' =>
      rename_i e e'
      have := list_unique ht ht'
      subst this
      rcases h with ⟨rfl, rfl⟩ | ⟨es, docs, hl, l1, h1, rfl⟩ <;> rcases h' with ⟨hn, rfl⟩ | ⟨es', docs', hl', l2, h2, rfl⟩
      · rfl
      · cases hl'
      · subst hn; cases hl
      · cases listing_unique hl hl'
        rw [docs_unique (P := P (.elem false _)) (Q := Q (.elem false _)) (fun x => hq _ x) l1 l2 h1 h2]
    | name _ _ hl => exact absurd ht (hl ho _)
  | name hn hp hl h => cases h' with
    | prim ht => exact absurd ht (hp _)
    | time tm ht => subst ht; cases hn
    | ptr ht => exact (ptrName hn ht (hPE _ _ _ h)).elim
    | callPtr ht => subst ht; cases hn
    | list ho ht => exact absurd ht (hl ho _)
    | name hn' _ _ h' =>
      have := hn.inj hn'
      subst this
      exact hq _ _ _ _ h h'

/-- **A value has one document**: what encoding means is determined, provided it is for the
types that are not part of the package. -/
theorem enc_unique (hF : ∀ n r a b, F n r a → F n r b → a = b) {pl : Place} {v : GoVal} {a b : JV} (h : Enc Γ F pl v a) (h' : Enc Γ F pl v b) :
    a = b := by
  have step : ∀ pl v a, Res Γ F (fun pl v a => Enc Γ F pl v a ∧ ∀ b, Enc Γ F pl v b → a = b) pl v a → ∀ b, Enc Γ F pl v b → a = b := by
    intro pl v a hr b hb
    have hr' := enc_res (I := fun _ _ _ => True) (fun _ _ _ _ => trivial) hb
    cases pl with
    | elem o t => exact elemRes_unique (fun pl v a b h h' => h.2 b h'.1) (fun _ _ _ h => h.1) (fun _ _ _ h => h.1) hF hr hr'
    | decl n =>
      exact declRes_unique (P := fun pl v a => Enc Γ F pl v a ∧ ∀ b, Enc Γ F pl v b → a = b) (Q := fun pl v a => Enc Γ F pl v a ∧ True) (fun pl v a b h h' => h.2 b h'.1) hF hr hr'
    | field fd =>
      obtain ⟨k, hk, hr⟩ := hr
      obtain ⟨k', hk', hr'⟩ := hr'
      cases fieldKind_unique hk hk'
      exact fieldRes_unique (fun pl v a b h h' => h.2 b h'.1) hr hr'
  exact step pl v a (enc_res step h) b h'

/-- the rules, read backwards -/
theorem enc_cases {pl : Place} {v : GoVal} {jv : JV} (h : Enc Γ F pl v jv) : Res Γ F (fun pl v jv => Enc Γ F pl v jv ∧ True) pl v jv :=
  enc_res (fun _ _ _ _ => trivial) h

end VJ
