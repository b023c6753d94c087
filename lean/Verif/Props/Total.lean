import Verif.Proof.TotalFill
import Verif.Props.Collections
import Mathlib.Data.List.Forall2

/-!
# C11, C14, C20: decoding always ends, without a panic
-/

namespace VJ
set_option linter.unusedSectionVars false
set_option linter.unusedSimpArgs false

section
variable [Ext]

/-- **C20, every outcome.**  Decoding any document into any value of any type ends: it returns
and leaves a value of the type, or it panics, and then the document has too long a base64 text
for a fixed-length byte array of the type. -/
theorem C20_outcomes {Γ : Env} {X : Nat → GoVal → Prop} {S : Nat → Prop} (hP : Package Γ X S)
    {n : Nat} (hn : S n) (doc : JV) {old : GoVal} (hold : HasType Γ X (.named n) old) :
    (∃ e new, Fills Γ n doc old e new ∧ HasType Γ X (.named n) new) ∨
    (FillsTo Γ n doc old .panic ∧ Overflows Γ (.named n) doc) := by
  rcases fill_term hP hn doc id old hold with h | ⟨hB, k, hk⟩
  · obtain ⟨k, r, h1, h2⟩ := h.ok
    exact Or.inl ⟨r.1, r.2, ⟨k, h1⟩, h2⟩
  · exact Or.inr ⟨⟨by simp, k, hk k (Nat.le_refl _)⟩, hB⟩

theorem fills_fillsTo {Γ : Env} {n : Nat} {doc : JV} {old new : GoVal} {e : Option Err} (h : Fills Γ n doc old e new) :
    FillsTo Γ n doc old (.ok (e, new)) := by
  obtain ⟨k, hk⟩ := h
  exact ⟨by simp, k, hk⟩

/-- **C20, no overflow, no panic**: a document without too long a text returns. -/
theorem C20_decode_returns {Γ : Env} {X : Nat → GoVal → Prop} {S : Nat → Prop} (hP : Package Γ X S)
    {n : Nat} (hn : S n) {doc : JV} (hdoc : ¬ Overflows Γ (.named n) doc) {old : GoVal} (hold : HasType Γ X (.named n) old) :
    ∃ e new, Fills Γ n doc old e new ∧ HasType Γ X (.named n) new := by
  rcases C20_outcomes hP hn doc hold with h | ⟨_, h⟩
  · exact h
  · exact absurd h hdoc

/-- **C20, the only panic** a decode can end in is the overflow of a fixed-length byte array. -/
theorem C20_only_panic {Γ : Env} {X : Nat → GoVal → Prop} {S : Nat → Prop} (hP : Package Γ X S)
    {n : Nat} (hn : S n) {doc : JV} {old : GoVal} (hold : HasType Γ X (.named n) old) (h : FillsTo Γ n doc old .panic) :
    Overflows Γ (.named n) doc := by
  rcases C20_outcomes hP hn doc hold with ⟨e, new, h1, _⟩ | ⟨_, ho⟩
  · cases fillsTo_unique h (fills_fillsTo h1)
  · exact ho

/-- **C20, what is left**: whatever a decode returns, with or without an error, the receiver is
again a value of its type. -/
theorem C20_typed {Γ : Env} {X : Nat → GoVal → Prop} {S : Nat → Prop} (hP : Package Γ X S)
    {n : Nat} (hn : S n) {doc : JV} {old new : GoVal} {e : Option Err} (hold : HasType Γ X (.named n) old)
    (h : Fills Γ n doc old e new) : HasType Γ X (.named n) new := by
  rcases C20_outcomes hP hn doc hold with ⟨e', new', h1, h2⟩ | ⟨hp, _⟩
  · cases (fills_unique h h1).2; exact h2
  · cases fillsTo_unique hp (fills_fillsTo h)

/-- **C20, exactly, for a declared type `[len]byte`**: it panics on the texts that are too long. -/
theorem C20_named_bytes_exactly {Γ : Env} {n len : Nat} (hd : Γ.decl n = some (.alias (.array len (.prim .byte)))) (doc : JV)
    {old : List UInt8} (hold : old.length = len) :
    FillsTo Γ n doc (.barr old) .panic ↔ ∃ s, doc = .str s ∧ len < (b64Decode s).1.length := by
  have hfill : ∀ k, (Γ.methods (k + 1) n).fill doc (.barr old) = bytesFill (some len) doc (.barr old) := by
    intro k
    rw [methods_fill hd]
    simp [genFill, TExpr.isByte, runFill]
  have hex := fixed_fill (Γ := Γ) (B := Overflows Γ (.array len (.prim .byte)) doc) id hold
  constructor
  · rintro ⟨_, k, hk⟩
    rcases hex with ⟨ho, _⟩ | ⟨e, b, h, _⟩
    · cases ho with
      | bytes h => exact ⟨_, rfl, h⟩
      | array _ h =>
        cases h with
        | «alias» he | field he | inline he => cases he
      | «alias» he | field he | inline he => cases he
    · cases k with
      | zero => cases hk
      | succ k => rw [hfill, h] at hk; cases hk
  · rintro ⟨s, rfl, hs⟩
    refine ⟨by simp, 1, ?_⟩
    rw [hfill]
    simp [bytesFill, JV.isNull, JV.getStr, hs]

/-- without fixed-length byte arrays no document overflows -/
theorem overflows_fixed {Γ : Env} {X : Nat → GoVal → Prop} {S : Nat → Prop} (hP : Package Γ X S) (hF : NoFixedBytes Γ S)
    {t : TExpr} {v : JV} (h : Overflows Γ t v) : Good S t → t.fixedBytes = true := by
  induction h with
  | bytes => intro _; rfl
  | star _ ih | slice _ _ ih | map _ _ ih => exact fun hg => ih ⟨hg.1, hg.2⟩
  | array _ _ ih => intro hg; simp [TExpr.fixedBytes, ih ⟨hg.1, hg.2⟩]
  | «alias» he hd _ ih =>
    intro hg
    have := ih (hP.types (hg.name he) hd (by simp [Decl.types]))
    rw [hF _ _ _ (hg.name he) hd (by simp [Decl.types])] at this; cases this
  | field he hd hf _ _ _ _ ih | inline he hd hf _ _ ih =>
    intro hg
    have hm := List.mem_map_of_mem (f := fun fd : FieldDecl => fd.typ) hf
    have := ih (hP.types (hg.name he) hd hm)
    rw [hF _ _ _ (hg.name he) hd hm] at this; cases this

/-- **C20, partial.**  In a package without fixed-length byte arrays, decoding any document
into any value of any type returns: it ends, does not panic, and leaves a value of the type.
Missing: fixed-length byte arrays, for which the claim is false
(`Examples.C20_fixed_bytes_panic`); `C20_outcomes` says what happens with them. -/
theorem C20_decode_returns_partial {Γ : Env} {X : Nat → GoVal → Prop} {S : Nat → Prop} (hP : Package Γ X S)
    (hF : NoFixedBytes Γ S) {n : Nat} (hn : S n) (doc : JV) {old : GoVal} (hold : HasType Γ X (.named n) old) :
    ∃ e new, Fills Γ n doc old e new ∧ HasType Γ X (.named n) new :=
  C20_decode_returns hP hn (fun h => nomatch overflows_fixed hP hF h ⟨by simp [TExpr.names, hn], rfl⟩) hold

/-- **C20, no other outcome**: in particular no panic. -/
theorem C20_no_panic_partial {Γ : Env} {X : Nat → GoVal → Prop} {S : Nat → Prop} (hP : Package Γ X S)
    (hF : NoFixedBytes Γ S) {n : Nat} (hn : S n) (doc : JV) {old : GoVal} (hold : HasType Γ X (.named n) old) :
    ¬ FillsTo Γ n doc old .panic ∧ ∀ r, FillsTo Γ n doc old r → ∃ e new, r = .ok (e, new) ∧ HasType Γ X (.named n) new := by
  obtain ⟨e, new, h1, h2⟩ := C20_decode_returns_partial hP hF hn doc hold
  have h1' := fills_fillsTo h1
  refine ⟨fun h => ?_, fun r hr => ⟨e, new, fillsTo_unique hr h1', h2⟩⟩
  have := fillsTo_unique h h1'
  cases this

/-- Any number of decodes into the same receiver, whether they succeed or fail: each of them
returns. -/
inductive History (Γ : Env) (n : Nat) : GoVal → List JV → GoVal → Prop
  | nil (s : GoVal) : History Γ n s [] s
  | cons {s s' s'' : GoVal} {doc : JV} {docs : List JV} {e : Option Err} (h : Fills Γ n doc s e s')
      (hr : History Γ n s' docs s'') : History Γ n s (doc :: docs) s''

theorem C20_history_returns_partial {Γ : Env} {X : Nat → GoVal → Prop} {S : Nat → Prop} (hP : Package Γ X S)
    (hF : NoFixedBytes Γ S) {n : Nat} (hn : S n) : ∀ (docs : List JV) {old : GoVal}, HasType Γ X (.named n) old →
    ∃ new, History Γ n old docs new ∧ HasType Γ X (.named n) new
  | [], old, h => ⟨old, .nil _, h⟩
  | d :: ds, old, h => by
    obtain ⟨e, s, h1, h2⟩ := C20_decode_returns_partial hP hF hn d h
    obtain ⟨new, h3, h4⟩ := C20_history_returns_partial hP hF hn ds h2
    exact ⟨new, .cons h1 h3, h4⟩

/-- **C20, histories**: after any decodes the receiver is a value of its type. -/
theorem C20_history_typed {Γ : Env} {X : Nat → GoVal → Prop} {S : Nat → Prop} (hP : Package Γ X S) {n : Nat} (hn : S n)
    {docs : List JV} {old new : GoVal} (hold : HasType Γ X (.named n) old) (h : History Γ n old docs new) :
    HasType Γ X (.named n) new := by
  induction h with
  | nil => exact hold
  | cons h _ ih => exact ih (C20_typed hP hn hold h)

/-! ## C11 -/

/-- **C11.**  A slice field with any storage left from before: decoding any document into it
returns, whatever the length of the array and whatever the length and capacity of the old
slice; what it leaves is a slice of the right element type.  (Except for too long a base64 text
for a fixed-length byte array inside an element.) -/
theorem C11_slice_storage {Γ : Env} {X : Nat → GoVal → Prop} {S : Nat → Prop} (hP : Package Γ X S)
    {m : Nat} {fd : FieldDecl} (hm : SingleField Γ m fd) (hSm : S m) {elt : TExpr} (ht : fd.typ = .slice elt)
    (hb : elt ≠ .prim .byte) {es spare : List GoVal} (hes : ∀ c ∈ es, HasType Γ X elt c) (hsp : ∀ c ∈ spare, HasType Γ X elt c)
    {doc : JV} (hdoc : ¬ Overflows Γ (.named m) doc) :
    (¬ FillsTo Γ m doc (.struct [.slice es spare]) .panic) ∧
    ∃ e new, Fills Γ m doc (.struct [.slice es spare]) e (.struct [new]) ∧ HasType Γ X (.slice elt) new := by
  have hold : HasType Γ X (.named m) (.struct [.slice es spare]) := by
    refine .struct (.named m) hm rfl ?_
    intro i fd' g hi hj
    cases i with
    | zero => simp at hi hj; subst hi; subst hj; rw [ht]; exact .slice hb hes hsp
    | succ i => simp at hi
  refine ⟨fun h => hdoc (C20_only_panic hP hSm hold h), ?_⟩
  obtain ⟨e, new, h1, h2⟩ := C20_decode_returns hP hSm hdoc hold
  obtain ⟨gs, rfl, hlen, hty⟩ := h2.of_struct (.named m) hm
  match gs, hlen with
  | [g], _ => exact ⟨e, g, h1, by have := hty 0 fd g rfl rfl; rw [ht] at this; exact this⟩

/-- **C11, capacity**: a successful decode keeps the old storage when it is large enough for
the array, and otherwise has new storage of exactly the length of the array; nothing outside
is touched. -/
theorem C11_capacity {Γ : Env} {n : Nat} {doc : JV} {fd : FieldDecl} {es spare : List GoVal} {new : GoVal} {elt : TExpr}
    (h : FieldAfter Γ n doc fd (.slice es spare) new) (hn : fd.tags.jsonName ≠ str "-") (hn' : fd.tags.jsonName ≠ [])
    (ht : Is Γ fd.typ (.slice elt)) (hb : elt ≠ .prim .byte) (hk : KeepsErrors Γ fd.typ) {l : List JV}
    (hw : doc.get fd.tags.jsonName = some (.arr l)) :
    ∃ es' spare', new = .slice es' spare' ∧ es'.length = l.length ∧
      (l.length ≤ es.length + spare.length → spare' = (es ++ spare).drop l.length ∧
        es'.length + spare'.length = es.length + spare.length) ∧
      (es.length + spare.length < l.length → spare' = []) := by
  have hdec := sliceField (l := []) h hn hn' ht hb hk hw (by simp)
  obtain ⟨l', z, cells, news, hl', rfl, _, hst, hlen, _, _⟩ := decodes_slice_inv hb ht hdec
  cases hl'
  refine ⟨news, _, rfl, hlen, ?_, ?_⟩
  · intro hle
    cases hst with
    | grow h => omega
    | reuse _ => refine ⟨rfl, ?_⟩; simp; omega
  · intro hlt
    cases hst with
    | grow h => simp
    | reuse _ => omega

/-! ## C14, C18: what a failing field holds -/

theorem runExtr_place {M : Nat → Methods} {x : Extr} (hx : x.usesPlace = false) {i : Nat} {v : JV} {fld : GoVal} {tv : TV}
    (h : runExtr M x i v fld = .ok tv) : (∃ e, tv = .ret e fld) ∨ ∃ r, tv = .done r fld := by
  cases x with
  | int | uint | float | bool | strUnchecked =>
    simp only [runExtr, Out.ok.injEq] at h; exact Or.inr ⟨_, h.symm⟩
  | strChecked path =>
    simp only [runExtr] at h
    split at h
    · cases h; exact Or.inr ⟨_, rfl⟩
    · cases h; exact Or.inl ⟨_, rfl⟩
  | time j l =>
    simp only [runExtr] at h
    split at h
    · cases h; exact Or.inl ⟨_, rfl⟩
    · cases h; exact Or.inr ⟨_, rfl⟩
  | uuid j =>
    simp only [runExtr] at h
    split at h
    · cases h; exact Or.inl ⟨_, rfl⟩
    · cases h; exact Or.inr ⟨_, rfl⟩
  | nestedFresh t =>
    simp only [runExtr] at h
    obtain ⟨z, _, h⟩ := Out.bind_eq_ok.1 h
    obtain ⟨r, _, h⟩ := Out.bind_eq_ok.1 h
    cases h; exact Or.inr ⟨_, rfl⟩
  | bytes len =>
    simp only [runExtr] at h
    obtain ⟨r, _, h⟩ := Out.bind_eq_ok.1 h
    obtain ⟨e, d⟩ := r
    cases e with
    | some e => cases h; exact Or.inl ⟨_, rfl⟩
    | none => cases h; exact Or.inr ⟨_, rfl⟩
  | array json len elt x brk st =>
    simp only [runExtr] at h
    split at h
    · cases h; exact Or.inl ⟨_, rfl⟩
    · split at h
      · cases h; exact Or.inl ⟨_, rfl⟩
      · obtain ⟨z, _, h⟩ := Out.bind_eq_ok.1 h
        obtain ⟨r, _, h⟩ := Out.bind_eq_ok.1 h
        obtain ⟨stop, n, cells⟩ := r
        cases stop with
        | fin => cases h; exact Or.inr ⟨_, rfl⟩
        | ret e => cases h; exact Or.inl ⟨_, rfl⟩
        | brk e =>
          simp only at h
          split at h <;> cases h <;> exact Or.inr ⟨_, rfl⟩
  | nestedInPlace _ | slice _ _ _ _ _ _ | map _ _ _ _ => cases hx

/-- a field whose statements do not work in place is unchanged when it fails -/
theorem runField_err_keeps {M : Nat → Methods} {f : FieldFill} (hx : f.x.usesPlace = false) {v : JV} {g g' : GoVal} {e : Err}
    (h : runField M f v g = .ok (some e, g')) : g' = g := by
  unfold runField at h
  simp only at h
  split at h
  · obtain ⟨tv, h1, h2⟩ := Out.bind_eq_ok.1 h
    rcases runExtr_place hx h1 with ⟨e', rfl⟩ | ⟨r, rfl⟩
    · cases h2; rfl
    · cases r with
      | error e' =>
        simp only at h2
        split at h2
        · cases h2; rfl
        · cases h2
      | ok val =>
        simp only at h2
        split at h2
        · cases h2; rfl
        · obtain ⟨r, _, h3⟩ := Out.bind_eq_ok.1 h2
          cases h3
  · split at h
    · cases h
    · cases h; rfl
    · rename_i d oa _
      cases hoa : (oa && (if f.json = [] then some v else v.get f.json).isSome) <;> simp only [hoa] at h <;> cases h

/-- the types of field that are decoded in place: named structs (and other types with their
own method), slices and maps -/
def InPlaceType (Γ : Env) (t : TExpr) : Prop :=
  (∃ n, Calls Γ t n) ∨ (∃ elt, Is Γ t (.slice elt) ∧ elt ≠ .prim .byte) ∨ (∃ val, Is Γ t (.map val)) ∨ t = .structT

theorem field_usesPlace {Γ : Env} {k : Nat} {fd : FieldDecl} {f : FieldFill} (hg : genFieldFill Γ k fd = .ok (some f))
    (ht : ¬ InPlaceType Γ fd.typ) (hp : fd.typ ≠ .star .structT) : f.x.usesPlace = false := by
  have hplan := field_plan hg
  have hpe : (Fld.prepare Γ true fd.typ fd.tags false false).expr = pointee fd.typ := prepare_expr ..
  generalize f.x = x, f.store = st at hplan
  have hval : (∀ t, fd.typ ≠ .star t) → pointee fd.typ = fd.typ := by
    intro h
    cases h' : fd.typ <;> first | rfl | exact absurd h' (h _)
  have key : (∀ t, fd.typ ≠ .star t) → ∀ b, Plan Γ (Fld.prepare Γ true fd.typ fd.tags false false) (.const fd.tags.jsonName) x b →
      x.usesPlace = false := by
    intro hs b h
    rw [hval hs] at hpe
    cases h with
    | prim h hx => exact Plan.noPlace.prim_noPlace hx
    | fresh h hf => rfl
    | inPlace h hf => rw [hpe] at h; exact absurd (Or.inl ⟨_, h⟩) ht
    | anon h => rw [hpe] at h; exact absurd (Or.inr (Or.inr (Or.inr h))) ht
    | time | uuid | bytes | fixedBytes | array => rfl
    | slice h hb => rw [hpe] at h; exact absurd (Or.inr (Or.inl ⟨_, h, hb⟩)) ht
    | map h => rw [hpe] at h; exact absurd (Or.inr (Or.inr (Or.inl ⟨_, h⟩))) ht
  cases hplan with
  | @ptr t ht' h =>
    have hs : (Fld.prepare Γ true fd.typ fd.tags false false).isStar = true := by rw [ht']; rfl
    rw [ht'] at hpe
    cases h with
    | prim h hx => exact Plan.noPlace.prim_noPlace hx
    | fresh h hf => rfl
    | anon h => rw [ht', hpe] at h; rw [ht'] at hp; exact absurd (by rw [show t = .structT from h]) hp
    | time | uuid | bytes | fixedBytes | array => rfl
    | slice h hb _ hf =>
      rw [hs] at hf
      rcases hf with h' | h'
      · cases h'.2
      · cases h'.1
    | map h hf => rw [hs] at hf; cases hf.2
  | filled hs h => exact key hs _ h
  | val hs h => exact key hs _ h
  | named h hx' hu =>
    rcases hx' with ⟨p, _, hp⟩ | ⟨_, l, _, rfl⟩ | ⟨_, rfl⟩
    · exact Plan.noPlace.prim_noPlace hp
    · rfl
    · rfl

/-- **C14/C18.**  When decoding a field fails, a field that is not a struct, slice or map is
what it was before. -/
theorem C18_failing_field_kept {Γ : Env} {m : Nat} {fd : FieldDecl} (hm : SingleField Γ m fd) (ht : ¬ InPlaceType Γ fd.typ)
    (hp : fd.typ ≠ .star .structT) {doc : JV} {old new : GoVal} {e : Err}
    (h : Fills Γ m doc (.struct [old]) (some e) (.struct [new])) : new = old := by
  obtain ⟨k, h⟩ := h
  cases k with
  | zero => simp [Env.methods, Methods.loop] at h
  | succ k =>
    rw [methods_fill hm] at h
    obtain ⟨ir, h1, h2⟩ := Out.bind_eq_ok.1 h
    simp only [genFill] at h1
    obtain ⟨fs, h3, h4⟩ := Out.bind_eq_ok.1 h1
    simp only [Out.pure_eq, Out.ok.injEq] at h4
    subst h4
    simp only [genFields] at h3
    obtain ⟨f, hf, h3⟩ := Out.bind_eq_ok.1 h3
    obtain ⟨fs', h4, h3⟩ := Out.bind_eq_ok.1 h3
    cases h4
    cases h3
    simp only [runFill] at h2
    split at h2
    · simp at h2; exact h2.2.symm
    · obtain ⟨⟨e0, gs⟩, h5, h6⟩ := Out.bind_eq_ok.1 h2
      simp only [Out.pure_eq, Out.ok.injEq, Prod.mk.injEq, GoVal.struct.injEq] at h6
      obtain ⟨rfl, rfl⟩ := h6
      cases f with
      | none => simp [runFields] at h5; 
      | some f =>
        simp only [runFields] at h5
        obtain ⟨r', h7, h8⟩ := Out.bind_eq_ok.1 h5
        obtain ⟨e', g'⟩ := r'
        cases e' with
        | none => simp at h8
        | some e' =>
          simp at h8
          obtain ⟨rfl, rfl⟩ := h8
          exact runField_err_keeps (field_usesPlace hf ht hp) h7

theorem field_array_plan {Γ : Env} {k : Nat} {fd : FieldDecl} {f : FieldFill} (hg : genFieldFill Γ k fd = .ok (some f)) {n : Nat}
    {elt : TExpr} (ht : Is Γ (pointee fd.typ) (.array n elt)) (hb : elt ≠ .prim .byte) :
    ∃ j x b st, f.x = .array j n elt x b st := by
  have hpe : (Fld.prepare Γ true fd.typ fd.tags false false).expr = pointee fd.typ := prepare_expr ..
  have hplan := field_plan hg
  have key : ∀ x b, Plan Γ (Fld.prepare Γ true fd.typ fd.tags false false) (.const fd.tags.jsonName) x b →
      ∃ j x' b' st, x = .array j n elt x' b' st := by
    intro x b h
    cases h with
    | prim h hx =>
      rw [hpe] at h
      generalize pointee fd.typ = e at h ht
      cases ht with
      | self => cases h with | base h => cases h
      | named hd =>
        cases h with
        | base h => cases h with | named h => rw [hd] at h; cases h
        | chain hn h => rw [hd] at hn; cases hn; cases h
    | fresh h hf => rw [hpe] at h; exact absurd h (is_calls ht (by simp) (by simp) (by simp) (by simp) _)
    | inPlace h hf => rw [hpe] at h; exact absurd h (is_calls ht (by simp) (by simp) (by simp) (by simp) _)
    | anon h => rw [hpe] at h; rw [h] at ht; cases ht
    | time h => rw [hpe] at h; cases is_unique h ht (by simp) (by simp) (by simp) (by simp) (by simp) (by simp)
    | uuid h => rw [hpe] at h; cases is_unique h ht (by simp) (by simp) (by simp) (by simp) (by simp) (by simp)
    | bytes h => rw [hpe] at h; cases is_unique h ht (by simp) (by simp) (by simp) (by simp) (by simp) (by simp)
    | fixedBytes h =>
      rw [hpe] at h
      cases is_unique h ht (by simp) (by simp) (by simp) (by simp) (by simp) (by simp)
      exact absurd rfl hb
    | slice h => rw [hpe] at h; cases is_unique h ht (by simp) (by simp) (by simp) (by simp) (by simp) (by simp)
    | map h => rw [hpe] at h; cases is_unique h ht (by simp) (by simp) (by simp) (by simp) (by simp) (by simp)
    | array h =>
      rw [hpe] at h
      cases is_unique h ht (by simp) (by simp) (by simp) (by simp) (by simp) (by simp)
      exact ⟨_, _, _, _, rfl⟩
  generalize f.x = x, f.store = st at hplan
  cases hplan with
  | ptr _ h => exact key _ _ h
  | filled _ h => exact key _ _ h
  | val _ h => exact key _ _ h
  | named h => cases is_unique h ht (by simp) (by simp) (by simp) (by simp) (by simp) (by simp)

/-- **C14, the other half.**  A document with an array of another length for a field that is a
fixed-length array, or a pointer to one, is rejected, and the field keeps its value. -/
theorem C14_wrong_length_rejected {Γ : Env} {m n : Nat} {fd : FieldDecl} {elt : TExpr} (hm : SingleField Γ m fd)
    (hdec : HasDecoder Γ m) (hn : fd.tags.jsonName ≠ str "-") (hn' : fd.tags.jsonName ≠ [])
    (ht : Is Γ (pointee fd.typ) (.array n elt)) (hb : elt ≠ .prim .byte) {doc : JV} {l : List JV}
    (hw : doc.get fd.tags.jsonName = some (.arr l)) (hl : l.length ≠ n) (old : GoVal) :
    ∃ e, Fills Γ m doc (.struct [old]) (some e) (.struct [old]) := by
  obtain ⟨d, k, ir, hd, hg⟩ := hdec
  rw [hm] at hd
  cases hd
  have hg' := hg
  simp only [genFill] at hg
  obtain ⟨fs, h3, h4⟩ := Out.bind_eq_ok.1 hg
  simp only [Out.pure_eq, Out.ok.injEq] at h4
  subst h4
  simp only [genFields] at h3
  obtain ⟨f, hf, h3⟩ := Out.bind_eq_ok.1 h3
  obtain ⟨fs', h4, h3⟩ := Out.bind_eq_ok.1 h3
  cases h4
  cases h3
  suffices h : ∃ e, runFill (Γ.methods k) (.struct [fd.tags.jsonName] false [f]) doc (.struct [old]) = .ok (some e, .struct [old]) by
    obtain ⟨e, h⟩ := h
    refine ⟨e, k + 1, ?_⟩
    rw [methods_fill hm, hg']
    exact h
  simp only [runFill]
  cases validate [fd.tags.jsonName] false doc with
  | some e => exact ⟨e, rfl⟩
  | none =>
    simp only
    cases f with
    | none => exact absurd (genFieldFill_none hf) hn
    | some f =>
      obtain ⟨j, x, b, st, hx⟩ := field_array_plan hf ht hb
      obtain ⟨hj, _⟩ := genFieldFill_some hf
      refine ⟨newParsingError j (.plain .lenMismatch), ?_⟩
      simp only [runFields, runField, hj, if_neg hn', hw, JV.isNull, Bool.and_false, hx, runExtr, JV.getArr, if_pos hl,
        Bool.false_eq_true, if_false]
      rfl

/-- **C14, the other half, for named types.** -/
theorem C14_named_wrong_length_rejected {Γ : Env} {n len : Nat} {elt : TExpr} (hd : Γ.decl n = some (.alias (.array len elt)))
    (hdec : HasDecoder Γ n) (hb : elt ≠ .prim .byte) {l : List JV} (hl : l.length ≠ len) (old : GoVal) :
    ∃ e, Fills Γ n (.arr l) old (some e) old := by
  obtain ⟨d, k, ir, hd', hg⟩ := hdec
  rw [hd] at hd'
  cases hd'
  have hg' := hg
  have hby : elt.isByte = false := by
    cases h : elt.isByte with
    | false => rfl
    | true => exact absurd (isByte_iff.1 h) hb
  obtain ⟨x, rfl⟩ : ∃ x, ir = .list (some len) elt x := by
    simp only [genFill, hby] at hg
    rw [if_neg (by simp)] at hg
    split at hg
    · cases hg
    · obtain ⟨r, _, hg⟩ := Out.bind_eq_ok.1 hg
      split at hg
      · cases hg
      · split at hg <;> cases hg
        exact ⟨_, rfl⟩
  refine ⟨.plain (.wrongCount len l.length), k + 1, ?_⟩
  rw [methods_fill hd, hg']
  simp only [Out.ok_bind, runFill, JV.isNull, JV.getArr, Bool.false_eq_true, if_false, if_pos (Ne.symm hl)]

end

namespace Examples
open Sample
attribute [local instance] Sample.ext

/-- the types of the sample package without fixed-length byte arrays -/
def plainNames : List Nat := [0, 1, 2, 3, 4, 5, 10, 11, 12, 13, 14, 15, 20, 21, 22, 23, 24, 25, 26, 28, 30, 31, 32, 33, 34, 35]
def PlainNames (n : Nat) : Prop := n ∈ plainNames
def NoForeign (_ : Nat) (_ : GoVal) : Prop := False
def rank (n : Nat) : Nat := if n = 22 then 2 else if n ∈ [3, 5, 21, 33] then 1 else 0

theorem forall_plain {P : Nat → Prop} (h : plainNames.Forall P) : ∀ n, PlainNames n → P n :=
  fun _ hn => List.forall_iff_forall_mem.1 h _ hn

set_option maxRecDepth 200000 in
/-- the sample package satisfies the hypotheses of the theorems above -/
theorem plain_package : Package Γ NoForeign PlainNames where
  closed n d t m hn hd ht hm := by
    have h : ∀ n ∈ plainNames, ∀ d ∈ Γ.decl n, ∀ t ∈ d.types, ∀ m ∈ t.names, m ∈ plainNames := by decide
    exact h n hn d hd t ht m hm
  decoders n hn _ := by
    refine forall_plain (P := HasDecoder Γ) ?_ n hn
    refine ⟨?_, ?_, ?_, ?_, ?_, ?_, ?_, ?_, ?_, ?_, ?_, ?_, ?_, ?_, ?_, ?_, ?_, ?_, ?_, ?_, ?_, ?_, ?_, ?_, ?_, ?_⟩ <;> exact ⟨_, 5, _, rfl, rfl⟩
  noAnon n d t hn hd ht := by
    have h : ∀ n ∈ plainNames, ∀ d ∈ Γ.decl n, ∀ t ∈ d.types, t.anon = false := by decide
    exact h n hn d hd t ht
  acyclic := by
    refine ⟨rank, fun n d m hn hd hm => ?_⟩
    have h : ∀ n ∈ plainNames, ∀ d ∈ Γ.decl n, ∀ m ∈ d.inner, rank m < rank n := by decide
    exact h n hn d hd m hm
  foreignZero n hn hd := by
    have h : ∀ n ∈ plainNames, (Γ.decl n).isSome = true := by decide
    have := h n hn; rw [hd] at this; cases this
  foreignConv n v hn hd hx := hx.elim
  foreignFill n v s hn hd hx := hx.elim

set_option maxRecDepth 200000 in
theorem plain_noFixedBytes : NoFixedBytes Γ PlainNames := by
  intro n d t hn hd ht
  have h : ∀ n ∈ plainNames, ∀ d ∈ Γ.decl n, ∀ t ∈ d.types, t.fixedBytes = false := by decide
  exact h n hn d hd t ht

theorem no_overflow {n : Nat} (hn : PlainNames n) (d : JV) : ¬ Overflows Γ (.named n) d :=
  fun h => nomatch overflows_fixed plain_package plain_noFixedBytes h ⟨by simp [TExpr.names, hn], rfl⟩

/-- typed struct values, field by field -/
theorem typed_struct {Γ : Env} {X : Nat → GoVal → Prop} {n : Nat} {strict : Bool} {fields : List FieldDecl} {gs : List GoVal}
    (hd : Γ.decl n = some (.struct strict fields)) (h : List.Forall₂ (fun (fd : FieldDecl) g => HasType Γ X fd.typ g) fields gs) :
    HasType Γ X (.named n) (.struct gs) := by
  refine .struct (.named n) hd h.length_eq.symm fun i fd g hi hg => ?_
  have := List.forall₂_iff_get.1 h
  obtain ⟨h1, e1⟩ := List.getElem?_eq_some_iff.1 hi
  obtain ⟨h2, e2⟩ := List.getElem?_eq_some_iff.1 hg
  have := this.2 i h1 h2
  simp only [List.get_eq_getElem, e1, e2] at this
  exact this

/-- the used receiver of type User is a value of its type, … -/
theorem used_typed : HasType Γ NoForeign (.named 0) used := by
  refine typed_struct rfl ?_
  refine .cons (.prim (.int rfl ⟨by decide, by decide⟩)) (.cons (.prim (.string _)) (.cons (.ptr (.prim (.string _))) (.cons
    (.slice (by decide) ?_ ?_) (.cons (.prim (.int rfl ⟨by decide, by decide⟩)) (.cons (.prim (.string _)) .nil)))))
  · intro v hv; simp at hv; subst hv; exact .prim (.string _)
  · intro v hv; simp at hv; subst hv; exact .prim (.string _)
/-- … so whatever the document, decoding into it returns -/
example (d : JV) : ∃ e new, Fills Γ 0 d used e new ∧ HasType Γ NoForeign (.named 0) new :=
  C20_decode_returns_partial plain_package plain_noFixedBytes (by simp [PlainNames, plainNames]) d used_typed

set_option maxRecDepth 200000 in
/-- C20 fails for fixed-length byte arrays: too long a base64 text panics -/
theorem C20_fixed_bytes_panic : HasType Γ NoForeign (.named 29) (.struct [.barr [0, 0, 0, 0]]) ∧
    FillsTo Γ 29 (.obj [(str "key", .str (str "AAAAAAAAAAAA"))]) (.struct [.barr [0, 0, 0, 0]]) .panic :=
  ⟨typed_struct rfl (.cons (.barr rfl) .nil), by simp, 3, rfl⟩

/-- the type of `C20_fixed_bytes_panic` alone is a package … -/
theorem bytes_package : Package Γ NoForeign (· = 29) where
  closed n d t m hn hd ht hm := by subst hn; cases hd; simp [Decl.types] at ht; subst ht; simp [TExpr.names] at hm
  decoders n hn _ := by subst hn; exact ⟨_, 5, _, rfl, rfl⟩
  noAnon n d t hn hd ht := by subst hn; cases hd; simp [Decl.types] at ht; subst ht; rfl
  acyclic := ⟨rank, fun n d m hn hd hm => by subst hn; cases hd; simp [Decl.inner, TExpr.inline, tag, str] at hm⟩
  foreignZero n hn hd := by subst hn; cases hd
  foreignConv n v hn hd hx := hx.elim
  foreignFill n v s hn hd hx := hx.elim

set_option maxRecDepth 200000 in
/-- … so the document of `C20_fixed_bytes_panic` overflows, … -/
example : Overflows Γ (.named 29) (.obj [(str "key", .str (str "AAAAAAAAAAAA"))]) :=
  C20_only_panic bytes_package rfl C20_fixed_bytes_panic.1 C20_fixed_bytes_panic.2

set_option maxRecDepth 200000 in
/-- … and one with a text of four bytes, whatever else is in it, does not, and returns -/
example (x : JV) : ∃ e new, Fills Γ 29 (.obj [(str "key", .str (str "AAAAAA==")), (str "x", x)]) (.struct [.barr [1, 2, 3, 4]]) e new ∧
    HasType Γ NoForeign (.named 29) new := by
  refine C20_decode_returns bytes_package rfl ?_ (typed_struct rfl (.cons (.barr rfl) .nil))
  intro h
  cases h with
  | «alias» he hd => cases he; cases hd
  | inline he hd hf hk =>
    cases he; cases hd
    simp only [List.mem_singleton] at hf
    subst hf; cases hk
  | field he hd hf hk hk' hw h =>
    cases he; cases hd
    simp only [List.mem_singleton] at hf
    subst hf
    cases hw
    cases h with
    | bytes h => exact absurd h (by decide)
    | «alias» he | field he | inline he => cases he

/-- `C11_slice_storage` for struct { L []int8 `json:"l"` } with a slice of length 1 and capacity 3 -/
example (d : JV) : ¬ FillsTo Γ 30 d (.struct [.slice [.int 1] [.int 2, .int 3]]) .panic :=
  (C11_slice_storage plain_package (m := 30) (fd := ⟨.slice (.prim .int8), tag "l"⟩) rfl
    (by simp [PlainNames, plainNames]) rfl (by decide)
    (by intro c hc; simp at hc; subst hc; exact .prim (.int rfl ⟨by decide, by decide⟩))
    (by intro c hc; simp at hc; rcases hc with rfl | rfl <;> exact .prim (.int rfl ⟨by decide, by decide⟩))
    (no_overflow (by simp [PlainNames, plainNames]) d)).1
set_option maxRecDepth 200000 in
/-- `C11_capacity`: old storage reused in one case, replaced in the other -/
example : Fills Γ 30 (.obj [(str "l", .arr [.num (str "7"), .num (str "8")])]) (.struct [.slice [.int 1] [.int 2, .int 3]]) none
      (.struct [.slice [.int 7, .int 8] [.int 3]]) ∧
    Fills Γ 30 (.obj [(str "l", .arr [.num (str "7"), .num (str "8")])]) (.struct [.slice [.int 1] []]) none
      (.struct [.slice [.int 7, .int 8] []]) := ⟨⟨3, rfl⟩, ⟨3, rfl⟩⟩

/-- `C14_wrong_length_rejected` for struct { F [2]int8 `json:"f"` } -/
example : ∃ e, Fills Γ 34 (.obj [(str "f", .arr [.num (str "1")])]) (.struct [.arr [.int 8, .int 9]]) (some e)
    (.struct [.arr [.int 8, .int 9]]) :=
  C14_wrong_length_rejected (Γ := Γ) (m := 34) (fd := ⟨.array 2 (.prim .int8), tag "f"⟩) rfl ⟨_, 3, _, rfl, rfl⟩ (by decide) (by decide)
    (.self _) (by decide) (l := [.num (str "1")]) rfl (by decide) _
/-- `C14_named_wrong_length_rejected` for type Pair [2]int16 -/
example : ∃ e, Fills Γ 25 (.arr []) (.arr [.int 8, .int 9]) (some e) (.arr [.int 8, .int 9]) :=
  C14_named_wrong_length_rejected (len := 2) (elt := .prim .int16) rfl ⟨_, 3, _, rfl, rfl⟩ (by decide) (by decide) _

end Examples

end VJ
