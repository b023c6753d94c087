import Verif.Spec.EncodeTotal
import Verif.Proof.EncodeSound
import Verif.Proof.Zero

/-!
# Encoding ends
-/

namespace VJ
set_option linter.unusedSectionVars false

variable [Ext] {Γ : Env} {X : Nat → GoVal → Prop} {S : Nat → Prop}

/-! ### `IsZero` ends -/

theorem zTest_total {k : Nat} {known t : TExpr} {z : ZTest} (hz : zTest Γ k known t = .ok z) {v : GoVal} (hv : HasType Γ X t v)
    (hm : ∀ n, NameOf t n → Term (fun k => (Γ.methods k n).isZero v) (fun _ => True)) :
    Term (fun k => runZTest (Γ.methods k) z v) (fun _ => True) := by
  simp only [zTest] at hz
  obtain ⟨b, hb, hz⟩ := Out.bind_eq_ok.1 hz
  cases b with
  | true =>
    simp only [if_true, Out.pure_eq, Out.ok.injEq] at hz
    subst hz
    exact .pure trivial
  | false =>
    simp only [Bool.false_eq_true, if_false] at hz
    split at hz
    · simp only [Out.pure_eq, Out.ok.injEq] at hz
      subst hz
      cases hv with
      | time t => exact .pure trivial
      | alias he | struct he | foreign he => cases he
    · simp only [Out.pure_eq, Out.ok.injEq] at hz
      subst hz
      exact hm _ (.named _)
    · simp only [Out.pure_eq, Out.ok.injEq] at hz
      subst hz
      exact hm _ (.sel _)
    · cases hz

theorem zTests_total {k : Nat} : ∀ {fields : List FieldDecl} {ts : List ZTest} {gs : List GoVal},
    genZTests Γ k fields = .ok ts → gs.length = fields.length →
    (∀ (i : Nat) (fd : FieldDecl) (g : GoVal), fields[i]? = some fd → gs[i]? = some g → HasType Γ X fd.typ g ∧
      ∀ n, NameOf fd.typ n → Term (fun k => (Γ.methods k n).isZero g) (fun _ => True)) →
    Term (fun k => runZTests (Γ.methods k) ts gs) (fun _ => True)
  | [], ts, gs, hg, hl, _ => by
    simp only [genZTests, Out.ok.injEq] at hg
    subst hg
    cases gs with
    | nil => exact .pure trivial
    | cons => cases hl
  | fd :: fds, ts, [], hg, hl, _ => by cases hl
  | fd :: fds, ts, g :: gs, hg, hl, h => by
    simp only [genZTests] at hg
    obtain ⟨t, h1, hg⟩ := Out.bind_eq_ok.1 hg
    obtain ⟨ts', h2, hg⟩ := Out.bind_eq_ok.1 hg
    simp only [Out.pure_eq, Out.ok.injEq] at hg
    subst hg
    obtain ⟨hv, hm⟩ := h 0 fd g rfl rfl
    refine (zTest_total h1 hv hm).bind fun b hb => ?_
    cases b with
    | false => exact .pure trivial
    | true =>
      exact zTests_total (fields := fds) (gs := gs) h2 (by simpa using hl) fun i fd' g' hf hg' => h (i + 1) fd' g' (by simpa using hf) (by simpa using hg')

theorem runAll_total {t : ZTest} : ∀ {vs : List GoVal}, (∀ v ∈ vs, Term (fun k => runZTest (Γ.methods k) t v) (fun _ => True)) →
    Term (fun k => runAll (Γ.methods k) t vs) (fun _ => True)
  | [], _ => .pure trivial
  | v :: vs, h => by
    refine (h v (by simp)).bind fun b _ => ?_
    have ih := runAll_total (vs := vs) fun x hx => h x (by simp [hx])
    cases t <;> cases b <;> first | exact ih | exact .pure trivial

/-- `IsZero` returns. -/
theorem isZero_total (hP : EncoderSet Γ X S) {t : TExpr} {v : GoVal} (hv : HasType Γ X t v) :
    (∀ n, NameOf t n → S n → Term (fun k => (Γ.methods k n).isZero v) (fun _ => True)) ∧
    ∀ len e es, t = .array len e → v = .arr es → ∀ n, NameOf e n → S n → ∀ x ∈ es, Term (fun k => (Γ.methods k n).isZero x) (fun _ => True) := by
  have good : ∀ {n : Nat} {d : Decl} {t : TExpr} {m : Nat}, S n → Γ.decl n = some d → t ∈ d.types → m ∈ t.names → S m :=
    fun {n d t m} h1 h2 h3 h4 => hP.closed n d t m h1 h2 h3 h4
  have inTypes : ∀ {fields : List FieldDecl} {fd : FieldDecl} {strict : Bool} {i : Nat}, fields[i]? = some fd → fd.typ ∈ (Decl.struct strict fields).types := by
    intro fields fd strict i h
    simp only [Decl.types, List.mem_map]
    exact ⟨fd, List.mem_of_getElem? h, rfl⟩
  have nm : ∀ {t n}, NameOf t n → n ∈ t.names := by intro t n h; cases h <;> simp [TExpr.names]
  induction hv with
  | @foreign e n v he hd h =>
    refine ⟨fun m hm hS => ?_, fun _ _ _ h => by subst h; cases he⟩
    cases hm.inj he
    obtain ⟨b, h1⟩ := hP.foreignZero n v hS hd h
    exact (Term.pure (a := b) trivial).succ fun k => by rw [methods_none hd, h1]
  | @struct e n strict fields gs he hd hl h ih =>
    refine ⟨fun m hm hS => ?_, fun _ _ _ h => by subst h; cases he⟩
    cases hm.inj he
    obtain ⟨k1, ir, hg⟩ := hP.zeros n _ hS hd
    refine isZero_of_ir hd hg ?_
    simp only [genZero] at hg
    split at hg
    · cases hg; exact .pure trivial
    · obtain ⟨ts, h1, hg⟩ := Out.bind_eq_ok.1 hg
      simp only [Out.pure_eq, Out.ok.injEq] at hg
      subst hg
      exact zTests_total h1 hl fun i fd g hf hg => ⟨h i fd g hf hg, fun m' hm' => (ih i fd g hf hg).1 m' hm' (good hS hd (inTypes hf) (nm hm'))⟩
  | @alias e u n v he hd h ih =>
    refine ⟨fun m hm hS => ?_, fun _ _ _ h => by subst h; cases he⟩
    cases hm.inj he
    obtain ⟨k1, ir, hg⟩ := hP.zeros n _ hS hd
    refine isZero_of_ir hd hg ?_
    have single : ∀ z, zTest Γ k1 u u = .ok z → Term (fun k => runZTest (Γ.methods k) z v) (fun _ => True) :=
      fun z hz => zTest_total hz h fun m' hm' => ih.1 m' hm' (good hS hd (by simp [Decl.types]) (nm hm'))
    have other : (zTest Γ k1 u u >>= fun z => pure (ZeroIR.single z)) = .ok ir → Term (fun k => runZero (Γ.methods k) ir v) (fun _ => True) := by
      intro hg
      obtain ⟨z, h1, hg⟩ := Out.bind_eq_ok.1 hg
      simp only [Out.pure_eq, Out.ok.injEq] at hg
      subst hg
      exact single z h1
    cases u with
    | map t =>
      simp only [genZero, Out.ok.injEq] at hg
      subst hg
      rcases h.map_cases with rfl | ⟨kvs, rfl, _⟩ <;> exact .pure trivial
    | slice t =>
      simp only [genZero, Out.ok.injEq] at hg
      subst hg
      cases h with
      | nilSlice => exact .pure trivial
      | slice => exact .pure trivial
      | bytes => exact .pure trivial
      | alias he | struct he | foreign he => cases he
    | array len t =>
      simp only [genZero] at hg
      split at hg
      · rename_i hb
        cases isByte_true hb
        cases hg
        cases h with
        | array hb => exact absurd rfl hb
        | barr => exact .pure trivial
        | alias he | struct he | foreign he => cases he
      · rename_i hb
        obtain ⟨z, h1, hg⟩ := Out.bind_eq_ok.1 hg
        simp only [Out.pure_eq, Out.ok.injEq] at hg
        subst hg
        cases h with
        | @array _ _ es hb hl h =>
          have := ih.2 len t es rfl rfl
          exact runAll_total fun x hx => zTest_total h1 (h x hx) fun m' hm' => this m' hm' (good hS hd (t := .array len t) (by simp [Decl.types]) (by simpa [TExpr.names] using nm hm')) x hx
        | barr => simp [TExpr.isByte] at hb
        | alias he | struct he | foreign he => cases he
    | star => cases hg
    | structT => cases hg
    | time => exact other hg
    | uuid => exact other hg
    | prim => exact other hg
    | named => exact other hg
    | sel => exact other hg
  | array _ _ _ ih =>
    refine ⟨fun n hn => by (cases hn), ?_⟩
    intro len e es h1 h2 n hn hS x hx
    cases h1; cases h2
    exact (ih x hx).1 n hn hS
  | _ =>
    refine ⟨fun n hn => by (cases hn), ?_⟩
    intro len e es h1 h2
    first | (cases h1; done) | cases h2

/-! ### a nil UUID pointer among what is written -/

/-- a nil `*uuid.UUID` is to be written -/
def Bad (Γ : Env) (t : TExpr) (v : GoVal) : Prop := Written Γ t v (.star .uuid) .nil

theorem Bad.of_written {t u : TExpr} {v w : GoVal} (hp : Written Γ t v u w) (h : Bad Γ u w) : Bad Γ t v := hp.trans h

theorem Bad.front {t : TExpr} {v : GoVal} (h : Bad Γ t v) : (t = .star .uuid ∧ v = .nil) ∨ ∃ u g, WStep Γ t v u g ∧ Bad Γ u g := by
  rcases Written.front h with ⟨h1, h2⟩ | h
  · exact .inl ⟨h1.symm, h2.symm⟩
  · exact .inr h

theorem bad_alias {e u : TExpr} {n : Nat} {v : GoVal} (he : NameOf e n) (hd : Γ.decl n = some (.alias u)) : Bad Γ e v ↔ Bad Γ u v := by
  refine ⟨fun h => ?_, fun h => h.of_written (.alias .self he hd)⟩
  rcases h.front with ⟨rfl, _⟩ | ⟨u', g, hs, h⟩
  · cases he
  · cases hs with
    | alias he' hd' => cases he.inj he'; rw [hd] at hd'; cases hd'; exact h
    | field he' hd' => cases he.inj he'; rw [hd] at hd'; cases hd'
    | _ => cases he

theorem bad_is {t u : TExpr} {v : GoVal} (hi : Is Γ t u) : Bad Γ t v ↔ Bad Γ u v := by
  cases hi with
  | self => exact Iff.rfl
  | named hd => exact bad_alias (.named _) hd

theorem not_bad_prim {p : Prim} {v : GoVal} : ¬ Bad Γ (.prim p) v := by
  intro h
  rcases h.front with ⟨h, _⟩ | ⟨u, g, hs, _⟩
  · cases h
  · cases hs with | alias he | field he => cases he

theorem not_bad_isPrim {t : TExpr} {p : Prim} {v : GoVal} (hi : IsPrim Γ t p) : ¬ Bad Γ t v := by
  cases hi with
  | self => exact not_bad_prim
  | named hd => exact fun h => not_bad_prim ((bad_alias (.named _) hd).1 h)
  | sel hd => exact fun h => not_bad_prim ((bad_alias (.sel _) hd).1 h)

theorem not_bad_primName {t : TExpr} {p : Prim} {v : GoVal} (hi : PrimName Γ t p) : ¬ Bad Γ t v := by
  cases hi with
  | base h => exact not_bad_isPrim h
  | chain hn h => exact fun hb => not_bad_isPrim h ((bad_alias (.named _) hn).1 hb)

theorem not_bad_time {v : GoVal} : ¬ Bad Γ .time v := by
  intro h
  rcases h.front with ⟨h, _⟩ | ⟨u, g, hs, _⟩
  · cases h
  · cases hs with | alias he | field he => cases he

theorem not_bad_uuid {v : GoVal} : ¬ Bad Γ .uuid v := by
  intro h
  rcases h.front with ⟨h, _⟩ | ⟨u, g, hs, _⟩
  · cases h
  · cases hs with | alias he | field he => cases he

theorem bad_ptr {t : TExpr} {v : GoVal} : Bad Γ (.star t) (.ptr v) ↔ Bad Γ t v := by
  refine ⟨fun h => ?_, fun h => h.of_written (.ptr .self)⟩
  rcases h.front with ⟨_, h⟩ | ⟨u, g, hs, h⟩
  · cases h
  · cases hs with
    | ptr => exact h
    | alias he => cases he

theorem bad_nil {t : TExpr} : Bad Γ (.star t) .nil ↔ t = .uuid := by
  refine ⟨fun h => ?_, fun h => by subst h; exact .self⟩
  rcases h.front with ⟨h, _⟩ | ⟨u, g, hs, h⟩
  · cases h; rfl
  · cases hs with
    | alias he => cases he

/-- nothing inside to be written -/
theorem not_bad_leaf {t : TExpr} {v : GoVal} (ht : ∀ n, ¬ NameOf t n) (hs : ∀ u, t ≠ .star u)
    (hv : (∀ es sp, v ≠ .slice es sp) ∧ (∀ es, v ≠ .arr es) ∧ ∀ kvs, v ≠ .map kvs) : ¬ Bad Γ t v := by
  intro h
  rcases h.front with ⟨h, _⟩ | ⟨u, g, hstep, _⟩
  · exact hs _ h
  · cases hstep with
    | ptr => exact hs _ rfl
    | slice => exact hv.1 _ _ rfl
    | array => exact hv.2.1 _ rfl
    | map => exact hv.2.2 _ rfl
    | alias he | field he => exact ht _ he

theorem bad_slice {t : TExpr} {es sp : List GoVal} : Bad Γ (.slice t) (.slice es sp) ↔ ∃ c ∈ es, Bad Γ t c := by
  refine ⟨fun h => ?_, fun ⟨c, hc, h⟩ => h.of_written (.slice .self hc)⟩
  rcases h.front with ⟨h, _⟩ | ⟨u, g, hs, h⟩
  · cases h
  · cases hs with
    | slice hv => exact ⟨_, hv, h⟩
    | alias he => cases he

theorem bad_array {t : TExpr} {n : Nat} {es : List GoVal} : Bad Γ (.array n t) (.arr es) ↔ ∃ c ∈ es, Bad Γ t c := by
  refine ⟨fun h => ?_, fun ⟨c, hc, h⟩ => h.of_written (.array .self hc)⟩
  rcases h.front with ⟨h, _⟩ | ⟨u, g, hs, h⟩
  · cases h
  · cases hs with
    | array hv => exact ⟨_, hv, h⟩
    | alias he => cases he

theorem bad_map {t : TExpr} {kvs : List (Str × GoVal)} : Bad Γ (.map t) (.map kvs) ↔ ∃ kv ∈ kvs, Bad Γ t kv.2 := by
  refine ⟨fun h => ?_, fun ⟨c, hc, h⟩ => h.of_written (.map .self hc)⟩
  rcases h.front with ⟨h, _⟩ | ⟨u, g, hs, h⟩
  · cases h
  · cases hs with
    | map hv => exact ⟨_, hv, h⟩
    | alias he => cases he

/-- a field of the struct that is to be written has a nil UUID pointer in it -/
def BadField (Γ : Env) (fd : FieldDecl) (g : GoVal) : Prop := ¬ Omitted Γ fd g ∧ Bad Γ fd.typ g

def BadFields (Γ : Env) (fields : List FieldDecl) (gs : List GoVal) : Prop :=
  ∃ (i : Nat) (fd : FieldDecl) (g : GoVal), fields[i]? = some fd ∧ gs[i]? = some g ∧ BadField Γ fd g

theorem bad_struct {e : TExpr} {n : Nat} {strict : Bool} {fields : List FieldDecl} {gs : List GoVal} (he : NameOf e n)
    (hd : Γ.decl n = some (.struct strict fields)) : Bad Γ e (.struct gs) ↔ BadFields Γ fields gs := by
  refine ⟨fun h => ?_, fun ⟨i, fd, g, hf, hg, ho, h⟩ => h.of_written (.field .self he hd hf hg ho)⟩
  rcases h.front with ⟨rfl, _⟩ | ⟨u, g, hs, h⟩
  · cases he
  · cases hs with
    | alias he' hd' => cases he.inj he'; rw [hd] at hd'; cases hd'
    | field he' hd' hf hg ho => cases he.inj he'; rw [hd] at hd'; cases hd'; exact ⟨_, _, _, hf, hg, ho, h⟩

theorem not_bad_foreign {e : TExpr} {n : Nat} {v : GoVal} (he : NameOf e n) (hd : Γ.decl n = none) : ¬ Bad Γ e v := by
  intro h
  rcases h.front with ⟨rfl, _⟩ | ⟨u, g, hs, h⟩
  · cases he
  · cases hs with
    | alias he' hd' | field he' hd' => cases he.inj he'; rw [hd] at hd'; cases hd'
    | _ => cases he

theorem badFields_cons {fd : FieldDecl} {fds : List FieldDecl} {g : GoVal} {gs : List GoVal} :
    BadFields Γ (fd :: fds) (g :: gs) ↔ BadField Γ fd g ∨ BadFields Γ fds gs := by
  constructor
  · rintro ⟨i, fd', g', hf, hg, h⟩
    cases i with
    | zero => cases hf; cases hg; exact .inl h
    | succ i => exact .inr ⟨i, fd', g', by simpa using hf, by simpa using hg, h⟩
  · rintro (h | ⟨i, fd', g', hf, hg, h⟩)
    · exact ⟨0, fd, g, rfl, rfl, h⟩
    · exact ⟨i + 1, fd', g', by simpa using hf, by simpa using hg, h⟩

/-! ### how a computation turns out -/

/-- panics, with any fuel that is enough -/
def Panics {α : Type} (o : Nat → Out α) : Prop := ∃ k0, ∀ k, k0 ≤ k → o k = .panic

/-- ends as `P` says, unless something is `bad`; then it panics, provided nothing else is wrong -/
def Turns {α : Type} (bad D : Prop) (o : Nat → Out α) (P : α → Prop) : Prop := (¬ bad → Term o P) ∧ (D → bad → Panics o)

theorem Panics.bind {α β : Type} {o : Nat → Out α} {f : Nat → α → Out β} (h : Panics o) : Panics (fun k => o k >>= f k) := by
  obtain ⟨k0, h⟩ := h
  exact ⟨k0, fun k hk => by show (o k >>= f k) = _; rw [h k hk]; rfl⟩

theorem Panics.after {α β : Type} {o : Nat → Out α} {f : Nat → α → Out β} {P : α → Prop} (h : Term o P) (hf : ∀ a, P a → Panics (fun k => f k a)) :
    Panics (fun k => o k >>= f k) := by
  obtain ⟨a, ha, k1, h1⟩ := h
  obtain ⟨k2, h2⟩ := hf a ha
  refine ⟨max k1 k2, fun k hk => ?_⟩
  show (o k >>= f k) = _
  rw [h1 k (by omega), Out.ok_bind]
  exact h2 k (by omega)

theorem Panics.succ {α : Type} {o o' : Nat → Out α} (h : Panics o) (he : ∀ k, o' (k + 1) = o k) : Panics o' := by
  obtain ⟨k0, hk⟩ := h
  refine ⟨k0 + 1, fun k h => ?_⟩
  obtain ⟨k, rfl⟩ : ∃ j, k = j + 1 := ⟨k - 1, by omega⟩
  rw [he, hk k (by omega)]

namespace Turns
variable {α β : Type} {bad b1 b2 D : Prop} {o : Nat → Out α} {P Q : α → Prop}

theorem fine (h : Term o P) (hb : ¬ bad) : Turns bad D o P := ⟨fun _ => h, fun _ hb' => absurd hb' hb⟩

theorem bind {f : Nat → α → Out β} {Q : β → Prop} (h : Turns b1 D o P) (hf : ∀ a, P a → Turns b2 D (fun k => f k a) Q) :
    Turns (b1 ∨ b2) D (fun k => o k >>= f k) Q := by
  refine ⟨fun hb => (h.1 fun h => hb (.inl h)).bind fun a ha => (hf a ha).1 fun h => hb (.inr h), fun hD hb => ?_⟩
  by_cases h1 : b1
  · exact (h.2 hD h1).bind
  · exact Panics.after (h.1 h1) fun a ha => (hf a ha).2 hD (hb.resolve_left h1)

theorem iff {b' : Prop} (h : Turns b1 D o P) (hi : b' ↔ b1) : Turns b' D o P := ⟨fun hb => h.1 fun h => hb (hi.2 h), fun hD hb => h.2 hD (hi.1 hb)⟩

theorem imp {D' : Prop} (h : Turns bad D o P) (hD : D' → D) (hP : ∀ a, P a → Q a) : Turns bad D' o Q :=
  ⟨fun hb => (h.1 hb).imp hP, fun h' hb => h.2 (hD h') hb⟩

theorem andThen {f : Nat → α → Out β} {Q : β → Prop} (h : Turns bad D o P) (hf : ∀ a, P a → Term (fun k => f k a) Q) :
    Turns bad D (fun k => o k >>= f k) Q :=
  (h.bind (b2 := False) fun a ha => .fine (hf a ha) id).iff (by simp)

theorem succ {o' : Nat → Out α} (h : Turns bad D o P) (he : ∀ k, o' (k + 1) = o k) : Turns bad D o' P :=
  ⟨fun hb => (h.1 hb).succ he, fun hD hb => (h.2 hD hb).succ he⟩

end Turns
/-! ### writing -/

/-- how a write ends; `C`: nothing can go wrong -/
def Done (C : Prop) (w : W) (r : Option EErr × W) : Prop := C → w.err = none → r.1 = none ∧ r.2.err = none

theorem Done.ok {C : Prop} {w : W} (s : Str) : Done C w (none, w.raw s) := fun _ h => ⟨rfl, h⟩

/-- a write to `w` -/
abbrev Wr (C bad : Prop) (w : W) (o : Nat → Out (Option EErr × W)) : Prop := Turns bad (C ∧ w.err = none) o (Done C w)

/-- the method of type `n` on `v` -/
def CallOut (Γ : Env) (C : Prop) (n : Nat) (v : GoVal) (bad : Prop) : Prop :=
  ∀ w, Wr C bad w (fun k => (Γ.methods k n).marshalTo (some v) w)

/-- every method that may be called for `v` or anything in it that is written -/
def CallsOut (Γ : Env) (C : Prop) (t : TExpr) (v : GoVal) : Prop := ∀ u w n, Written Γ t v u w → NameOf u n → CallOut Γ C n w (Bad Γ u w)

theorem CallsOut.part {C : Prop} {t u : TExpr} {v w : GoVal} (h : CallsOut Γ C t v) (hp : Written Γ t v u w) : CallsOut Γ C u w :=
  fun u' w' n hp' hn => h u' w' n (hp.trans hp') hn

theorem CallsOut.call {C : Prop} {t : TExpr} {n : Nat} {v : GoVal} (h : CallsOut Γ C t v) (hn : NameOf t n) : CallOut Γ C n v (Bad Γ t v) := h t v n .self hn

/-- what is known while a value is encoded -/
structure Enders (Γ : Env) (X : Nat → GoVal → Prop) (S : Nat → Prop) (C : Prop) : Prop where
  set : EncoderSet Γ X S
  fine : C → ForeignFine Γ X S
  nil : ∀ n, S n → ∀ w, Term (fun k => (Γ.methods k n).marshalTo none w) (Done C w)

/-- a write to a writer that has got something more -/
theorem Wr.raw {C bad : Prop} {o : Nat → Out (Option EErr × W)} {w w' : W} (h : Wr C bad w' o) (he : w'.err = w.err) : Wr C bad w o :=
  h.imp (fun hD => ⟨hD.1, he.trans hD.2⟩) fun _ hr hC hw => hr hC (he.trans hw)

theorem wrapped {C bad : Prop} {o : Nat → Out (Option EErr × W)} {w : W} {label : ECtx} (h : Wr C bad w o) :
    Wr C bad w (fun k => do let (e, w) ← o k; return (EErr.wrap? label e, w)) := by
  refine h.andThen fun r hr => .pure fun hC hw => ?_
  obtain ⟨h1, h2⟩ := hr hC hw
  exact ⟨by simp [h1, EErr.wrap?], h2⟩

/-- one write after another -/
theorem Wr.next {C b1 b2 : Prop} {w : W} {o : Nat → Out (Option EErr × W)} {f : Nat → Option EErr × W → Out (Option EErr × W)}
    (h : Wr C b1 w o) (hsome : ∀ e w1, ∃ r, ∀ k, f k (some e, w1) = .ok r)
    (hnone : ∀ w1, Wr C b2 w1 (fun k => f k (none, w1))) : Wr C (b1 ∨ b2) w (fun k => o k >>= f k) := by
  refine h.bind fun r hr => ?_
  obtain ⟨e, w1⟩ := r
  cases e with
  | some e =>
    have no : ¬ (C ∧ w.err = none) := fun hD => by have := (hr hD.1 hD.2).1; cases this
    obtain ⟨r, hr'⟩ := hsome e w1
    simp only [hr']
    exact ⟨fun _ => .pure fun hC hw => absurd ⟨hC, hw⟩ no, fun hD => absurd hD no⟩
  | none =>
    exact (hnone w1).imp (fun hD => ⟨hD.1, (hr hD.1 hD.2).2⟩) fun _ hr2 hC hw => hr2 hC (hr hC hw).2

theorem leaf_out {C : Prop} (hE : Enders Γ X S C) {t : TExpr} {x : VExt} (hp : LeafPlan Γ t x) (hg : EGood Γ S t) {v : GoVal} (hv : HasType Γ X t v)
    (hc : CallsOut Γ C t v) (label : ECtx) (w : W) : Wr C (Bad Γ t v) w (fun k => runVExt (Γ.methods k) label x v w) := by
  cases hp with
  | prim ht hx =>
    simp only [primVExt_run hx (hasType_primName ht hv)]
    exact .fine (.pure (.ok _)) (not_bad_primName ht)
  | ptr ht hy hx =>
    rw [Wr, show Bad Γ t v = Bad Γ _ v from propext (bad_is ht)]
    rcases (hv.of_is ht).star_cases with rfl | ⟨g, rfl, hg⟩
    · exact .fine (.pure (.ok _)) (fun h => by cases bad_nil.1 h; cases hy)
    · simp only [runVExt, primVExt_run hx (hasType_isPrim hy hg)]
      exact .fine (.pure (.ok _)) (fun h => not_bad_isPrim hy (bad_ptr.1 h))
  | time =>
    cases hv with
    | time tm => exact .fine (.pure (.ok _)) not_bad_time
    | alias he | struct he | foreign he => cases he
  | call ht _ => exact wrapped (hc.call ht w)
  | callPtr hy _ =>
    rcases hv.star_cases with rfl | ⟨g, rfl, _⟩
    · exact wrapped (.fine (hE.nil _ (hg.star.name hy) w) (fun h => by cases bad_nil.1 h; cases hy))
    · exact wrapped (((hc.part (.ptr .self)).call hy w).iff bad_ptr)

theorem exists_cons {α : Type} {P : α → Prop} {a : α} {l : List α} : (∃ x ∈ a :: l, P x) ↔ P a ∨ ∃ x ∈ l, P x := by simp

theorem elems_out {C : Prop} {bad : GoVal → Prop} {f : Nat → Nat → GoVal → W → Out (Option EErr × W)} : ∀ {vs : List GoVal},
    (∀ v ∈ vs, ∀ i w, Wr C (bad v) w (fun k => f k i v w)) → ∀ (i : Nat) (sep : Bool) (w : W),
    Wr C (∃ v ∈ vs, bad v) w (fun k => writeElems (f k) i sep vs w)
  | [], _, _, _, w => .fine (.pure fun _ h => ⟨rfl, h⟩) (by simp)
  | v :: vs, h, i, sep, w => by
    refine Turns.iff (Wr.next (Wr.raw (h v (by simp) i (if sep then w.raw [','] else w)) (by cases sep <;> rfl))
      (f := fun k r => match r with | (e, w) => match e with | some e => pure (some e, w) | none => writeElems (f k) (i + 1) true vs w)
      (fun e w1 => ⟨_, fun k => rfl⟩) fun w1 => elems_out (fun x hx => h x (by simp [hx])) (i + 1) true w1) exists_cons

theorem members_out {C : Prop} {bad : Str × GoVal → Prop} {f : Nat → Str → GoVal → W → Out (Option EErr × W)} : ∀ {kvs : List (Str × GoVal)},
    (∀ kv ∈ kvs, ∀ w, Wr C (bad kv) w (fun k => f k kv.1 kv.2 w)) → ∀ (sep : Bool) (w : W),
    Wr C (∃ kv ∈ kvs, bad kv) w (fun k => writeMembers (f k) sep kvs w)
  | [], _, _, w => .fine (.pure fun _ h => ⟨rfl, h⟩) (by simp)
  | (key, v) :: kvs, h, sep, w => by
    refine Turns.iff (Wr.next (Wr.raw (h (key, v) (by simp) (((if sep then w.raw [','] else w).string key).raw [':'])) (by cases sep <;> rfl))
      (f := fun k r => match r with | (e, w) => match e with | some e => pure (some e, w) | none => writeMembers (f k) true kvs w)
      (fun e w1 => ⟨_, fun k => rfl⟩) fun w1 => members_out (fun x hx => h x (by simp [hx])) true w1) exists_cons

theorem closing {C bad : Prop} {o : Nat → Out (Option EErr × W)} {w : W} (s : Str) (h : Wr C bad w o) :
    Wr C bad w (fun k => do
      let (e, w) ← o k
      match e with
      | some e => return (some e, w)
      | none => return (none, w.raw s)) := by
  refine h.andThen fun r hr => ?_
  obtain ⟨e, w1⟩ := r
  cases e with
  | some e => exact .pure fun hC hw => by have := (hr hC hw).1; cases this
  | none => exact .pure fun hC hw => ⟨rfl, (hr hC hw).2⟩

theorem vext_out {C : Prop} (hE : Enders Γ X S C) {t : TExpr} {x : VExt} (hp : ElemPlan Γ t x) (hg : EGood Γ S t) {v : GoVal} (hv : HasType Γ X t v)
    (hc : CallsOut Γ C t v) (label : ECtx) (w : W) : Wr C (Bad Γ t v) w (fun k => runVExt (Γ.methods k) label x v w) := by
  cases hp with
  | leaf _ h => exact leaf_out hE h hg hv hc label w
  | @list e x ht h =>
    have key : ∀ es : List GoVal, (∀ c ∈ es, HasType Γ X e c ∧ CallsOut Γ C e c) → EGood Γ S e →
        Wr C (∃ c ∈ es, Bad Γ e c) w (fun k => do
          let (er, w) ← writeElems (fun _ v w => runVExt (Γ.methods k) label x v w) 0 false es (w.raw ['['])
          match er with
          | some er => return (some er, w)
          | none => return (none, w.raw [']'])) := by
      intro es hes hge
      exact closing [']'] (Wr.raw (elems_out (f := fun k _ v w => runVExt (Γ.methods k) label x v w)
        (fun c hcm _ w => leaf_out hE h hge (hes c hcm).1 (hes c hcm).2 label w) 0 false (w.raw ['['])) rfl)
    rcases ht.2 with hi | ⟨n, hi⟩
    · refine Turns.iff (b1 := Bad Γ (.slice e) v) ?_ (bad_is hi)
      rcases (hv.of_is hi).slice_cases ht.1 with rfl | ⟨es, sp, rfl, he, _⟩
      · exact .fine (.pure (.ok _)) (not_bad_leaf (by rintro n ⟨⟩) (by simp) (by simp))
      · exact (key es (fun c hcm => ⟨he c hcm, hc.part (.slice (Written.self.is hi) hcm)⟩) (hg.is hE.set.toTypeSet hi).slice).iff bad_slice
    · refine Turns.iff (b1 := Bad Γ (.array n e) v) ?_ (bad_is hi)
      obtain ⟨es, rfl, _, he⟩ := (hv.of_is hi).array_cases ht.1
      exact (key es (fun c hcm => ⟨he c hcm, hc.part (.array (Written.self.is hi) hcm)⟩) (hg.is hE.set.toTypeSet hi).array).iff bad_array

theorem list_out {C : Prop} (hE : Enders Γ X S C) {t : TExpr} {x : VExt} (hp : ElemPlan Γ t x) (hg : EGood Γ S t) {es : List GoVal}
    (hes : ∀ c ∈ es, HasType Γ X t c ∧ CallsOut Γ C t c) (name : Str) (w : W) :
    Wr C (∃ c ∈ es, Bad Γ t c) w (fun k => writeList (Γ.methods k) name x es w) :=
  closing [']'] (Wr.raw (elems_out (f := fun k i v w => runVExt (Γ.methods k) (itemLabel name i) x v w)
    (fun c hcm i w => vext_out hE hp hg (hes c hcm).1 (hes c hcm).2 _ w) 0 false (w.raw ['['])) rfl)

theorem map_out {C : Prop} (hE : Enders Γ X S C) {t : TExpr} {x : VExt} (hp : ElemPlan Γ t x) (hg : EGood Γ S t) {kvs : List (Str × GoVal)}
    (hes : ∀ kv ∈ kvs, HasType Γ X t kv.2 ∧ CallsOut Γ C t kv.2) (name : Str) (w : W) :
    Wr C (∃ kv ∈ kvs, Bad Γ t kv.2) w (fun k => writeMap (Γ.methods k) name x kvs w) :=
  closing ['}'] (Wr.raw (members_out (bad := fun kv => Bad Γ t kv.2) (f := fun k key v w => runVExt (Γ.methods k) (memberLabel name key) x v w)
    (fun c hcm w => vext_out hE hp hg (hes c hcm).1 (hes c hcm).2 _ w) false (w.raw ['{'])) rfl)

/-! ### fields -/

theorem Term.eq {α : Type} {o : Nat → Out α} {P : α → Prop} (h : Term o P) : Term o (fun a => P a ∧ ∃ k, o k = .ok a) := by
  obtain ⟨a, ha, k, hk⟩ := h
  exact ⟨a, ⟨ha, k, hk k (Nat.le_refl k)⟩, k, hk⟩

def BDone (C : Prop) (w : W) (r : Option EErr × Bool × W) : Prop := C → w.err = none → r.1 = none ∧ r.2.2.err = none

theorem blk_out_of {C bad : Prop} {b : Blk} {v : GoVal} (wc : Bool) (w : W)
    (hcond : ∀ c, b.cond = some c → Term (fun k => runCond (Γ.methods k) c v) (fun _ => True))
    (hfalse : ∀ c, b.cond = some c → (∃ k, runCond (Γ.methods k) c v = .ok false) → ¬ bad)
    (hbody : (∀ c, b.cond = some c → ∃ k, runCond (Γ.methods k) c v = .ok true) → ∀ w, Wr C bad w (fun k => runBody (Γ.methods k) b.name b.body v w)) :
    Turns bad (C ∧ w.err = none) (fun k => runBlk (Γ.methods k) b v wc w) (BDone C w) := by
  have body : ∀ (_ : ∀ c, b.cond = some c → ∃ k, runCond (Γ.methods k) c v = .ok true),
      Turns bad (C ∧ w.err = none) (fun k => do let (e, w) ← runBody (Γ.methods k) b.name b.body v (putComma wc w); return (e, true, w)) (BDone C w) := by
    intro hc
    exact (Wr.raw (hbody hc (putComma wc w)) (putComma_err wc w)).andThen fun r hr => .pure fun hC hw => hr hC hw
  unfold runBlk
  cases hb : b.cond with
  | none => exact body (by simp [hb])
  | some c =>
    refine (Turns.bind (b1 := False) (.fine (hcond c hb).eq id) (b2 := bad) fun nz ⟨_, hnz⟩ => ?_).iff (by simp)
    cases nz with
    | true => exact body fun c' hc' => by rw [hb] at hc'; cases hc'; exact hnz
    | false =>
      simp only [Bool.false_eq_true, if_false]
      refine .fine ?_ (hfalse c hb hnz)
      cases b.ifZero with
      | none => exact .pure fun _ hw => ⟨rfl, hw⟩
      | some p => exact .pure fun _ hw => ⟨rfl, by simpa [putComma_err] using hw⟩

/-- a block that never panics -/
theorem blk_ends_of {C bad : Prop} {b : Blk} {v : GoVal} (hb : ¬ bad) (wc : Bool) (w : W)
    (hcond : ∀ c, b.cond = some c → Term (fun k => runCond (Γ.methods k) c v) (fun _ => True))
    (hbody : (∀ c, b.cond = some c → ∃ k, runCond (Γ.methods k) c v = .ok true) → ∀ w, Term (fun k => runBody (Γ.methods k) b.name b.body v w) (Done C w)) :
    Turns bad (C ∧ w.err = none) (fun k => runBlk (Γ.methods k) b v wc w) (BDone C w) :=
  blk_out_of wc w hcond (fun _ _ _ => hb) fun h w => .fine (hbody h w) hb

theorem struct_text (hT : ForeignTame Γ) {n k : Nat} {strict : Bool} {fields : List FieldDecl} (hd : Γ.decl n = some (.struct strict fields))
    {v : GoVal} {w : W} (h : (Γ.methods k n).marshalTo (some v) W.empty = .ok (none, w)) : ∃ s, w.buf = '{' :: (s ++ ['}']) := by
  cases k with
  | zero => cases h
  | succ k =>
    rw [methods_some hd] at h
    simp only [declMethods] at h
    obtain ⟨ir, hir, h⟩ := Out.bind_eq_ok.1 h
    simp only [genMarshal] at hir
    obtain ⟨bs, hbs, hir⟩ := Out.bind_eq_ok.1 hir
    simp only [Out.pure_eq, Out.ok.injEq] at hir
    subst hir
    cases bs with
    | nil =>
      simp only [runMarshal, Out.ok.injEq, Prod.mk.injEq] at h
      obtain ⟨_, rfl⟩ := h
      exact ⟨[], rfl⟩
    | cons b bs =>
      cases v with
      | struct vs =>
        simp only [runMarshal] at h
        obtain ⟨⟨e, w1⟩, h1, h⟩ := Out.bind_eq_ok.1 h
        have hf := (runBlks_tame (fun n r => methods_tame hT k n r) (b :: bs) vs false).frame ['{'] W.empty
        have he : W.empty.after ['{'] = W.empty.raw ['{'] := rfl
        rw [he, h1] at hf
        cases hr : runBlks (Γ.methods k) (b :: bs) vs false W.empty with
        | ok r =>
          rw [hr] at hf
          obtain ⟨e', w2⟩ := r
          simp only [Out.after, Out.ok.injEq, Prod.mk.injEq] at hf
          obtain ⟨rfl, rfl⟩ := hf
          cases e with
          | some e => simp at h
          | none =>
            simp only [Out.pure_eq, Out.ok.injEq, Prod.mk.injEq] at h
            obtain ⟨_, rfl⟩ := h
            exact ⟨w2.buf, rfl⟩
        | _ => rw [hr] at hf; cases hf
      | _ => simp [runMarshal] at h

theorem inline_out {C bad : Prop} {n : Nat} {v : GoVal} (hc : CallOut Γ C n v bad) (hC : C → ForeignTame Γ)
    (hs : C → ∃ strict fields, Γ.decl n = some (.struct strict fields)) (name : Str) (w : W) :
    Wr C bad w (fun k => runBody (Γ.methods k) name (.inline n) v w) := by
  simp only [runBody, marshalJSON, Out.bind_assoc]
  have h0 : Turns bad (C ∧ w.err = none) (fun k => (Γ.methods k n).marshalTo (some v) W.empty)
      (fun r => Done C W.empty r ∧ ∃ k, (Γ.methods k n).marshalTo (some v) W.empty = .ok r) :=
    ⟨fun hb => ((hc W.empty).1 hb).eq, fun hD hb => (hc W.empty).2 ⟨hD.1, rfl⟩ hb⟩
  refine h0.andThen fun r ⟨hr, k, hk⟩ => ?_
  obtain ⟨e, w1⟩ := r
  cases e with
  | some e =>
    refine .pure fun hc' _ => ?_
    have := (hr hc' rfl).1
    cases this
  | none =>
    refine .pure fun hc' hw => ?_
    obtain ⟨strict, fields, hd⟩ := hs hc'
    have h2 := (hr hc' rfl).2
    simp only at h2
    obtain ⟨s, hs⟩ := struct_text (hC hc') hd hk
    refine ⟨rfl, ?_⟩
    simp only [W.build, h2, hs, unpack_obj]
    simp [W.rawData, hw]
    split <;> simp_all

theorem blk_out {C : Prop} (hE : Enders Γ X S C) {fd : FieldDecl} {kd : EKind} {b : Blk} (hp : BlkPlan Γ fd kd b) (hg : EGood Γ S fd.typ)
    {v : GoVal} (hv : HasType Γ X fd.typ v) (hc : ¬ Omitted Γ fd v → CallsOut Γ C fd.typ v)
    (hemb : C → ∀ m, fd.tags.jsonName = [] → ByMethod Γ fd.typ m → Γ.decl m ≠ none) (wc : Bool) (w : W) :
    Turns (BadField Γ fd v) (C ∧ w.err = none) (fun k => runBlk (Γ.methods k) b v wc w) (BDone C w) := by
  have zeros : ∀ m, ByMethod Γ fd.typ m → Term (fun k => runCond (Γ.methods k) (.method m) v) (fun _ => True) := by
    intro m hm
    refine ((isZero_total hE.set (hm.typed hv)).1 m (.named m) (hm.inS hE.set.toTypeSet hg)).bind fun z _ => .pure trivial
  have neZero : ∀ c, c = Cond.neZero → Term (fun k => runCond (Γ.methods k) c v) (fun _ => True) := by
    rintro c rfl; exact .pure trivial
  have isZ : ∀ {m k b}, runCond (Γ.methods k) (.method m) v = .ok b → IsZeroIs Γ m v (!b) := by
    intro m k b h
    simp only [runCond] at h
    obtain ⟨z, h1, h2⟩ := Out.bind_eq_ok.1 h
    cases h2
    exact ⟨k, by simpa using h1⟩
  have callBy : ∀ {t m} {g : GoVal}, ByMethod Γ t m → CallsOut Γ C t g → CallOut Γ C m g (Bad Γ t g) := by
    intro t m g hm hc
    cases hm with
    | struct => exact hc.call (.named _)
    | sel => exact hc.call (.sel _)
    | named hd => exact fun w => ((hc.part (.alias .self (.named _) hd)).call (.sel _) w).iff (bad_alias (.named _) hd)
  have hk := hp.kind
  have bad : ¬ Omitted Γ fd v → (BadField Γ fd v ↔ Bad Γ fd.typ v) := fun h => ⟨fun h => h.2, fun h' => ⟨h, h'⟩⟩
  cases hp with
  | scalar ht h =>
    obtain ⟨body, zero, hb⟩ := typeMarshal_blk h
    have ht' := hasType_isPrim ht hv
    have heq := hb.eq
    subst heq
    refine blk_ends_of (fun h => not_bad_isPrim ht h.2) wc w (fun c hc => neZero c (by simp only [true_or, if_true, Option.some.injEq] at hc; exact hc.symm)) fun hnz w => ?_
    obtain ⟨k, hk⟩ := hnz .neZero (by simp)
    simp only [runCond, Out.ok.injEq, Bool.not_eq_true'] at hk
    simp only [hb.run _ _ v v _ ht' rfl (fun _ => hk)]
    exact .pure (.ok _)
  | ptr hk ht hy h =>
    obtain ⟨body, zero, hb⟩ := typeMarshal_blk h
    have heq := hb.eq
    subst heq
    have nb : ¬ BadField Γ fd v := fun h => by
      have h := (bad_is ht).1 h.2
      rcases (hv.of_is ht).star_cases with rfl | ⟨g, rfl, hg'⟩
      · cases bad_nil.1 h; cases hy
      · exact not_bad_isPrim hy (bad_ptr.1 h)
    refine blk_ends_of nb wc w (fun c hc => neZero c (by simp at hc; exact hc.symm)) fun hnz w => ?_
    obtain ⟨k, hk⟩ := hnz .neZero (by simp)
    rcases (hv.of_is ht).star_cases with rfl | ⟨g, rfl, hg'⟩
    · simp [runCond, eqZero] at hk
    · simp only [hb.run _ _ (.ptr g) g _ (hasType_isPrim hy hg') rfl (by simp)]
      exact .pure (.ok _)
  | ptr2 ht hy h =>
    obtain ⟨body, zero, hb⟩ := typeMarshal_blk h
    have heq := hb.eq
    subst heq
    rename_i t p
    rw [ht] at hv
    have shape : v = .nil ∨ v = .ptr .nil ∨ ∃ g, v = .ptr (.ptr g) ∧ HasType Γ X (.prim p) g := by
      rcases hv.star_cases with rfl | ⟨g, rfl, hg'⟩
      · exact .inl rfl
      · rcases (hg'.of_is hy).star_cases with rfl | ⟨g2, rfl, hg2⟩
        · exact .inr (.inl rfl)
        · exact .inr (.inr ⟨g2, rfl, hg2⟩)
    have nb : ¬ BadField Γ fd v := fun h => by
      have h := h.2
      rw [ht] at h
      rcases shape with rfl | rfl | ⟨g, rfl, _⟩
      · cases bad_nil.1 h; cases hy
      · have h := (bad_is hy).1 (bad_ptr.1 h); cases bad_nil.1 h
      · exact not_bad_prim (bad_ptr.1 ((bad_is hy).1 (bad_ptr.1 h)))
    refine blk_ends_of nb wc w ?_ fun hnz w => ?_
    · intro c hc
      simp at hc
      subst hc
      rcases shape with rfl | rfl | ⟨g, rfl, _⟩ <;> exact .pure trivial
    · obtain ⟨k, hk⟩ := hnz .notNil2 (by simp)
      rcases shape with rfl | rfl | ⟨g, rfl, hg'⟩
      · simp [runCond] at hk
      · simp [runCond] at hk
      · simp only [hb.run _ _ (.ptr (.ptr g)) g _ (hasType_isPrim (.self _) hg') rfl (by simp)]
        exact .pure (.ok _)
  | time ht =>
    have nb : ¬ BadField Γ fd v := fun h => by have h := h.2; rw [ht] at h; exact not_bad_time h
    rw [ht] at hv
    cases hv with
    | time tm =>
      refine blk_ends_of nb wc w ?_ fun hnz w => ?_
      · intro c hc; simp [timeMarshal] at hc; subst hc; exact .pure trivial
      · simp only [timeMarshal, runBody, deref, Out.ok_bind, W.raw_raw]
        exact .pure (.ok _)
    | alias he | struct he | foreign he => cases he
  | timePtr ht =>
    have nb : ¬ BadField Γ fd v := fun h => by
      have h := (bad_is ht).1 h.2
      rcases (hv.of_is ht).star_cases with rfl | ⟨g, rfl, hg'⟩
      · cases bad_nil.1 h
      · exact not_bad_time (bad_ptr.1 h)
    refine blk_ends_of nb wc w ?_ fun hnz w => ?_
    · intro c hc; simp [timeMarshal] at hc; subst hc; exact .pure trivial
    · obtain ⟨k, hk⟩ := hnz .neZero (by simp [timeMarshal])
      rcases (hv.of_is ht).star_cases with rfl | ⟨g, rfl, hg'⟩
      · simp [runCond, eqZero] at hk
      · cases hg' with
        | time tm =>
          simp only [timeMarshal, runBody, deref, Out.ok_bind, W.raw_raw]
          exact .pure (.ok _)
        | alias he | struct he | foreign he => cases he
  | uuid ht =>
    have nb : ¬ BadField Γ fd v := fun h => by have h := h.2; rw [ht] at h; exact not_bad_uuid h
    rw [ht] at hv
    cases hv with
    | uuid =>
      refine blk_ends_of nb wc w (by simp) fun hnz w => ?_
      simp only [runBody, Bool.false_eq_true, if_false, deref, Out.ok_bind]
      exact .pure (.ok _)
    | alias he | struct he | foreign he => cases he
  | uuidPtr ht =>
    have ho : ¬ Omitted Γ fd v := not_omitted hk fun h => by cases h
    refine (Turns.iff (b1 := Bad Γ (.star .uuid) v) ?_ (by rw [← ht]; exact bad ho))
    rw [ht] at hv
    rcases hv.star_cases with rfl | ⟨g, rfl, hg'⟩
    · exact ⟨fun h => absurd (bad_nil.2 rfl) h, fun _ _ => ⟨0, fun _ _ => rfl⟩⟩
    · cases hg' with
      | uuid =>
        refine blk_ends_of (fun h => not_bad_uuid (bad_ptr.1 h)) wc w (by simp) fun hnz w => ?_
        simp only [runBody, if_true, deref, Out.ok_bind]
        exact .pure (.ok _)
      | alias he | struct he | foreign he => cases he
  | @method m _ ht h =>
    unfold marshalTransit at h
    by_cases hj : fd.tags.jsonName = []
    · rw [if_pos hj] at h; cases h
      refine blk_out_of wc w (fun c hc => ?_) (fun c hc ⟨k, hz⟩ hb => ?_) fun hnz w => ?_
      · simp only [Option.some.injEq] at hc; subst hc; exact zeros m ht
      · simp only [Option.some.injEq] at hc; subst hc
        exact hb.1 ⟨_, hk, .method (isZ hz), .inr ⟨⟨m, rfl⟩, hj⟩⟩
      · obtain ⟨k, hz⟩ := hnz _ rfl
        have ho : ¬ Omitted Γ fd v := not_omitted hk fun h => by
          cases h with
          | method h => cases isZero_unique h (isZ hz)
        refine (inline_out (callBy ht (hc ho)) (fun hC => (hE.fine hC).tame) (fun hC => ?_) _ w).iff (bad ho)
        have := hemb hC m hj ht
        clear hk bad
        generalize fd.typ = ft at ht hg
        cases ht with
        | struct hd => exact ⟨_, _, hd⟩
        | sel hd => exact absurd hd this
        | named hd => exact absurd ((hE.set.alias (hg.name (.named _)) hd).sel) this
    · rw [if_neg hj] at h
      simp only [Bool.false_eq_true, if_false] at h
      cases h
      refine blk_out_of wc w (fun c hc => ?_) (fun c hc ⟨k, hz⟩ hb => ?_) fun hnz w => ?_
      · simp only at hc
        split at hc
        · simp only [Option.some.injEq] at hc; subst hc; exact zeros m ht
        · cases hc
      · simp only at hc
        split at hc
        · rename_i hom
          simp only [Option.some.injEq] at hc; subst hc
          exact hb.1 ⟨_, hk, .method (isZ hz), .inl hom⟩
        · cases hc
      · have ho : ¬ Omitted Γ fd v := not_omitted hk fun h => by
          cases hom : fd.tags.omitempty with
          | false => exact ⟨rfl, fun _ => hj⟩
          | true =>
            obtain ⟨k, hz⟩ := hnz (.method m) (by simp [hom])
            cases h with
            | method h => cases isZero_unique h (isZ hz)
        simp only [runBody, Bool.false_eq_true, if_false, deref, Out.ok_bind]
        exact Turns.iff (wrapped (Wr.raw (callBy ht (hc ho) (w.raw _)) rfl)) (bad ho)
  | @methodPtr t m _ ht hy h =>
    unfold marshalTransit at h
    by_cases hj : fd.tags.jsonName = []
    · rw [if_pos hj] at h; cases h
    · rw [if_neg hj] at h
      simp only [if_true] at h
      cases h
      have hv' := hv
      rw [ht] at hv'
      rcases hv'.star_cases with rfl | ⟨g, rfl, hg'⟩
      · have nb : ¬ BadField Γ fd .nil := fun h => by
          have h := h.2; rw [ht] at h; cases bad_nil.1 h; cases hy
        refine blk_ends_of nb wc w (fun c hc => neZero c (by simp at hc; exact hc.symm)) fun hnz w => ?_
        obtain ⟨k, hk⟩ := hnz .neZero (by simp)
        simp [runCond, eqZero] at hk
      · have ho : ¬ Omitted Γ fd (.ptr g) := not_omitted hk fun h => by cases h
        have hc := hc ho
        rw [ht] at hc
        refine blk_out_of wc w (fun c hc => neZero c (by simp at hc; exact hc.symm)) (fun c hc ⟨k, hz⟩ => ?_) fun hnz w => ?_
        · simp at hc; subst hc; simp [runCond, eqZero] at hz
        · simp only [runBody, if_true, deref, Out.ok_bind]
          refine Turns.iff (wrapped (Wr.raw (callBy hy (hc.part (.ptr .self)) (w.raw _)) rfl)) ?_
          rw [bad ho, ht, bad_ptr]
  | map ht hx =>
    rcases (hv.of_is ht).map_cases with rfl | ⟨kvs, rfl, hkv⟩
    · refine blk_ends_of (fun h => not_bad_leaf (by rintro n ⟨⟩) (by simp) (by simp) ((bad_is ht).1 h.2)) wc w
        (fun c hc => neZero c (by simp at hc; exact hc.symm)) fun hnz w => ?_
      obtain ⟨k, hk⟩ := hnz .neZero (by simp)
      simp [runCond, eqZero] at hk
    · have ho : ¬ Omitted Γ fd (.map kvs) := not_omitted hk fun h => by cases h
      refine blk_out_of wc w (fun c hc => neZero c (by simp at hc; exact hc.symm)) (fun c hc ⟨k, hz⟩ => ?_) fun hnz w => ?_
      · simp at hc; subst hc; simp [runCond, eqZero] at hz
      · exact Turns.iff (Wr.raw (map_out hE hx (hg.is hE.set.toTypeSet ht).map
          (fun kv hkvm => ⟨hkv.2 kv hkvm, (hc ho).part (.map (Written.self.is ht) hkvm)⟩) _ (w.raw _)) rfl)
          (by rw [bad ho, bad_is ht, bad_map])
  | slice ht hb hx =>
    rcases (hv.of_is ht).slice_cases hb with rfl | ⟨es, sp, rfl, he, _⟩
    · refine blk_ends_of (fun h => not_bad_leaf (by rintro n ⟨⟩) (by simp) (by simp) ((bad_is ht).1 h.2)) wc w
        (fun c hc => neZero c (by simp at hc; exact hc.symm)) fun hnz w => ?_
      obtain ⟨k, hk⟩ := hnz .neZero (by simp)
      simp [runCond, eqZero] at hk
    · have ho : ¬ Omitted Γ fd (.slice es sp) := not_omitted hk fun h => by cases h
      refine blk_out_of wc w (fun c hc => neZero c (by simp at hc; exact hc.symm)) (fun c hc ⟨k, hz⟩ => ?_) fun hnz w => ?_
      · simp at hc; subst hc; simp [runCond, eqZero] at hz
      · exact Turns.iff (Wr.raw (list_out hE hx (hg.is hE.set.toTypeSet ht).slice
          (fun c hcm => ⟨he c hcm, (hc ho).part (.slice (Written.self.is ht) hcm)⟩) _ (w.raw _)) rfl)
          (by rw [bad ho, bad_is ht, bad_slice])
  | array ht hb hx =>
    obtain ⟨es, rfl, _, he⟩ := (hv.of_is ht).array_cases hb
    have ho : ¬ Omitted Γ fd (.arr es) := not_omitted hk fun h => by cases h
    refine blk_out_of wc w (by simp) (by simp) fun hnz w => ?_
    exact Turns.iff (Wr.raw (list_out hE hx (hg.is hE.set.toTypeSet ht).array
      (fun c hcm => ⟨he c hcm, (hc ho).part (.array (Written.self.is ht) hcm)⟩) _ (w.raw _)) rfl)
      (by rw [bad ho, bad_is ht, bad_array])
  | bytes ht =>
    have nb : ¬ BadField Γ fd v := fun h => by
      have h := (bad_is ht).1 h.2
      revert h
      cases hv.of_is ht with
      | nilSlice => exact not_bad_leaf (by rintro n ⟨⟩) (by simp) (by simp)
      | slice hb => exact absurd rfl hb
      | bytes b => exact not_bad_leaf (by rintro n ⟨⟩) (by simp) (by simp)
      | alias he | struct he | foreign he => cases he
    refine blk_ends_of nb wc w (fun c hc => neZero c (by simp at hc; exact hc.symm)) fun hnz w => ?_
    obtain ⟨k, hk⟩ := hnz .neZero (by simp)
    cases hv.of_is ht with
    | nilSlice => simp [runCond, eqZero] at hk
    | slice hb => exact absurd rfl hb
    | bytes b => exact .pure fun _ hw => ⟨rfl, hw⟩
    | alias he | struct he | foreign he => cases he
  | fixedBytes ht =>
    have nb : ¬ BadField Γ fd v := fun h => by
      have h := (bad_is ht).1 h.2
      revert h
      cases hv.of_is ht with
      | array hb => exact absurd rfl hb
      | barr => exact not_bad_leaf (by rintro n ⟨⟩) (by simp) (by simp)
      | alias he | struct he | foreign he => cases he
    refine blk_ends_of nb wc w (fun c hc => neZero c (by simp at hc; exact hc.symm)) fun hnz w => ?_
    cases hv.of_is ht with
    | array hb => exact absurd rfl hb
    | barr => exact .pure fun _ hw => ⟨rfl, hw⟩
    | alias he | struct he | foreign he => cases he

theorem blks_out {C : Prop} (hE : Enders Γ X S C) : ∀ {fields : List FieldDecl} {bs : List Blk} {gs : List GoVal},
    genBlks Γ fields = .ok bs → gs.length = fields.length →
    (∀ (i : Nat) (fd : FieldDecl) (g : GoVal), fields[i]? = some fd → gs[i]? = some g →
      EGood Γ S fd.typ ∧ HasType Γ X fd.typ g ∧ (¬ Omitted Γ fd g → CallsOut Γ C fd.typ g) ∧
      (C → ∀ m, fd.tags.jsonName = [] → ByMethod Γ fd.typ m → Γ.decl m ≠ none)) → ∀ (wc : Bool) (w : W),
    Wr C (BadFields Γ fields gs) w (fun k => runBlks (Γ.methods k) bs gs wc w)
  | [], bs, gs, hb, hl, _, wc, w => by
    simp only [genBlks, Out.ok.injEq] at hb
    subst hb
    cases gs with
    | nil => exact .fine (.pure fun _ hw => ⟨rfl, hw⟩) (by rintro ⟨i, fd, g, hf, _⟩; simp at hf)
    | cons => cases hl
  | fd :: fds, bs, [], _, hl, _, _, _ => by cases hl
  | fd :: fds, bs, g :: gs, hb, hl, h, wc, w => by
    simp only [genBlks] at hb
    obtain ⟨b, h1, hb⟩ := Out.bind_eq_ok.1 hb
    obtain ⟨bs', h2, hb⟩ := Out.bind_eq_ok.1 hb
    simp only [Out.pure_eq, Out.ok.injEq] at hb
    subst hb
    obtain ⟨hg, hv, hc, hemb⟩ := h 0 fd g rfl rfl
    obtain ⟨kd, hp⟩ := blk_plan hE.set.toTypeSet hg h1
    refine ((blk_out hE hp hg hv hc hemb wc w).bind (b2 := BadFields Γ fds gs) fun r hr => ?_).iff badFields_cons
    obtain ⟨e, wc', w1⟩ := r
    cases e with
    | some e =>
      have no : ¬ (C ∧ w.err = none) := fun hD => by have := (hr hD.1 hD.2).1; cases this
      exact ⟨fun _ => .pure fun hC hw => absurd ⟨hC, hw⟩ no, fun hD => absurd hD no⟩
    | none =>
      exact (blks_out hE (fields := fds) (gs := gs) h2 (by simpa using hl)
        (fun i fd' g' hf hg' => h (i + 1) fd' g' (by simpa using hf) (by simpa using hg')) wc' w1).imp
        (fun hD => ⟨hD.1, (hr hD.1 hD.2).2⟩) fun r2 hr2 hC hw => hr2 hC (hr hC hw).2

/-! ### declared types -/

theorem nil_ends (hP : EncoderSet Γ X S) {C : Prop} (hF : C → ForeignFine Γ X S) {n : Nat} (hn : S n) (w : W) :
    Term (fun k => (Γ.methods k n).marshalTo none w) (Done C w) := by
  cases hd : Γ.decl n with
  | none =>
    obtain ⟨r, hr⟩ := hP.foreignNil n w hn hd
    exact (Term.pure (P := Done C w) fun hC hw => (hF hC).nil n w r hn hd hw hr).succ fun k => by rw [methods_none hd, hr]
  | some d =>
    obtain ⟨d', ir, hd', hir⟩ := hP.encoders n hn (by simp [hd])
    rw [hd] at hd'; cases hd'
    refine Term.succ (o := fun k => runMarshal (Γ.methods k) ir none w) ?_ (fun k => by rw [methods_some hd]; simp [declMethods, hir])
    cases ir with
    | struct bs => cases bs <;> exact .pure (.ok _)
    | _ => exact .pure (.ok _)

/-- the end of `MarshalTo`: an error recorded in the writer is returned -/
theorem tail_out {C bad : Prop} {o : Nat → Out (Option EErr × W)} {w : W} (h : Wr C bad w o) (s : Str) :
    Wr C bad w (fun k => do
      let (e, w) ← o k
      match e with
      | some e => return (some e, w)
      | none => return (w.err, w.raw s)) := by
  refine h.andThen fun r hr => ?_
  obtain ⟨e, w1⟩ := r
  cases e with
  | some e => exact .pure fun hC hw => by have := (hr hC hw).1; cases this
  | none => exact .pure fun hC hw => ⟨(hr hC hw).2, (hr hC hw).2⟩

theorem tail_out' {C bad : Prop} {o : Nat → Out (Option EErr × W)} {w : W} (h : Wr C bad w o) :
    Wr C bad w (fun k => do
      let (e, w) ← o k
      match e with
      | some e => return (some e, w)
      | none => return (w.err, w)) := by
  refine h.andThen fun r hr => ?_
  obtain ⟨e, w1⟩ := r
  cases e with
  | some e => exact .pure fun hC hw => by have := (hr hC hw).1; cases this
  | none => exact .pure fun hC hw => ⟨(hr hC hw).2, (hr hC hw).2⟩

/-- how every method called for a part that is written turns out -/
theorem calls_out (hP : EncoderSet Γ X S) {T : TExpr} {V : GoVal} {t : TExpr} {v : GoVal} (hv : HasType Γ X t v) :
    Written Γ T V t v → EGood Γ S t → CallsOut Γ (ForeignFine Γ X S ∧ TimesOK Γ T V) t v := by
  have hE : Enders Γ X S (ForeignFine Γ X S ∧ TimesOK Γ T V) := ⟨hP, fun h => h.1, fun n hn w => nil_ends hP (fun h => h.1) hn w⟩
  generalize hCdef : (ForeignFine Γ X S ∧ TimesOK Γ T V) = C at hE ⊢
  have leaf : ∀ {t v}, (∀ n, ¬ NameOf t n) → ((∀ x, v ≠ .ptr x) ∧ (∀ es sp, v ≠ .slice es sp) ∧ (∀ es, v ≠ .arr es) ∧ ∀ kvs, v ≠ .map kvs) →
      CallsOut Γ C t v := by
    intro t v ht hv u w n hp hn
    rcases hp.front with ⟨rfl, _⟩ | ⟨u', g, hs, _⟩
    · exact absurd hn (ht n)
    · cases hs with
      | ptr => exact absurd rfl (hv.1 _)
      | slice => exact absurd rfl (hv.2.1 _ _)
      | array => exact absurd rfl (hv.2.2.1 _)
      | map => exact absurd rfl (hv.2.2.2 _)
      | alias he | field he => exact absurd he (ht _)
  induction hv with
  | prim h => intro _ _; exact leaf (by rintro n ⟨⟩) (by cases h <;> simp)
  | time => intro _ _; exact leaf (by rintro n ⟨⟩) (by simp)
  | uuid => intro _ _; exact leaf (by rintro n ⟨⟩) (by simp)
  | nilPtr => intro _ _; exact leaf (by rintro n ⟨⟩) (by simp)
  | nilSlice => intro _ _; exact leaf (by rintro n ⟨⟩) (by simp)
  | nilMap => intro _ _; exact leaf (by rintro n ⟨⟩) (by simp)
  | bytes => intro _ _; exact leaf (by rintro n ⟨⟩) (by simp)
  | barr => intro _ _; exact leaf (by rintro n ⟨⟩) (by simp)
  | ptr _ ih =>
    intro hp hg u w n hpu hn
    rcases hpu.front with ⟨rfl, _⟩ | ⟨u', g, hs, h⟩
    · cases hn
    · cases hs with
      | ptr => exact ih (.ptr hp) hg.star u w n h hn
      | alias he => cases he
  | slice _ _ _ ih _ =>
    intro hp hg u w n hpu hn
    rcases hpu.front with ⟨rfl, _⟩ | ⟨u', g, hs, h⟩
    · cases hn
    · cases hs with
      | slice hx => exact ih _ hx (.slice hp hx) hg.slice u w n h hn
      | alias he => cases he
  | array _ _ _ ih =>
    intro hp hg u w n hpu hn
    rcases hpu.front with ⟨rfl, _⟩ | ⟨u', g, hs, h⟩
    · cases hn
    · cases hs with
      | array hx => exact ih _ hx (.array hp hx) hg.array u w n h hn
      | alias he => cases he
  | map _ _ ih =>
    intro hp hg u w n hpu hn
    rcases hpu.front with ⟨rfl, _⟩ | ⟨u', g, hs, h⟩
    · cases hn
    · cases hs with
      | map hx => exact ih _ hx (.map hp hx) hg.map u w n h hn
      | alias he => cases he
  | @foreign e m v he hd hx =>
    intro hp hg u w n hpu hn
    rcases hpu.front with ⟨rfl, rfl⟩ | ⟨u', g, hs, h⟩
    · cases hn.inj he
      intro w'
      obtain ⟨r, hr⟩ := hP.foreign m w w' (hg.name hn) hd hx
      exact .fine ((Term.pure (P := Done C w') fun hC hw => (hE.fine hC).val m w w' r (hg.name hn) hd hx hw hr).succ
        fun k => by rw [methods_none hd, hr]) (not_bad_foreign hn hd)
    · cases hs with
      | alias he' hd' | field he' hd' => cases he.inj he'; rw [hd] at hd'; cases hd'
      | _ => cases he
  | @struct e m strict fields gs he hd hl h ih =>
    intro hp hg u w n hpu hn
    have hfd : ∀ (i : Nat) (fd : FieldDecl) (g : GoVal), fields[i]? = some fd → gs[i]? = some g → ¬ Omitted Γ fd g → CallsOut Γ C fd.typ g :=
      fun i fd g hf hgi ho => ih i fd g hf hgi (.field hp he hd hf hgi ho) (hP.field (hg.name he) hd (List.mem_of_getElem? hf))
    rcases hpu.front with ⟨rfl, rfl⟩ | ⟨u', g, hs, h⟩
    · cases hn.inj he
      intro w
      obtain ⟨d', ir, hd', hir⟩ := hP.encoders m (hg.name hn) (by simp [hd])
      rw [hd] at hd'; cases hd'
      refine Turns.succ (o := fun k => runMarshal (Γ.methods k) ir (some (.struct gs)) w) (Turns.iff ?_ (bad_struct hn hd))
        (fun k => by rw [methods_some hd]; simp [declMethods, hir])
      cases decl_plan hP.toTypeSet (hg.name hn) hd hir with
      | struct hbs =>
        rename_i bs
        have main := blks_out (C := C) hE hbs hl (fun i fd g hf hgi => by
          exact ⟨hP.field (hg.name he) hd (List.mem_of_getElem? hf), h i fd g hf hgi, hfd i fd g hf hgi,
            fun hC m' hj hm' => (hE.fine hC).embeds m strict fields fd m' (hg.name he) hd (List.mem_of_getElem? hf) hj hm'⟩) false (w.raw ['{'])
        cases bs with
        | nil =>
          refine .fine (.pure (.ok _)) ?_
          rintro ⟨i, fd, g, hf, _⟩
          cases fields with
          | nil => simp at hf
          | cons fd fds =>
            simp only [genBlks] at hbs
            obtain ⟨b, h1, hb⟩ := Out.bind_eq_ok.1 hbs
            obtain ⟨bs', h2, hb⟩ := Out.bind_eq_ok.1 hb
            cases hb
        | cons b bs => exact tail_out (Wr.raw main rfl) ['}']
    · cases hs with
      | alias he' hd' => cases he.inj he'; rw [hd] at hd'; cases hd'
      | field he' hd' hf hgi ho => cases he.inj he'; rw [hd] at hd'; cases hd'; exact hfd _ _ _ hf hgi ho u w n h hn
  | @alias e t m v he hd h ih =>
    intro hp hg u w n hpu hn
    have hgt := hP.alias (hg.name he) hd
    have hct := ih (.alias hp he hd) hgt
    rcases hpu.front with ⟨rfl, rfl⟩ | ⟨u', g, hs, hp'⟩
    · cases hn.inj he
      intro w'
      obtain ⟨d', ir, hd', hir⟩ := hP.encoders m (hg.name hn) (by simp [hd])
      rw [hd] at hd'; cases hd'
      refine Turns.succ (o := fun k => runMarshal (Γ.methods k) ir (some w) w') (Turns.iff ?_ (bad_alias hn hd))
        (fun k => by rw [methods_some hd]; simp [declMethods, hir])
      cases decl_plan hP.toTypeSet (hg.name hn) hd hir with
      | map hx =>
        rcases h.map_cases with rfl | ⟨kvs, rfl, hkv⟩
        · exact .fine (.pure (.ok _)) (not_bad_leaf (by rintro n ⟨⟩) (by simp) (by simp))
        · exact tail_out' (Turns.iff (map_out hE hx hgt.map (fun kv hm => ⟨hkv.2 kv hm, hct.part (.map .self hm)⟩) [] w') bad_map)
      | slice hb hx =>
        rcases h.slice_cases hb with rfl | ⟨es, sp, rfl, hes, _⟩
        · exact .fine (.pure (.ok _)) (not_bad_leaf (by rintro n ⟨⟩) (by simp) (by simp))
        · exact tail_out' (Turns.iff (list_out hE hx hgt.slice (fun c hm => ⟨hes c hm, hct.part (.slice .self hm)⟩) [] w') bad_slice)
      | array hb hx =>
        obtain ⟨es, rfl, _, hes⟩ := h.array_cases hb
        exact tail_out' (Turns.iff (list_out hE hx hgt.array (fun c hm => ⟨hes c hm, hct.part (.array .self hm)⟩) [] w') bad_array)
      | bytes =>
        cases h with
        | nilSlice => exact .fine (.pure (.ok _)) (not_bad_leaf (by rintro n ⟨⟩) (by simp) (by simp))
        | slice hb => exact absurd rfl hb
        | bytes => exact .fine (.pure fun _ hw => ⟨rfl, hw⟩) (not_bad_leaf (by rintro n ⟨⟩) (by simp) (by simp))
        | alias he | struct he | foreign he => cases he
      | fixedBytes =>
        cases h with
        | array hb => exact absurd rfl hb
        | barr => exact .fine (.pure fun _ hw => ⟨rfl, hw⟩) (not_bad_leaf (by rintro n ⟨⟩) (by simp) (by simp))
        | alias he | struct he | foreign he => cases he
      | time =>
        refine .fine ?_ not_bad_time
        cases h with
        | time tm =>
          simp only [runMarshal]
          cases ht : Ext.timeText tm with
          | some s => exact .pure (.ok _)
          | none =>
            refine .pure fun hC _ => ?_
            subst hCdef
            obtain ⟨s, hs⟩ := hC.2 u m tm hp hn hd
            rw [ht] at hs; cases hs
        | alias he | struct he | foreign he => cases he
      | uuid =>
        refine .fine ?_ not_bad_uuid
        cases h with
        | uuid => exact .pure (.ok _)
        | alias he | struct he | foreign he => cases he
      | prim p =>
        refine .fine ?_ not_bad_prim
        cases h with
        | prim h =>
          cases h with
          | int hw hr => cases p <;> first | exact .pure (.ok _) | cases hw
          | _ => exact .pure fun _ hw => ⟨rfl, hw⟩
        | alias he | struct he | foreign he => cases he
      | name hm => exact hct.call hm w'
    · cases hs with
      | alias he' hd' => cases he.inj he'; rw [hd] at hd'; cases hd'; exact hct u w n hp' hn
      | field he' hd' => cases he.inj he'; rw [hd] at hd'; cases hd'
      | _ => cases he

end VJ
