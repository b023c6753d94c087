import Verif.Spec.Support
import Verif.Proof.Plan

/-!
# Which types the generator supports: encoding
-/

namespace VJ
set_option linter.unusedSectionVars false
set_option linter.unusedSimpArgs false
set_option linter.unusedVariables false

/-- something is generated -/
def Okay {α : Type} (o : Out α) : Prop := ∃ x, o = .ok x

theorem okay_ok {α : Type} (x : α) : Okay (.ok x : Out α) := ⟨x, rfl⟩
@[simp] theorem okay_ok_iff {α : Type} (x : α) : Okay (.ok x : Out α) ↔ True := ⟨fun _ => trivial, fun _ => ⟨x, rfl⟩⟩
@[simp] theorem okay_pure_iff {α : Type} (x : α) : Okay (pure x : Out α) ↔ True := ⟨fun _ => trivial, fun _ => ⟨x, rfl⟩⟩
@[simp] theorem okay_unsupp {α : Type} : Okay (.unsupp : Out α) ↔ False := ⟨fun ⟨_, h⟩ => (nomatch h), False.elim⟩
@[simp] theorem okay_loop {α : Type} : Okay (.loop : Out α) ↔ False := ⟨fun ⟨_, h⟩ => (nomatch h), False.elim⟩

theorem okay_bind {α β : Type} {o : Out α} {f : α → Out β} : Okay (o >>= f) ↔ ∃ x, o = .ok x ∧ Okay (f x) := by
  constructor
  · rintro ⟨y, h⟩
    obtain ⟨x, hx, hy⟩ := Out.bind_eq_ok.1 h
    exact ⟨x, hx, y, hy⟩
  · rintro ⟨x, rfl, y, hy⟩
    exact ⟨y, by rw [Out.ok_bind, hy]⟩

@[simp] theorem okay_map {α β : Type} {o : Out α} {g : α → β} : Okay (o >>= fun x => .ok (g x)) ↔ Okay o := by
  rw [okay_bind]
  exact ⟨fun ⟨x, hx, _⟩ => ⟨x, hx⟩, fun ⟨x, hx⟩ => ⟨x, hx, okay_ok _⟩⟩

@[simp] theorem okay_map' {α β : Type} {o : Out α} {g : α → β} : Okay (o >>= fun x => pure (g x)) ↔ Okay o := okay_map

@[simp] theorem okay_id {α : Type} {o : Out α} : Okay (o >>= fun x => .ok x) ↔ Okay o := okay_map (g := id)

@[simp] theorem okay_ite {α : Type} {c : Prop} [Decidable c] {x : α} : Okay (if c then .ok x else .unsupp : Out α) ↔ c := by
  split <;> simp_all

theorem primVExt_okay {p : Prim} : Okay (primVExt p) ↔ p.hasJSON := by
  cases p <;> simp [primVExt, Prim.hasJSON]

/-- what a name denotes -/
theorem denoted_name {Γ : Env} {t : TExpr} {n : Nat} (h : NameOf t n) :
    Γ.denoted t = match (generalizing := false) Γ.decl n with
      | some (.struct _ _) => .structT
      | some (.alias u) => u
      | none => t := by
  cases h <;> (simp only [Env.denoted, Env.denotedIdent]; cases hd : Γ.decl n with
    | none => rfl
    | some d => cases d <;> rfl)

theorem denoted_not_name {Γ : Env} {t : TExpr} (h : ∀ n, ¬ NameOf t n) : Γ.denoted t = t := by
  cases t with
  | named n => exact absurd (.named n) (h n)
  | sel n => exact absurd (.sel n) (h n)
  | _ => rfl

theorem isPrim_name {Γ : Env} {t : TExpr} {n : Nat} {p : Prim} (h : NameOf t n) : IsPrim Γ t p ↔ Γ.decl n = some (.alias (.prim p)) := by
  cases h
  · exact ⟨fun h => by cases h; assumption, fun h => .named h⟩
  · exact ⟨fun h => by cases h; assumption, fun h => .sel h⟩

/-- the first test of `leafExt` -/
theorem leafTest {Γ : Env} {t : TExpr} :
    (t ≠ Γ.denoted t ∧ (Γ.denoted t).isOrdinal = true) ↔ ∃ n p, NameOf t n ∧ IsPrim Γ t p := by
  constructor
  · rintro ⟨h1, h2⟩
    obtain ⟨p, hp⟩ := isOrdinal_iff.1 h2
    have hip := denoted_prim.1 hp
    cases hip with
    | self => simp [Env.denoted] at h1
    | named h => exact ⟨_, _, .named _, .named h⟩
    | sel h => exact ⟨_, _, .sel _, .sel h⟩
  · rintro ⟨n, p, hn, hp⟩
    have := denoted_prim.2 hp
    rw [this]
    refine ⟨?_, rfl⟩
    cases hn <;> simp

/-- pieces of a type expression -/
theorem nameOf_cases (t : TExpr) : (∃ n, NameOf t n) ∨ ∀ n, ¬ NameOf t n := by
  cases t with
  | named n => exact Or.inl ⟨n, .named n⟩
  | sel n => exact Or.inl ⟨n, .sel n⟩
  | _ => exact Or.inr fun n h => by cases h

theorem leafExt_prim {Γ : Env} {src t : TExpr} {n : Nat} {p : Prim} (dec : Bool) (hn : NameOf t n) (hp : IsPrim Γ t p) :
    Okay (leafExt Γ src t dec) ↔ p.hasJSON := by
  have ht := leafTest.2 ⟨n, p, hn, hp⟩
  have hd := denoted_prim.2 hp
  cases hn <;>
    (unfold leafExt
     simp only [hd] at ht ⊢
     rw [if_pos ht]
     simp [primVExt_okay])

theorem leafExt_primPtr {Γ : Env} {src t : TExpr} {n : Nat} {p : Prim} (dec : Bool) (hn : NameOf t n) (hp : IsPrim Γ t p) :
    Okay (leafExt Γ src (.star t) dec) ↔ p.hasJSON := by
  have ht := leafTest.2 ⟨n, p, hn, hp⟩
  have hd := denoted_prim.2 hp
  unfold leafExt
  simp only [hd] at ht ⊢
  rw [if_pos ht]
  simp [primVExt_okay]

theorem leafExt_name {Γ : Env} {src t : TExpr} {n : Nat} (dec : Bool) (hn : NameOf t n) (hp : ∀ p, ¬ IsPrim Γ t p) :
    leafExt Γ src t dec = callExt src := by
  have ht : ¬ (t ≠ Γ.denoted t ∧ (Γ.denoted t).isOrdinal = true) := fun h => by
    obtain ⟨_, p, _, h⟩ := leafTest.1 h
    exact hp p h
  cases hn <;> (unfold leafExt; simp only; rw [if_neg ht])

theorem leafExt_namePtr {Γ : Env} {src t : TExpr} {n : Nat} (dec : Bool) (hn : NameOf t n) (hp : ∀ p, ¬ IsPrim Γ t p) :
    leafExt Γ src (.star t) dec = callExt src := by
  have ht : ¬ (t ≠ Γ.denoted t ∧ (Γ.denoted t).isOrdinal = true) := fun h => by
    obtain ⟨_, p, _, h⟩ := leafTest.1 h
    exact hp p h
  cases hn <;> (unfold leafExt; simp only; rw [if_neg ht])

theorem callExt_okay {t : TExpr} : Okay (callExt t) ↔ ∃ n, NameOf (pointee t) n := by
  constructor
  · intro h
    unfold callExt at h
    split at h
    · exact ⟨_, .named _⟩
    · exact ⟨_, .sel _⟩
    · exact ⟨_, .named _⟩
    · exact ⟨_, .sel _⟩
    · simp at h
  · rintro ⟨n, h⟩
    cases t with
    | star u => simp only [pointee] at h; cases h <;> simp [callExt]
    | _ => simp only [pointee] at h; cases h <;> simp [callExt]

/-- types that are neither names nor pointers to names -/
theorem leafExt_lit {Γ : Env} {src t : TExpr} {dec : Bool} (hn : ∀ n, ¬ NameOf t n) (hs : ∀ u, t ≠ .star u) :
    Okay (leafExt Γ src t dec) ↔
      (∃ p, t = .prim p ∧ p.hasJSON ∧ (p = .string → src = .prim .string ∨ dec = true)) ∨
      (t = .structT ∧ ∃ n, NameOf (pointee src) n) ∨ (t = .time ∧ src = .time) := by
  cases t with
  | named n => exact absurd (.named n) (hn n)
  | sel n => exact absurd (.sel n) (hn n)
  | star u => exact absurd rfl (hs u)
  | prim p =>
    simp only [leafExt, Env.denoted, ne_eq, not_true_eq_false, false_and, if_false, TExpr.prim.injEq, exists_eq_left',
      reduceCtorEq, false_and, or_false]
    cases p <;> simp [primVExt, Prim.hasJSON]
  | structT => simp [leafExt, Env.denoted, callExt_okay]
  | time => simp [leafExt, Env.denoted]
  | _ => simp [leafExt, Env.denoted]

theorem leafExt_litPtr {Γ : Env} {src t : TExpr} {dec : Bool} (hn : ∀ n, ¬ NameOf t n) :
    Okay (leafExt Γ src (.star t) dec) ↔
      (∃ p, t = .prim p ∧ p.hasJSON) ∨ (t = .structT ∧ ∃ n, NameOf (pointee src) n) := by
  cases t with
  | named n => exact absurd (.named n) (hn n)
  | sel n => exact absurd (.sel n) (hn n)
  | prim p =>
    simp only [leafExt, Env.denoted, ne_eq, not_true_eq_false, false_and, if_false, TExpr.prim.injEq, exists_eq_left',
      reduceCtorEq, false_and, or_false]
    cases p <;> simp [primVExt, Prim.hasJSON]
  | structT => simp [leafExt, Env.denoted, callExt_okay]
  | _ => simp [leafExt, Env.denoted]

theorem innerElem_iff {Γ : Env} {e : TExpr} : Okay (leafExt Γ e e false) ↔ InnerElem Γ e := by
  constructor
  · intro h
    rcases nameOf_cases e with ⟨n, hn⟩ | hn
    · by_cases hp : ∃ p, IsPrim Γ e p
      · obtain ⟨p, hp⟩ := hp
        exact .prim hp ((leafExt_prim false hn hp).1 h)
      · exact .name hn fun p h => hp ⟨p, h⟩
    · by_cases hs : ∃ u, e = .star u
      · obtain ⟨u, rfl⟩ := hs
        rcases nameOf_cases u with ⟨n, hu⟩ | hu
        · by_cases hp : ∃ p, IsPrim Γ u p
          · obtain ⟨p, hp⟩ := hp
            exact .primPtr hp ((leafExt_primPtr false hu hp).1 h)
          · exact .namePtr hu fun p h => hp ⟨p, h⟩
        · rcases (leafExt_litPtr hu).1 h with ⟨p, rfl, hp⟩ | ⟨rfl, n, h⟩
          · exact .primPtr (.self p) hp
          · cases h
      · rcases (leafExt_lit hn fun u h => hs ⟨u, h⟩).1 h with ⟨p, rfl, hp, _⟩ | ⟨rfl, n, h⟩ | ⟨rfl, _⟩
        · exact .prim (.self p) hp
        · cases h
        · exact .time
  · intro h
    cases h with
    | @prim _ p h hp =>
      rcases nameOf_cases e with ⟨n, hn⟩ | hn
      · exact (leafExt_prim false hn h).2 hp
      · cases h with
        | self => exact (leafExt_lit hn (by simp)).2 (Or.inl ⟨p, rfl, hp, fun h => Or.inl (by rw [h])⟩)
        | named h => exact absurd (.named _) (hn _)
        | sel h => exact absurd (.sel _) (hn _)
    | @primPtr t p h hp =>
      rcases nameOf_cases t with ⟨n, hn⟩ | hn
      · exact (leafExt_primPtr false hn h).2 hp
      · cases h with
        | self => exact (leafExt_litPtr hn).2 (Or.inl ⟨p, rfl, hp⟩)
        | named h => exact absurd (.named _) (hn _)
        | sel h => exact absurd (.sel _) (hn _)
    | time => simp [leafExt, Env.denoted]
    | @name _ n h hp =>
      rw [leafExt_name false h hp, callExt_okay]
      refine ⟨n, ?_⟩
      cases h
      · exact .named _
      · exact .sel _
    | @namePtr t n h hp =>
      rw [leafExt_namePtr false h hp, callExt_okay]
      exact ⟨n, h⟩

theorem valueExt_list {Γ : Env} {src t : TExpr} {dec : Bool} (h : (∃ e, t = .slice e) ∨ ∃ len e, t = .array len e) :
    Okay (valueExt Γ src t dec) ↔ InnerList Γ t := by
  have key : ∀ e : TExpr, Okay (if e.isByte = true then (.unsupp : Out VExt)
      else match e with
        | .slice _ | .array _ _ => .unsupp
        | _ => (do
          let x ← leafExt Γ e e false
          return .arr x : Out VExt)) ↔ e ≠ .prim .byte ∧ InnerElem Γ e := by
    intro e
    by_cases hb : e = .prim .byte
    · simp [hb, TExpr.isByte]
    · have hbb : e.isByte = false := by
        cases h : e.isByte with
        | false => rfl
        | true => exact absurd (isByte_iff.1 h) hb
      simp only [hbb, Bool.false_eq_true, if_false, ne_eq, hb, not_false_eq_true, true_and]
      rw [← innerElem_iff]
      split
      · simp [leafExt, Env.denoted]
      · simp [leafExt, Env.denoted]
      · simp
  rcases h with ⟨e, rfl⟩ | ⟨len, e, rfl⟩
  · simp only [valueExt]
    refine (key e).trans ⟨fun ⟨h1, h2⟩ => .slice h1 h2, fun h => ?_⟩
    cases h with | slice h1 h2 => exact ⟨h1, h2⟩
  · simp only [valueExt]
    refine (key e).trans ⟨fun ⟨h1, h2⟩ => .array h1 h2, fun h => ?_⟩
    cases h with | array h1 h2 => exact ⟨h1, h2⟩

theorem valueExt_leaf {Γ : Env} {src t : TExpr} {dec : Bool} (h1 : ∀ e, t ≠ .slice e) (h2 : ∀ len e, t ≠ .array len e) :
    valueExt Γ src t dec = leafExt Γ src t dec := by
  unfold valueExt
  split
  · exact absurd rfl (h1 _)
  · exact absurd rfl (h2 _ _)
  · rfl

/-- elements, when names are seen through -/
inductive WCore (Γ : Env) (dec : Bool) : TExpr → Prop
  | prim {e : TExpr} {p : Prim} (h : IsPrim Γ e p) (hp : p.hasJSON) (hs : p = .string → e = .prim .string ∨ dec = true) : WCore Γ dec e
  | chain {e u : TExpr} {n m : Nat} {p : Prim} (he : NameOf e n) (hd : Γ.decl n = some (.alias u)) (hu : NameOf u m)
      (h : IsPrim Γ u p) (hp : p.hasJSON) : WCore Γ dec e
  | primPtr {e u : TExpr} {p : Prim} (hs : Sees Γ e (.star u)) (h : IsPrim Γ u p) (hp : p.hasJSON) : WCore Γ dec e
  | time : WCore Γ dec .time
  | list {e u : TExpr} (hs : Sees Γ e u) (h : InnerList Γ u) : WCore Γ dec e
  | method {e : TExpr} {n : Nat} (he : NameOf e n) (h : Named Γ n) : WCore Γ dec e
  | methodPtr {u : TExpr} {n : Nat} (he : NameOf u n) (hp : ∀ p, ¬ IsPrim Γ u p) : WCore Γ dec (.star u)

theorem sees_name {Γ : Env} {e u : TExpr} {n : Nat} (he : NameOf e n) (hd : Γ.decl n = some (.alias u)) : Sees Γ e u := by
  cases he
  · exact .is (.named hd)
  · exact .sel hd

theorem sees_denoted {Γ : Env} {e u : TExpr} (h : Sees Γ e u) (hu : ∀ n, ¬ NameOf u n) : Γ.denoted e = u := by
  cases h with
  | is h =>
    cases h with
    | self => exact denoted_not_name hu
    | named h => rw [denoted_name (.named _), h]
  | sel h => rw [denoted_name (.sel _), h]

theorem pointee_name {e : TExpr} {n : Nat} (h : NameOf e n) : NameOf (pointee e) n := by
  cases h
  · exact .named _
  · exact .sel _

theorem innerList_cases {Γ : Env} {t : TExpr} (h : InnerList Γ t) : (∃ e, t = .slice e) ∨ ∃ len e, t = .array len e := by
  cases h
  · exact Or.inl ⟨_, rfl⟩
  · exact Or.inr ⟨_, _, rfl⟩

theorem valueExt_name {Γ : Env} {src t : TExpr} {n : Nat} {dec : Bool} (hn : NameOf t n) :
    valueExt Γ src t dec = leafExt Γ src t dec := by
  apply valueExt_leaf <;> (intros; cases hn <;> simp)

theorem valueExt_star {Γ : Env} {src t : TExpr} {dec : Bool} : valueExt Γ src (.star t) dec = leafExt Γ src (.star t) dec := rfl

theorem noAnon_alias {Γ : Env} (hna : NoAnonymous Γ) {n : Nat} {u : TExpr} (hd : Γ.decl n = some (.alias u)) : u.anon = false :=
  hna n _ u hd (by simp [Decl.types])

/-- a pointer to something -/
theorem leafExt_ofStar {Γ : Env} {src t : TExpr} {dec : Bool} (ha : t.anon = false) :
    Okay (leafExt Γ src (.star t) dec) ↔
      (∃ p, IsPrim Γ t p ∧ p.hasJSON) ∨ ((∃ n, NameOf t n) ∧ (∀ p, ¬ IsPrim Γ t p) ∧ ∃ n, NameOf (pointee src) n) := by
  rcases nameOf_cases t with ⟨n, hn⟩ | hn
  · by_cases hp : ∃ p, IsPrim Γ t p
    · obtain ⟨p, hp⟩ := hp
      rw [leafExt_primPtr dec hn hp]
      refine ⟨fun h => Or.inl ⟨p, hp, h⟩, ?_⟩
      rintro (⟨q, hq, h⟩ | ⟨_, h, _⟩)
      · rw [isPrim_name hn] at hp hq
        rw [hp] at hq
        cases hq
        exact h
      · exact absurd hp (h p)
    · rw [leafExt_namePtr dec hn fun p h => hp ⟨p, h⟩, callExt_okay]
      refine ⟨fun h => Or.inr ⟨⟨n, hn⟩, fun p h => hp ⟨p, h⟩, h⟩, ?_⟩
      rintro (⟨q, hq, h⟩ | ⟨_, _, h⟩)
      · exact absurd ⟨q, hq⟩ hp
      · exact h
  · rw [leafExt_litPtr hn]
    constructor
    · rintro (⟨p, rfl, hp⟩ | ⟨rfl, _⟩)
      · exact Or.inl ⟨p, .self p, hp⟩
      · simp [TExpr.anon] at ha
    · rintro (⟨p, hp, h⟩ | ⟨⟨n, h⟩, _⟩)
      · cases hp with
        | self => exact Or.inl ⟨p, rfl, h⟩
        | named => exact absurd (.named _) (hn _)
        | sel => exact absurd (.sel _) (hn _)
      · exact absurd h (hn n)

theorem valueExt_core {Γ : Env} (hna : NoAnonymous Γ) {e : TExpr} (ha : e.anon = false) {dec : Bool} :
    Okay (valueExt Γ e (Γ.denoted e) dec) ↔ WCore Γ dec e := by
  constructor
  · intro h
    rcases nameOf_cases e with ⟨n, hn⟩ | hn
    · rw [denoted_name hn] at h
      cases hd : Γ.decl n with
      | none => exact .method hn (.foreign hd)
      | some d =>
        cases d with
        | struct st fs => exact .method hn (.struct hd)
        | alias u =>
          simp only [hd] at h
          have hs := sees_name hn hd
          by_cases hl : (∃ e, u = .slice e) ∨ ∃ len e, u = .array len e
          · exact .list hs ((valueExt_list hl).1 h)
          · rw [valueExt_leaf (fun e he => hl (Or.inl ⟨e, he⟩)) (fun n e he => hl (Or.inr ⟨n, e, he⟩))] at h
            rcases nameOf_cases u with ⟨m, hm⟩ | hm
            · by_cases hp : ∃ p, IsPrim Γ u p
              · obtain ⟨p, hp⟩ := hp
                exact .chain hn hd hm hp ((leafExt_prim dec hm hp).1 h)
              · exact .method hn (.name hd hm fun p h => hp ⟨p, h⟩)
            · by_cases hst : ∃ x, u = .star x
              · obtain ⟨x, rfl⟩ := hst
                rcases (leafExt_ofStar (by simpa [TExpr.anon] using noAnon_alias hna hd)).1 h with ⟨p, hp, hj⟩ | ⟨⟨m, hm⟩, hp, _⟩
                · exact .primPtr hs hp hj
                · exact .method hn (.ptr hd hm hp)
              · rcases (leafExt_lit hm fun x h => hst ⟨x, h⟩).1 h with ⟨p, rfl, hp, hstr⟩ | ⟨rfl, _⟩ | ⟨rfl, rfl⟩
                · exact .prim ((isPrim_name hn).2 hd) hp hstr
                · have := noAnon_alias hna hd; simp [TExpr.anon] at this
                · cases hn
    · rw [denoted_not_name hn] at h
      by_cases hl : (∃ x, e = .slice x) ∨ ∃ len x, e = .array len x
      · exact .list (.is (.self _)) ((valueExt_list hl).1 h)
      · rw [valueExt_leaf (fun x he => hl (Or.inl ⟨x, he⟩)) (fun n x he => hl (Or.inr ⟨n, x, he⟩))] at h
        by_cases hst : ∃ x, e = .star x
        · obtain ⟨x, rfl⟩ := hst
          rcases (leafExt_ofStar (by simpa [TExpr.anon] using ha)).1 h with ⟨p, hp, hj⟩ | ⟨⟨m, hm⟩, hp, _⟩
          · exact .primPtr (.is (.self _)) hp hj
          · exact .methodPtr hm hp
        · rcases (leafExt_lit hn fun x h => hst ⟨x, h⟩).1 h with ⟨p, rfl, hp, hstr⟩ | ⟨rfl, _⟩ | ⟨rfl, _⟩
          · exact .prim (.self p) hp hstr
          · simp [TExpr.anon] at ha
          · exact .time
  · intro h
    cases h with
    | @prim _ p h hp hs =>
      rw [denoted_prim.2 h, valueExt_leaf (by simp) (by simp), leafExt_lit (by intro n h; cases h) (by simp)]
      exact Or.inl ⟨p, rfl, hp, hs⟩
    | chain he hd hu h hp =>
      rw [denoted_name he, hd]
      simp only
      rw [valueExt_name hu, leafExt_prim dec hu h]
      exact hp
    | @primPtr _ u p hs h hp =>
      rw [sees_denoted hs (by intro n h; cases h), valueExt_star]
      rcases nameOf_cases u with ⟨m, hm⟩ | hm
      · exact (leafExt_primPtr dec hm h).2 hp
      · cases h with
        | self => exact (leafExt_litPtr hm).2 (Or.inl ⟨p, rfl, hp⟩)
        | named => exact absurd (.named _) (hm _)
        | sel => exact absurd (.sel _) (hm _)
    | time => simp [Env.denoted, valueExt, leafExt]
    | @list _ u hs h =>
      have hl := innerList_cases h
      rw [sees_denoted hs (by intro n h; rcases hl with ⟨e, rfl⟩ | ⟨len, e, rfl⟩ <;> cases h), valueExt_list hl]
      exact h
    | @method _ n he h =>
      rw [denoted_name he]
      cases h with
      | foreign hd =>
        simp only [hd]
        rw [valueExt_name he, leafExt_name dec he (fun p h => by rw [isPrim_name he, hd] at h; cases h), callExt_okay]
        exact ⟨n, pointee_name he⟩
      | struct hd =>
        simp only [hd]
        rw [valueExt_leaf (by simp) (by simp), leafExt_lit (by intro n h; cases h) (by simp)]
        exact Or.inr (Or.inl ⟨rfl, n, pointee_name he⟩)
      | name hd hu hp =>
        simp only [hd]
        rw [valueExt_name hu, leafExt_name dec hu hp, callExt_okay]
        exact ⟨n, pointee_name he⟩
      | ptr hd hu hp =>
        simp only [hd]
        rw [valueExt_star, leafExt_namePtr dec hu hp, callExt_okay]
        exact ⟨n, pointee_name he⟩
    | @methodPtr u n he hp =>
      rw [denoted_not_name (by intro n h; cases h), valueExt_star, leafExt_namePtr dec he hp, callExt_okay]
      exact ⟨n, he⟩

/-! ### the three kinds of collection -/

theorem fieldDecStr_iff {Γ : Env} {e : TExpr} : fieldDecStr Γ e = true ↔ ∃ n, e = .named n ∧ IsPrim Γ e .string := by
  cases e with
  | named n =>
    have : fieldDecStr Γ (.named n) = true ↔ Γ.denoted (.named n) = .prim .string := by simp [fieldDecStr, Env.denoted]
    rw [this, denoted_prim]
    simp
  | _ => simp [fieldDecStr]

theorem core_field {Γ : Env} {e : TExpr} : WCore Γ (fieldDecStr Γ e) e ↔ Writable Γ .field e := by
  constructor
  · intro h
    cases h with
    | @prim _ p h hp hs =>
      refine .prim h hp fun _ hps n hen => ?_
      subst hen
      rcases hs hps with h | h
      · cases h
      · obtain ⟨m, hm, _⟩ := fieldDecStr_iff.1 h; cases hm
    | chain he hd hu h hp => exact .chain (by simp) he hd hu h hp
    | primPtr hs h hp => exact .primPtr (by simp) hs h hp
    | time => exact .time
    | list hs h =>
      cases hs with
      | is hi =>
        cases hi with
        | self => exact .list h
        | named hd => exact .namedList (by simp) (by simp) (.named _) hd h
      | sel hd => exact .namedList (by simp) (by simp) (.sel _) hd h
    | method he h => exact .method he h
    | methodPtr he hp => exact .methodPtr he hp
  · intro h
    cases h with
    | @prim _ p h hp hs =>
      refine .prim h hp fun hps => ?_
      subst hps
      cases h with
      | self => exact Or.inl rfl
      | named hd => exact Or.inr (fieldDecStr_iff.2 ⟨_, rfl, .named hd⟩)
      | @sel n hd => exact absurd rfl (hs rfl rfl n)
    | chain _ he hd hu h hp => exact .chain he hd hu h hp
    | primPtr _ hs h hp => exact .primPtr hs h hp
    | time => exact .time
    | list h => exact .list (.is (.self _)) h
    | namedList _ _ he hd h => exact .list (sees_name he hd) h
    | method he h => exact .method he h
    | selMethod hw => cases hw
    | methodPtr he hp => exact .methodPtr he hp

theorem writable_field {Γ : Env} (hna : NoAnonymous Γ) {e : TExpr} (ha : e.anon = false) :
    Okay (valueExt Γ e (Γ.denoted e) (fieldDecStr Γ e)) ↔ Writable Γ .field e :=
  (valueExt_core hna ha).trans core_field

/-- the type of the values of a named map, as the generator sees it -/
def mapElemT (Γ : Env) (v : TExpr) : TExpr :=
  match v with
  | .named n => Γ.denotedIdent n (.named n)
  | v => v

theorem writable_namedMap {Γ : Env} (hna : NoAnonymous Γ) {e : TExpr} (ha : e.anon = false) :
    Okay (valueExt Γ e (mapElemT Γ e) (fieldDecStr Γ e)) ↔ Writable Γ .namedMap e := by
  by_cases hsel : ∃ n, e = .sel n
  · obtain ⟨n, rfl⟩ := hsel
    have he : mapElemT Γ (.sel n) = .sel n := rfl
    rw [he, valueExt_name (.sel n)]
    by_cases hp : ∃ p, IsPrim Γ (.sel n) p
    · obtain ⟨p, hp⟩ := hp
      rw [leafExt_prim _ (.sel n) hp]
      refine ⟨fun h => .prim hp h (by simp), fun h => ?_⟩
      have hdn := (isPrim_name (.sel n)).1 hp
      cases h with
      | prim h hj => rw [isPrim_unique hp h]; exact hj
      | chain hw he hd hu _ _ => exact absurd rfl (hw rfl n)
      | primPtr hw => exact absurd rfl (hw rfl n)
      | list h => cases h
      | namedList _ hw => exact absurd rfl (hw rfl n)
      | method he h =>
        cases he
        cases h with
        | foreign h => rw [hdn] at h; cases h
        | struct h => rw [hdn] at h; cases h
        | name h hu => rw [hdn] at h; cases h; cases hu
        | ptr h => rw [hdn] at h; cases h
      | selMethod _ h => exact absurd hp (h p)
    · rw [leafExt_name _ (.sel n) fun p h => hp ⟨p, h⟩, callExt_okay]
      exact ⟨fun _ => .selMethod rfl fun p h => hp ⟨p, h⟩, fun _ => ⟨n, .sel n⟩⟩
  · have heq : mapElemT Γ e = Γ.denoted e := by
      cases e with
      | sel n => exact absurd ⟨n, rfl⟩ hsel
      | _ => rfl
    rw [heq, writable_field hna ha]
    have hs : ∀ n, e ≠ .sel n := fun n h => hsel ⟨n, h⟩
    constructor
    · intro h
      cases h with
      | prim h hp _ => exact .prim h hp fun _ _ => hs
      | chain _ he hd hu h hp => exact .chain (fun _ => hs) he hd hu h hp
      | primPtr _ h h1 h2 => exact .primPtr (fun _ => hs) h h1 h2
      | time => exact .time
      | list h => exact .list h
      | namedList _ _ he hd h => exact .namedList (by simp) (fun _ => hs) he hd h
      | method he h => exact .method he h
      | selMethod hw => cases hw
      | methodPtr he hp => exact .methodPtr he hp
    · intro h
      cases h with
      | prim h hp _ => exact .prim h hp fun _ _ => hs
      | chain _ he hd hu h hp => exact .chain (fun _ => hs) he hd hu h hp
      | primPtr _ h h1 h2 => exact .primPtr (fun _ => hs) h h1 h2
      | time => exact .time
      | list h => exact .list h
      | namedList _ _ he hd h => exact .namedList (by simp) (fun _ => hs) he hd h
      | method he h => exact .method he h
      | selMethod => exact absurd rfl (hs _)
      | methodPtr he hp => exact .methodPtr he hp

theorem denoted_decl {Γ : Env} {e u : TExpr} {n : Nat} (hn : NameOf e n) (hd : Γ.denoted e = u) (hu : ∀ m, ¬ NameOf u m)
    (hs : u ≠ .structT) : Γ.decl n = some (.alias u) := by
  rw [denoted_name hn] at hd
  cases hdn : Γ.decl n with
  | none => rw [hdn] at hd; simp only at hd; subst hd; exact absurd hn (hu n)
  | some d =>
    cases d with
    | struct => rw [hdn] at hd; exact absurd hd.symm hs
    | «alias» v => rw [hdn] at hd; simp only at hd; rw [hd]

/-- the element code of a named slice or array -/
def listElemExt (Γ : Env) (e : TExpr) : Out VExt :=
  match e, Γ.denoted e with
  | .named _, .slice _ | .sel _, .slice _ | .named _, .array _ _ | .sel _, .array _ _ => .unsupp
  | _, _ => valueExt Γ e (Γ.denoted e) (Γ.denoted e == .prim .string)

theorem writable_namedList {Γ : Env} (hna : NoAnonymous Γ) {e : TExpr} (ha : e.anon = false) :
    Okay (listElemExt Γ e) ↔ Writable Γ .namedList e := by
  have hno : ∀ (u : TExpr) (n : Nat), NameOf e n → Γ.decl n = some (.alias u) →
      ((∃ x, u = .slice x) ∨ ∃ len x, u = .array len x) → ¬ Okay (listElemExt Γ e) := by
    intro u n hn hd hl
    have hden : Γ.denoted e = u := by rw [denoted_name hn, hd]
    unfold listElemExt
    rw [hden]
    rcases hl with ⟨x, rfl⟩ | ⟨len, x, rfl⟩ <;> cases hn <;> simp
  have hyes : (∀ (u : TExpr) (n : Nat), NameOf e n → Γ.decl n = some (.alias u) →
      ¬ ((∃ x, u = .slice x) ∨ ∃ len x, u = .array len x)) →
      listElemExt Γ e = valueExt Γ e (Γ.denoted e) (Γ.denoted e == .prim .string) := by
    intro h
    unfold listElemExt
    split
    · rename_i n x hd; exact absurd (Or.inl ⟨_, rfl⟩) (h _ n (.named n) (denoted_decl (.named n) hd (by intro m h; cases h) (by simp)))
    · rename_i n x hd; exact absurd (Or.inl ⟨_, rfl⟩) (h _ n (.sel n) (denoted_decl (.sel n) hd (by intro m h; cases h) (by simp)))
    · rename_i n x len hd
      exact absurd (Or.inr ⟨_, _, rfl⟩) (h _ n (.named n) (denoted_decl (.named n) hd (by intro m h; cases h) (by simp)))
    · rename_i n x len hd
      exact absurd (Or.inr ⟨_, _, rfl⟩) (h _ n (.sel n) (denoted_decl (.sel n) hd (by intro m h; cases h) (by simp)))
    · rfl
  by_cases hl : ∃ (u : TExpr) (n : Nat), NameOf e n ∧ Γ.decl n = some (.alias u) ∧ ((∃ x, u = .slice x) ∨ ∃ len x, u = .array len x)
  · obtain ⟨u, n, hn, hd, hl⟩ := hl
    refine ⟨fun h => absurd h (hno u n hn hd hl), fun h => ?_⟩
    exfalso
    have huniq : ∀ m v, NameOf e m → Γ.decl m = some v → v = .alias u := by
      intro m v hm hv
      have : m = n := by cases hn <;> cases hm <;> rfl
      subst this
      rw [hd] at hv
      exact (Option.some.inj hv).symm
    have hnu : ∀ m, ¬ NameOf u m := by
      intro m hm
      rcases hl with ⟨x, rfl⟩ | ⟨len, x, rfl⟩ <;> cases hm
    cases h with
    | prim h _ _ =>
      rw [isPrim_name hn, hd] at h
      rcases hl with ⟨x, rfl⟩ | ⟨len, x, rfl⟩ <;> cases h
    | chain _ he hd' hu _ _ =>
      have := huniq _ _ he hd'
      cases this
      exact hnu _ hu
    | primPtr _ hs _ _ =>
      have := (sees_denoted hs (by intro n h; cases h)).symm.trans (show Γ.denoted e = u by rw [denoted_name hn, hd])
      rcases hl with ⟨x, rfl⟩ | ⟨len, x, rfl⟩ <;> cases this
    | time => cases hn
    | list h => cases h <;> cases hn
    | namedList hw => exact hw rfl
    | method he h =>
      cases h with
      | foreign h =>
        have : ∀ m, NameOf e m → m = n := by intro m hm; cases hn <;> cases hm <;> rfl
        rw [this _ he, hd] at h; cases h
      | struct h => have := huniq _ _ he h; cases this
      | name h hu _ => have := huniq _ _ he h; cases this; exact hnu _ hu
      | ptr h _ _ =>
        have := huniq _ _ he h
        cases this
        rcases hl with ⟨x, hx⟩ | ⟨len, x, hx⟩ <;> cases hx
    | selMethod hw => cases hw
    | methodPtr => cases hn
  · have hl' : ∀ (u : TExpr) (n : Nat), NameOf e n → Γ.decl n = some (.alias u) →
        ¬ ((∃ x, u = .slice x) ∨ ∃ len x, u = .array len x) := fun u n h1 h2 h3 => hl ⟨u, n, h1, h2, h3⟩
    rw [hyes hl', valueExt_core hna ha]
    constructor
    · intro h
      cases h with
      | prim h hp _ => exact .prim h hp (by simp)
      | chain he hd hu h hp => exact .chain (by simp) he hd hu h hp
      | primPtr h h1 h2 => exact .primPtr (by simp) h h1 h2
      | time => exact .time
      | list hs h =>
        cases hs with
        | is hi =>
          cases hi with
          | self => exact .list h
          | named hd => exact absurd (innerList_cases h) (hl' _ _ (.named _) hd)
        | sel hd => exact absurd (innerList_cases h) (hl' _ _ (.sel _) hd)
      | method he h => exact .method he h
      | methodPtr he hp => exact .methodPtr he hp
    · intro h
      cases h with
      | prim h hp _ => exact .prim h hp fun hs => Or.inr (by subst hs; simp [denoted_prim.2 h])
      | chain _ he hd hu h hp => exact .chain he hd hu h hp
      | primPtr _ h h1 h2 => exact .primPtr h h1 h2
      | time => exact .time
      | list h => exact .list (.is (.self _)) h
      | namedList hw => exact absurd rfl hw
      | method he h => exact .method he h
      | selMethod hw => cases hw
      | methodPtr he hp => exact .methodPtr he hp

/-! ### fields and declarations -/

section
variable [Ext]

omit [Ext] in
theorem typeMarshal_okay {tags : Tags} {p : Prim} {d : Nat} : Okay (typeMarshal tags p d) ↔ p.hasJSON := by
  unfold typeMarshal
  cases p <;> simp [Prim.hasJSON, okay_bind] <;> (repeat' split) <;> simp_all

omit [Ext] in
theorem marshalTransit_okay {tags : Tags} {n : Nat} {star : Bool} :
    Okay (marshalTransit tags n star) ↔ ¬ (tags.jsonName = [] ∧ star = true) := by
  unfold marshalTransit
  split
  · split <;> simp_all
  · split <;> simp_all

omit [Ext] in
theorem prepare_star_isPtr (Γ : Env) (b : Bool) (t : TExpr) (tags : Tags) (d : Bool) :
    (Fld.prepare Γ b t tags false d).isStar = t.isPtr := by cases t <;> rfl

omit [Ext] in
theorem isPtr_pointee {t : TExpr} (h : t.isPtr = false) : pointee t = t := by
  cases t <;> simp_all [TExpr.isPtr, pointee]

omit [Ext] in
theorem isPtr_true {t : TExpr} (h : t.isPtr = true) : t = .star (pointee t) := by
  cases t <;> simp_all [TExpr.isPtr, pointee]

omit [Ext] in
theorem isByte_ne {t : TExpr} (h : t ≠ .prim .byte) : t.isByte = false := by
  cases hb : t.isByte with
  | false => rfl
  | true => exact absurd (isByte_iff.1 hb) h

omit [Ext] in
theorem is_resolves {Γ : Env} {e u : TExpr} (h : Is Γ e u) (hn : ∀ n, ¬ NameOf u n) : resolve Γ e = u := by
  cases h with
  | self =>
    cases e with
    | named n => exact absurd (.named n) (hn n)
    | sel n => exact absurd (.sel n) (hn n)
    | _ => simp [resolve, Env.denoted, TExpr.isOrdinal]
  | @named n _ hd =>
    unfold resolve
    have : Γ.denoted (.named n) = u := by rw [denoted_name (.named n), hd]
    rw [this]
    split
    · rfl
    · simpa [Env.denoted] using this

theorem writableField_iff {Γ : Env} (hna : NoAnonymous Γ) {fd : FieldDecl} (ha : fd.typ.anon = false) :
    Okay (genFieldMarshal Γ fd) ↔ WritableField Γ fd := by
  unfold genFieldMarshal
  simp only [prepare_resolve, prepare_expr, prepare_star_isPtr]
  generalize hE : pointee fd.typ = E
  have haE : E.anon = false := by
    subst hE
    cases ht : fd.typ <;> simp_all [pointee, TExpr.anon]
  have hplain : fd.typ.isPtr = false → fd.typ = E := fun h => by rw [← hE, isPtr_pointee h]
  have hptr : fd.typ.isPtr = true → fd.typ = .star E := fun h => by rw [← hE]; exact isPtr_true h
  constructor
  · intro h
    have hres : ∀ u, resolve Γ E = u → (∀ n, ¬ NameOf u n) → u ≠ .structT → (∀ p, u ≠ .prim p) → Is Γ E u := by
      intro u hu hn hs hp
      rcases resolve_cases (Γ := Γ) E with ⟨p, h1, _⟩ | ⟨_, _, ⟨n, _, h1⟩ | ⟨n, _, _, h1⟩ | ⟨n, _, _, _, _, h1⟩ | ⟨n, v, rfl, hd, h1⟩ | ⟨_, _, h1⟩⟩
      · exact absurd (hu.symm.trans h1) (hp p)
      · rw [hu] at h1; exact absurd (h1 ▸ .sel n) (hn n)
      · rw [hu] at h1; exact absurd (h1 ▸ .named n) (hn n)
      · exact absurd (hu.symm.trans h1) hs
      · rw [hu] at h1; subst h1; exact .named hd
      · rw [hu] at h1; subst h1; exact .self _
    have hnn : ∀ {u : TExpr}, (∀ n, u ≠ .named n) → (∀ n, u ≠ .sel n) → ∀ n, ¬ NameOf u n := by
      intro u h1 h2 n hn
      cases hn
      · exact h1 _ rfl
      · exact h2 _ rfl
    generalize hR : resolve Γ E = R at h
    cases R with
    | prim p =>
      simp only at h
      rw [typeMarshal_okay] at h
      rcases resolve_cases (Γ := Γ) E with ⟨q, h1, h2⟩ | ⟨_, h1, _⟩
      · rw [hR] at h1; cases h1
        exact .prim (by rw [hE]; exact h2) h
      · exact absurd hR (h1 p)
    | named n => simp at h
    | star x =>
      have hi := hres _ hR (hnn (by simp) (by simp)) (by simp) (by simp)
      cases x with
      | prim p =>
        simp only at h
        rw [typeMarshal_okay] at h
        exact .namedPtr (by rw [hE]; exact hi) h
      | time =>
        simp only at h
        cases hp : fd.typ.isPtr with
        | false => exact .timePtr (by rw [hplain hp]; exact hi)
        | true => simp [hp] at h
      | _ => simp at h
    | time =>
      simp only at h
      split at h
      · simp at h
      · rename_i hne
        have hEt : E = .time := Classical.byContradiction hne
        cases hp : fd.typ.isPtr with
        | false => exact .time (by rw [hplain hp, hEt])
        | true => exact .timePtr (by rw [hptr hp, hEt]; exact .self _)
    | uuid =>
      simp only at h
      split at h
      · simp at h
      · rename_i hne
        have hEt : E = .uuid := Classical.byContradiction hne
        cases hp : fd.typ.isPtr with
        | false => exact .uuid (by rw [hplain hp, hEt])
        | true => exact .uuidPtr (by rw [hptr hp, hEt])
    | sel n =>
      simp only at h
      rw [marshalTransit_okay] at h
      have hm : FieldMethod Γ E := by
        rcases resolve_cases (Γ := Γ) E with ⟨p, h1, _⟩ | ⟨hno, _, ⟨m, h0, h1⟩ | ⟨m, _, _, h1⟩ | ⟨m, _, _, _, _, h1⟩ | ⟨m, v, h0, hd, h1⟩ | ⟨_, hs, h1⟩⟩
        · rw [hR] at h1; cases h1
        · subst h0; exact .sel hno
        · rw [hR] at h1; cases h1
        · rw [hR] at h1; cases h1
        · subst h0; rw [hR] at h1; subst h1; exact .named hd
        · rw [hR] at h1; exact absurd h1.symm (hs n)
      cases hp : fd.typ.isPtr with
      | false => exact .method (by rw [hplain hp]; exact hm)
      | true => exact .methodPtr (hptr hp) (fun hj => h ⟨hj, hp⟩) hm
    | structT =>
      simp only at h
      have hm : FieldMethod Γ E ∧ ¬ (fd.tags.jsonName = [] ∧ fd.typ.isPtr = true) := by
        rcases resolve_cases (Γ := Γ) E with ⟨p, h1, _⟩ | ⟨hno, _, ⟨m, h0, h1⟩ | ⟨m, _, _, h1⟩ | ⟨m, _, _, h0, hd, h1⟩ | ⟨m, v, h0, hd, h1⟩ | ⟨_, hs, h1⟩⟩
        · rw [hR] at h1; cases h1
        · rw [hR] at h1; cases h1
        · rw [hR] at h1; cases h1
        · subst h0
          simp only at h
          rw [marshalTransit_okay] at h
          exact ⟨.struct hd, h⟩
        · rw [hR] at h1; subst h1
          have := noAnon_alias hna hd
          simp [TExpr.anon] at this
        · rw [hR] at h1; rw [← h1] at haE; simp [TExpr.anon] at haE
      cases hp : fd.typ.isPtr with
      | false => exact .method (by rw [hplain hp]; exact hm.1)
      | true => exact .methodPtr (hptr hp) (fun hj => hm.2 ⟨hj, hp⟩) hm.1
    | map v =>
      have hi := hres _ hR (hnn (by simp) (by simp)) (by simp) (by simp)
      simp only at h
      cases hp : fd.typ.isPtr with
      | true => simp [hp] at h
      | false =>
        simp only [hp, Bool.false_eq_true, if_false, okay_map'] at h
        have hav : v.anon = false := by
          cases hi with
          | self => simpa [TExpr.anon] using haE
          | named hd => simpa [TExpr.anon] using noAnon_alias hna hd
        exact .map (by rw [hplain hp]; exact hi) ((writable_field hna hav).1 h)
    | slice e =>
      have hi := hres _ hR (hnn (by simp) (by simp)) (by simp) (by simp)
      simp only at h
      cases hp : fd.typ.isPtr with
      | true => simp [hp] at h
      | false =>
        by_cases hb : e = .prim .byte
        · subst hb; exact .bytes (by rw [hplain hp]; exact hi)
        · simp only [hp, isByte_ne hb, Bool.false_eq_true, if_false, okay_map'] at h
          have hav : e.anon = false := by
            cases hi with
            | self => simpa [TExpr.anon] using haE
            | named hd => simpa [TExpr.anon] using noAnon_alias hna hd
          exact .slice (by rw [hplain hp]; exact hi) hb ((writable_field hna hav).1 h)
    | array len e =>
      have hi := hres _ hR (hnn (by simp) (by simp)) (by simp) (by simp)
      simp only at h
      cases hp : fd.typ.isPtr with
      | true => simp [hp] at h
      | false =>
        by_cases hb : e = .prim .byte
        · subst hb; exact .fixedBytes (by rw [hplain hp]; exact hi)
        · simp only [hp, isByte_ne hb, Bool.false_eq_true, if_false, okay_map'] at h
          have hav : e.anon = false := by
            cases hi with
            | self => simpa [TExpr.anon] using haE
            | named hd => simpa [TExpr.anon] using noAnon_alias hna hd
          exact .array (by rw [hplain hp]; exact hi) hb ((writable_field hna hav).1 h)
  · intro h
    have hcoll : ∀ {u : TExpr}, Is Γ fd.typ u → (∀ x, u ≠ .star x) → (∀ n, ¬ NameOf u n) →
        resolve Γ E = u ∧ fd.typ.isPtr = false ∧ (u.anon = false) := by
      intro u hi hs hn
      have hp : fd.typ.isPtr = false := by
        cases hp : fd.typ.isPtr with
        | false => rfl
        | true =>
          rw [hptr hp] at hi
          cases hi
          exact absurd rfl (hs _)
      rw [hplain hp] at hi
      refine ⟨is_resolves hi hn, hp, ?_⟩
      cases hi with
      | self => exact haE
      | named hd => exact noAnon_alias hna hd
    have hmeth : ∀ {b : Bool}, FieldMethod Γ E → ¬ (fd.tags.jsonName = [] ∧ b = true) → fd.typ.isPtr = b →
        (∃ n, resolve Γ E = .sel n) ∨ (resolve Γ E = .structT ∧ ∃ n, E = .named n) := by
      intro b hm _ _
      cases hm with
      | @struct n _ _ hd =>
        exact Or.inr ⟨by simp [resolve, denoted_name (.named n), hd, TExpr.isOrdinal, Env.denotedIdent, Decl.spec], n, rfl⟩
      | @sel n hno =>
        left
        have : ¬ (Γ.denoted (.sel n)).isOrdinal = true := fun ho => by
          obtain ⟨p, hp⟩ := isOrdinal_iff.1 ho
          exact hno p (denoted_prim.1 hp)
        exact ⟨n, by simp [resolve, this]⟩
      | @named n m hd =>
        exact Or.inl ⟨m, by simp [resolve, denoted_name (.named n), hd, TExpr.isOrdinal, Env.denotedIdent, Decl.spec]⟩
    cases h with
    | @prim p h hp =>
      rw [hE] at h
      have : resolve Γ E = .prim p := by simp [resolve, denoted_prim.2 h, TExpr.isOrdinal]
      rw [this]
      exact typeMarshal_okay.2 hp
    | @namedPtr p h hp =>
      rw [hE] at h
      rw [is_resolves h (by intro n h; cases h)]
      exact typeMarshal_okay.2 hp
    | time h =>
      have : E = .time := by rw [← hE, h]; rfl
      subst this
      simp [resolve, Env.denoted, TExpr.isOrdinal]
    | timePtr h =>
      cases hp : fd.typ.isPtr with
      | false =>
        rw [hplain hp] at h
        rw [is_resolves h (by intro n h; cases h)]
        simp
      | true =>
        rw [hptr hp] at h
        cases h
        simp [resolve, Env.denoted, TExpr.isOrdinal]
    | uuid h =>
      have : E = .uuid := by rw [← hE, h]; rfl
      subst this
      simp [resolve, Env.denoted, TExpr.isOrdinal]
    | uuidPtr h =>
      have : E = .uuid := by rw [← hE, h]; rfl
      subst this
      simp [resolve, Env.denoted, TExpr.isOrdinal]
    | method h =>
      have hp : fd.typ.isPtr = false := by
        generalize fd.typ = T at h
        cases h <;> rfl
      rw [hplain hp] at h
      rcases hmeth (b := false) h (by simp) hp with ⟨n, hr⟩ | ⟨hr, n, hn⟩
      · rw [hr, hp]; exact marshalTransit_okay.2 (by simp)
      · rw [hr, hp, hn]; exact marshalTransit_okay.2 (by simp)
    | @methodPtr t ht hn h =>
      have hp : fd.typ.isPtr = true := by rw [ht]; rfl
      have hEt : E = t := by rw [← hE, ht]; rfl
      subst hEt
      rcases hmeth (b := true) h (by simp [hn]) hp with ⟨n, hr⟩ | ⟨hr, n, hn'⟩
      · rw [hr, hp]; exact marshalTransit_okay.2 (by simp [hn])
      · rw [hr, hp, hn']; exact marshalTransit_okay.2 (by simp [hn])
    | bytes h =>
      obtain ⟨hr, hp, _⟩ := hcoll h (by simp) (by intro n h; cases h)
      rw [hr, hp]; simp [TExpr.isByte]
    | fixedBytes h =>
      obtain ⟨hr, hp, _⟩ := hcoll h (by simp) (by intro n h; cases h)
      rw [hr, hp]; simp [TExpr.isByte]
    | map h he =>
      obtain ⟨hr, hp, ha'⟩ := hcoll h (by simp) (by intro n h; cases h)
      rw [hr, hp]
      simp only [Bool.false_eq_true, if_false, okay_map']
      exact (writable_field hna (by simpa [TExpr.anon] using ha')).2 he
    | slice h hb he =>
      obtain ⟨hr, hp, ha'⟩ := hcoll h (by simp) (by intro n h; cases h)
      rw [hr, hp]
      simp only [Bool.false_eq_true, if_false, okay_map', isByte_ne hb]
      exact (writable_field hna (by simpa [TExpr.anon] using ha')).2 he
    | array h hb he =>
      obtain ⟨hr, hp, ha'⟩ := hcoll h (by simp) (by intro n h; cases h)
      rw [hr, hp]
      simp only [Bool.false_eq_true, if_false, okay_map', isByte_ne hb]
      exact (writable_field hna (by simpa [TExpr.anon] using ha')).2 he

theorem genBlks_okay {Γ : Env} {fields : List FieldDecl} :
    Okay (genBlks Γ fields) ↔ ∀ fd ∈ fields, Okay (genFieldMarshal Γ fd) := by
  induction fields with
  | nil => simp [genBlks]
  | cons fd fds ih =>
    simp only [genBlks, okay_bind, List.forall_mem_cons]
    constructor
    · rintro ⟨b, hb, bs, hbs, _⟩
      exact ⟨⟨b, hb⟩, ih.1 ⟨bs, hbs⟩⟩
    · rintro ⟨⟨b, hb⟩, h⟩
      obtain ⟨bs, hbs⟩ := ih.2 h
      exact ⟨b, hb, bs, hbs, okay_ok _⟩

theorem genMarshal_iff {Γ : Env} (hna : NoAnonymous Γ) {d : Decl} (hd : ∀ t ∈ d.types, t.anon = false) :
    Okay (genMarshal Γ d) ↔ WritableDecl Γ d := by
  cases d with
  | struct st fields =>
    simp only [genMarshal, okay_map', genBlks_okay]
    have hf : ∀ fd ∈ fields, fd.typ.anon = false := fun fd h => hd _ (by simp [Decl.types]; exact ⟨fd, h, rfl⟩)
    constructor
    · intro h; exact .struct fun fd hfd => (writableField_iff hna (hf fd hfd)).1 (h fd hfd)
    · intro h; cases h with | struct h => exact fun fd hfd => (writableField_iff hna (hf fd hfd)).2 (h fd hfd)
  | «alias» t =>
    have hat : t.anon = false := hd t (by simp [Decl.types])
    cases t with
    | map v =>
      have hav : v.anon = false := by simpa [TExpr.anon] using hat
      have : Okay (genMarshal Γ (.alias (.map v))) ↔ Okay (valueExt Γ v (mapElemT Γ v) (fieldDecStr Γ v)) := by
        simp only [genMarshal, okay_map']
        rfl
      rw [this, writable_namedMap hna hav]
      refine ⟨fun h => .map h, fun h => ?_⟩
      cases h with
      | map h => exact h
      | name h => cases h
    | slice e =>
      have hav : e.anon = false := by simpa [TExpr.anon] using hat
      by_cases hb : e = .prim .byte
      · subst hb; simp [genMarshal, TExpr.isByte, WritableDecl.bytes]
      · have : Okay (genMarshal Γ (.alias (.slice e))) ↔ Okay (listElemExt Γ e) := by
          simp only [genMarshal, isByte_ne hb, Bool.false_eq_true, if_false, listElemExt]
          rcases nameOf_cases e with ⟨n, hn⟩ | hn
          · cases hn <;> (generalize Γ.denoted _ = D; cases D <;> simp)
          · cases e with
            | named n => exact absurd (.named n) (hn n)
            | sel n => exact absurd (.sel n) (hn n)
            | _ => simp
        rw [this, writable_namedList hna hav]
        refine ⟨fun h => .slice hb h, fun h => ?_⟩
        cases h with
        | bytes => exact absurd rfl hb
        | slice _ h => exact h
        | name h => cases h
    | array len e =>
      have hav : e.anon = false := by simpa [TExpr.anon] using hat
      by_cases hb : e = .prim .byte
      · subst hb; simp [genMarshal, TExpr.isByte, WritableDecl.fixedBytes]
      · have : Okay (genMarshal Γ (.alias (.array len e))) ↔ Okay (listElemExt Γ e) := by
          simp only [genMarshal, isByte_ne hb, Bool.false_eq_true, if_false, listElemExt]
          rcases nameOf_cases e with ⟨n, hn⟩ | hn
          · cases hn <;> (generalize Γ.denoted _ = D; cases D <;> simp)
          · cases e with
            | named n => exact absurd (.named n) (hn n)
            | sel n => exact absurd (.sel n) (hn n)
            | _ => simp
        rw [this, writable_namedList hna hav]
        refine ⟨fun h => .array hb h, fun h => ?_⟩
        cases h with
        | fixedBytes => exact absurd rfl hb
        | array _ h => exact h
        | name h => cases h
    | prim p =>
      constructor
      · intro h; exact .prim (by cases p <;> simp_all [genMarshal, Prim.hasJSON])
      · intro h
        cases h with
        | prim hp => cases p <;> simp_all [genMarshal, Prim.hasJSON]
        | name h => cases h
    | time => simp [genMarshal, WritableDecl.time]
    | uuid => simp [genMarshal, WritableDecl.uuid]
    | named n => simp [genMarshal, WritableDecl.name (.named n)]
    | sel n => simp [genMarshal, WritableDecl.name (.sel n)]
    | star u =>
      simp only [genMarshal, okay_unsupp, false_iff]
      intro h; cases h with | name h => cases h
    | structT => simp [TExpr.anon] at hat

end

end VJ
