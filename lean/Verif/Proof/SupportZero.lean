import Verif.Proof.Support
import Verif.Proof.Mono

/-!
# Which types the generator supports: `IsZero` and `Reset`
-/

namespace VJ
set_option linter.unusedSectionVars false
set_option linter.unusedSimpArgs false
set_option linter.unusedVariables false

/-- families of results that only get more defined -/
def Grows {α : Type} (f : Nat → Out α) : Prop := ∀ k, f k ⊑ f (k + 1)

theorem Grows.le {α : Type} {f : Nat → Out α} (h : Grows f) {k k' : Nat} (hk : k ≤ k') : f k ⊑ f k' := by
  induction hk with
  | refl => exact Out.Le.refl _
  | step _ ih => exact Out.Le.trans ih (h _)

theorem Grows.ok {α : Type} {f : Nat → Out α} (h : Grows f) {k k' : Nat} (hk : k ≤ k') {x : α} (hx : f k = .ok x) : f k' = .ok x :=
  Out.Le.eq_of_ok (h.le hk) hx

/-- with enough fuel something is generated -/
def Even {α : Type} (f : Nat → Out α) : Prop := ∃ k, Okay (f k)

theorem even_congr {α β : Type} {f : Nat → Out α} {g : Nat → Out β} (h : ∀ k, Okay (f k) ↔ Okay (g k)) : Even f ↔ Even g :=
  ⟨fun ⟨k, hk⟩ => ⟨k, (h k).1 hk⟩, fun ⟨k, hk⟩ => ⟨k, (h k).2 hk⟩⟩

theorem even_const {α : Type} {o : Out α} : Even (fun _ => o) ↔ Okay o := ⟨fun ⟨_, h⟩ => h, fun h => ⟨0, h⟩⟩

/-- a list of results -/
theorem even_list {α β : Type} {f : Nat → α → Out β} {F : Nat → List α → Out (List β)} (hf : ∀ a, Grows fun k => f k a)
    (h0 : ∀ k, F k [] = .ok []) (h1 : ∀ k a as, F k (a :: as) = (do
      let x ← f k a
      let xs ← F k as
      return x :: xs)) (as : List α) : Even (fun k => F k as) ↔ ∀ a ∈ as, Even fun k => f k a := by
  have hF : ∀ as, Grows fun k => F k as := by
    intro as
    induction as with
    | nil => intro k; simp only [h0]; exact Out.Le.refl _
    | cons a as ih =>
      intro k
      simp only [h1]
      exact Out.Le.bind (hf a k) fun x => Out.Le.bind (ih k) fun xs => Out.Le.refl _
  induction as with
  | nil => simp [h0, Even]
  | cons a as ih =>
    rw [List.forall_mem_cons]
    refine Iff.trans ?_ (and_congr_right' ih)
    constructor
    · rintro ⟨k, hk⟩
      simp only [h1, okay_bind] at hk
      obtain ⟨x, hx, xs, hxs, _⟩ := hk
      exact ⟨⟨k, x, hx⟩, ⟨k, xs, hxs⟩⟩
    · rintro ⟨⟨k, x, hx⟩, ⟨k', xs, hxs⟩⟩
      refine ⟨max k k', ?_⟩
      simp only [h1, okay_bind]
      exact ⟨x, (hf a).ok (Nat.le_max_left _ _) hx, xs, (hF as).ok (Nat.le_max_right _ _) hxs, okay_ok _⟩

theorem ends_alias {Γ : Env} {n : Nat} {u : TExpr} (hd : Γ.decl n = some (.alias u)) : Ends Γ (.named n) ↔ Ends Γ u := by
  constructor
  · intro h
    cases h with
    | here h => exact absurd rfl (h n)
    | last h => exact absurd hd (h u)
    | next h hu => rw [hd] at h; cases h; exact hu
  · exact fun h => .next hd h

theorem zeroKnown_even {Γ : Env} {t : TExpr} : Even (fun k => zeroKnown Γ k t) ↔ Ends Γ t := by
  constructor
  · rintro ⟨k, hk⟩
    induction k generalizing t with
    | zero =>
      cases t with
      | named n => simp [zeroKnown] at hk
      | _ => exact .here (by simp)
    | succ k ih =>
      cases t with
      | named n =>
        cases hd : Γ.decl n with
        | none => exact .last (by simp [hd])
        | some d =>
          cases d with
          | struct => exact .last (by simp [hd])
          | «alias» u =>
            simp only [zeroKnown, hd, Decl.spec] at hk
            exact .next hd (ih hk)
      | _ => exact .here (by simp)
  · intro h
    induction h with
    | @here t h =>
      cases t with
      | named n => exact absurd rfl (h n)
      | _ => exact ⟨0, by simp [zeroKnown]⟩
    | @last n h =>
      refine ⟨1, ?_⟩
      cases hd : Γ.decl n with
      | none => simp [zeroKnown, hd]
      | some d =>
        cases d with
        | struct => simp [zeroKnown, hd, Decl.spec]
        | «alias» u => exact absurd hd (h u)
    | @next n u hd _ ih =>
      obtain ⟨k, hk⟩ := ih
      refine ⟨k + 1, ?_⟩
      simp only [zeroKnown, hd, Decl.spec]
      exact hk

theorem allEnd_iff {Γ : Env} {t : TExpr} : (∀ u, Sees Γ t u → Ends Γ u) ↔ Ends Γ (Γ.denoted t) := by
  rcases nameOf_cases t with ⟨n, hn⟩ | hn
  · rw [denoted_name hn]
    cases hd : Γ.decl n with
    | none =>
      simp only
      refine ⟨fun h => h t (.is (.self t)), fun h u hu => ?_⟩
      cases hu with
      | is hi =>
        cases hi with
        | self => exact h
        | named h' => cases hn; rw [hd] at h'; cases h'
      | sel h' => cases hn; rw [hd] at h'; cases h'
    | some d =>
      cases d with
      | struct =>
        simp only
        refine ⟨fun _ => .here (by simp), fun _ u hu => ?_⟩
        cases hu with
        | is hi =>
          cases hi with
          | self =>
            cases hn
            · exact .last (by simp [hd])
            · exact .here (by simp)
          | named h' => cases hn; rw [hd] at h'; cases h'
        | sel h' => cases hn; rw [hd] at h'; cases h'
      | «alias» v =>
        simp only
        refine ⟨fun h => h v (sees_name hn hd), fun h u hu => ?_⟩
        cases hu with
        | is hi =>
          cases hi with
          | self =>
            cases hn
            · exact .next hd h
            · exact .here (by simp)
          | named h' => cases hn; rw [hd] at h'; cases h'; exact h
        | sel h' => cases hn; rw [hd] at h'; cases h'; exact h
  · rw [denoted_not_name hn]
    refine ⟨fun h => h t (.is (.self t)), fun h u hu => ?_⟩
    cases hu with
    | is hi =>
      cases hi with
      | self => exact h
      | named => exact absurd (.named _) (hn _)
    | sel => exact absurd (.sel _) (hn _)

theorem zTest_okay {Γ : Env} {k : Nat} {known typ : TExpr} (h : (∃ n, NameOf typ n) ∨ known = typ) (ha : ∀ len e, typ ≠ .array len e)
    (hs : typ ≠ .structT) : Okay (zTest Γ k known typ) ↔ Okay (zeroKnown Γ k known) := by
  unfold zTest
  constructor
  · intro h'
    obtain ⟨b, hb, _⟩ := okay_bind.1 h'
    exact ⟨b, hb⟩
  · rintro ⟨b, hb⟩
    refine okay_bind.2 ⟨b, hb, ?_⟩
    cases b with
    | true => simp
    | false =>
      simp only [Bool.false_eq_true, if_false]
      rcases h with ⟨n, hn⟩ | rfl
      · cases hn <;> simp
      · cases known with
        | array len e => exact absurd rfl (ha len e)
        | structT => exact absurd rfl hs
        | prim => simp [zeroKnown] at hb
        | star => simp [zeroKnown] at hb
        | map => simp [zeroKnown] at hb
        | slice => simp [zeroKnown] at hb
        | uuid => simp [zeroKnown] at hb
        | _ => simp

section
variable [Ext]

theorem genZTests_even {Γ : Env} {fields : List FieldDecl} :
    Even (fun k => genZTests Γ k fields) ↔ ∀ fd ∈ fields, Even fun k => zTest Γ k (Γ.denoted fd.typ) fd.typ :=
  even_list (f := fun k fd => zTest Γ k (Γ.denoted fd.typ) fd.typ) (F := genZTests Γ) (fun fd k => zTest_mono Γ k _ _)
    (fun _ => rfl) (fun _ _ _ => rfl) fields

theorem genZero_iff {Γ : Env} {d : Decl} (hd : ∀ t ∈ d.types, t.anon = false) :
    Even (fun k => genZero Γ k d) ↔ TestableDecl Γ d := by
  cases d with
  | struct st fields =>
    have hf : ∀ fd ∈ fields, fd.typ.anon = false := fun fd h => hd _ (by simp [Decl.types]; exact ⟨fd, h, rfl⟩)
    by_cases ha : ∃ fd ∈ fields, ∃ len e, fd.typ = .array len e
    · obtain ⟨fd, hfd, len, e, he⟩ := ha
      have : fields.any (fun fd => fd.typ.isFixedArray) = true := List.any_eq_true.2 ⟨fd, hfd, by rw [he]; rfl⟩
      refine ⟨fun _ => .withArray hfd he, fun _ => ⟨0, ?_⟩⟩
      simp [genZero, this]
    · have hany : fields.any (fun fd => fd.typ.isFixedArray) = false := by
        rw [List.any_eq_false]
        intro fd hfd h
        cases ht : fd.typ <;> rw [ht] at h <;> simp [TExpr.isFixedArray] at h
        exact ha ⟨fd, hfd, _, _, ht⟩
      have h1 : Even (fun k => genZero Γ k (.struct st fields)) ↔ Even (fun k => genZTests Γ k fields) := by
        apply even_congr
        intro k
        simp [genZero, hany]
      have h2 : ∀ fd ∈ fields, Even (fun k => zTest Γ k (Γ.denoted fd.typ) fd.typ) ↔ ∀ u, Sees Γ fd.typ u → Ends Γ u := by
        intro fd hfd
        rw [allEnd_iff, ← zeroKnown_even]
        apply even_congr
        intro k
        apply zTest_okay
        · rcases nameOf_cases fd.typ with h | h
          · exact Or.inl h
          · exact Or.inr (denoted_not_name h)
        · exact fun len e h => ha ⟨fd, hfd, len, e, h⟩
        · intro h; have := hf fd hfd; rw [h] at this; simp [TExpr.anon] at this
      rw [h1, genZTests_even]
      constructor
      · intro h; exact .struct fun fd hfd => (h2 fd hfd).1 (h fd hfd)
      · intro h
        cases h with
        | struct h => exact fun fd hfd => (h2 fd hfd).2 (h fd hfd)
        | withArray hfd he => exact absurd ⟨_, hfd, _, _, he⟩ ha
  | «alias» t =>
    have hat : t.anon = false := hd t (by simp [Decl.types])
    have other : ∀ t, ((∃ p, t = TExpr.prim p) ∨ (∃ n, NameOf t n) ∨ t = .time ∨ t = .uuid) →
        (∀ k, genZero Γ k (.alias t) = (do
          let z ← zTest Γ k t t
          return .single z)) → (Even (fun k => genZero Γ k (.alias t)) ↔ TestableDecl Γ (.alias t)) := by
      intro t ht hg
      have h1 : Even (fun k => genZero Γ k (.alias t)) ↔ Ends Γ t := by
        rw [← zeroKnown_even]
        apply even_congr
        intro k
        rw [hg, okay_map']
        apply zTest_okay (Or.inr rfl)
        · rintro len e rfl; rcases ht with ⟨p, h⟩ | ⟨n, h⟩ | h | h <;> cases h
        · rintro rfl; rcases ht with ⟨p, h⟩ | ⟨n, h⟩ | h | h <;> cases h
      rw [h1]
      refine ⟨fun h => .other ht h, fun h => ?_⟩
      cases h with
      | map => rcases ht with ⟨p, h⟩ | ⟨n, h⟩ | h | h <;> cases h
      | slice => rcases ht with ⟨p, h⟩ | ⟨n, h⟩ | h | h <;> cases h
      | array => rcases ht with ⟨p, h⟩ | ⟨n, h⟩ | h | h <;> cases h
      | other _ h => exact h
    cases t with
    | map v => exact ⟨fun _ => .map v, fun _ => ⟨0, by simp [genZero]⟩⟩
    | slice e => exact ⟨fun _ => .slice e, fun _ => ⟨0, by simp [genZero]⟩⟩
    | array len e =>
      by_cases hb : e = .prim .byte
      · subst hb
        exact ⟨fun _ => .array (.here (by simp)) (by simp), fun _ => ⟨0, by simp [genZero, TExpr.isByte]⟩⟩
      · have hae : e.anon = false := by simpa [TExpr.anon] using hat
        have h1 : Even (fun k => genZero Γ k (.alias (.array len e))) ↔ Even (fun k => zTest Γ k e e) := by
          apply even_congr
          intro k
          simp [genZero, isByte_ne hb]
        rw [h1]
        by_cases ha : ∃ n u, e = .array n u
        · obtain ⟨n, u, rfl⟩ := ha
          constructor
          · rintro ⟨k, hk⟩; simp [zTest, zeroKnown] at hk
          · intro h
            cases h with
            | array _ h => exact absurd rfl (h n u)
            | other ht => rcases ht with ⟨p, h⟩ | ⟨n, h⟩ | h | h <;> cases h
        · have ha' : ∀ n u, e ≠ .array n u := fun n u h => ha ⟨n, u, h⟩
          have h2 : Even (fun k => zTest Γ k e e) ↔ Ends Γ e := by
            rw [← zeroKnown_even]
            apply even_congr
            intro k
            exact zTest_okay (Or.inr rfl) ha' (by rintro rfl; simp [TExpr.anon] at hae)
          rw [h2]
          refine ⟨fun h => .array h ha', fun h => ?_⟩
          cases h with
          | array h _ => exact h
          | other ht => rcases ht with ⟨p, h⟩ | ⟨n, h⟩ | h | h <;> cases h
    | star u =>
      constructor
      · rintro ⟨k, hk⟩; simp [genZero] at hk
      · intro h; cases h with | other ht => rcases ht with ⟨p, h⟩ | ⟨n, h⟩ | h | h <;> cases h
    | structT => simp [TExpr.anon] at hat
    | prim p => exact other _ (Or.inl ⟨p, rfl⟩) fun _ => rfl
    | named n => exact other _ (Or.inr (Or.inl ⟨n, .named n⟩)) fun _ => rfl
    | sel n => exact other _ (Or.inr (Or.inl ⟨n, .sel n⟩)) fun _ => rfl
    | time => exact other _ (by simp) fun _ => rfl
    | uuid => exact other _ (by simp) fun _ => rfl

end

/-! ### Reset -/

theorem denoted_sees {Γ : Env} {t u : TExpr} (h : Γ.denoted t = u) (hs : u ≠ .structT) : Sees Γ t u := by
  rcases nameOf_cases t with ⟨n, hn⟩ | hn
  · rw [denoted_name hn] at h
    cases hd : Γ.decl n with
    | none => rw [hd] at h; simp only at h; subst h; exact .is (.self _)
    | some d =>
      cases d with
      | struct => rw [hd] at h; exact absurd h.symm hs
      | «alias» v => rw [hd] at h; simp only at h; subst h; exact sees_name hn hd
  · rw [denoted_not_name hn] at h; subst h; exact .is (.self _)

theorem genReset_rest {Γ : Env} {k lvl : Nat} {t : TExpr} (ha : t.anon = false) (hs : ∀ e, Γ.denoted t ≠ .slice e) :
    Okay (genReset Γ k lvl t) ↔ Okay (zeroKnown Γ k (Γ.denoted t)) := by
  have hname : ∀ d, Γ.denoted t = d → (∃ n, NameOf d n) ∨ d = .structT → ∃ n, NameOf t n := by
    intro d hd h
    rcases nameOf_cases t with hn | hn
    · exact hn
    · rw [denoted_not_name hn] at hd
      subst hd
      rcases h with ⟨n, h⟩ | h
      · exact absurd h (hn n)
      · subst h; simp [TExpr.anon] at ha
  cases hd : Γ.denoted t with
  | slice e => exact absurd hd (hs e)
  | prim p => unfold genReset; simp [hd, zeroKnown]
  | star x => unfold genReset; simp [hd, zeroKnown]
  | array n e => unfold genReset; simp [hd, zeroKnown]
  | map v => unfold genReset; simp [hd, zeroKnown]
  | time => unfold genReset; simp [hd, zeroKnown]
  | uuid => unfold genReset; simp [hd, zeroKnown]
  | named m =>
    obtain ⟨n, hn⟩ := hname _ hd (Or.inl ⟨m, .named m⟩)
    unfold genReset
    rw [hd]
    constructor
    · intro h
      obtain ⟨b, hb, _⟩ := okay_bind.1 h
      exact ⟨b, hb⟩
    · rintro ⟨b, hb⟩
      refine okay_bind.2 ⟨b, hb, ?_⟩
      cases hn <;> cases b <;> simp
  | sel m =>
    obtain ⟨n, hn⟩ := hname _ hd (Or.inl ⟨m, .sel m⟩)
    unfold genReset
    rw [hd]
    constructor
    · intro h
      obtain ⟨b, hb, _⟩ := okay_bind.1 h
      exact ⟨b, hb⟩
    · rintro ⟨b, hb⟩
      refine okay_bind.2 ⟨b, hb, ?_⟩
      cases hn <;> cases b <;> simp
  | structT =>
    obtain ⟨n, hn⟩ := hname _ hd (Or.inr rfl)
    unfold genReset
    rw [hd]
    constructor
    · intro h
      obtain ⟨b, hb, _⟩ := okay_bind.1 h
      exact ⟨b, hb⟩
    · rintro ⟨b, hb⟩
      refine okay_bind.2 ⟨b, hb, ?_⟩
      cases hn <;> cases b <;> simp

theorem genReset_slice {Γ : Env} {k lvl : Nat} {t e : TExpr} (hd : Γ.denoted t = .slice e) :
    Okay (genReset Γ k lvl t) ↔ ∃ l, lvl = l + 1 ∧ (e = .prim .byte ∨ Okay (genReset Γ k l e)) := by
  conv => lhs; unfold genReset
  rw [hd]
  cases lvl with
  | zero => simp
  | succ l =>
    by_cases hb : e = .prim .byte
    · subst hb; simp [TExpr.isByte]
    · simp [isByte_ne hb, hb]

theorem depth_iff {Γ : Env} (hna : NoAnonymous Γ) {lvl : Nat} {t : TExpr} (ha : t.anon = false) :
    Even (fun k => genReset Γ k lvl t) ↔ Depth Γ lvl t := by
  induction lvl generalizing t with
  | zero =>
    by_cases hs : ∃ e, Γ.denoted t = .slice e
    · obtain ⟨e, hd⟩ := hs
      constructor
      · rintro ⟨k, hk⟩
        obtain ⟨l, hl, _⟩ := (genReset_slice hd).1 hk
        cases hl
      · intro h
        cases h with
        | other h => exact absurd (denoted_sees hd (by simp)) (h e)
    · have hs' : ∀ e, Γ.denoted t ≠ .slice e := fun e h => hs ⟨e, h⟩
      have h1 : Even (fun k => genReset Γ k 0 t) ↔ Even (fun k => zeroKnown Γ k (Γ.denoted t)) :=
        even_congr fun k => genReset_rest ha hs'
      rw [h1, zeroKnown_even, ← allEnd_iff]
      refine ⟨fun h => .other (fun e he => hs' e (sees_denoted he (by intro n h; cases h))) h, fun h => ?_⟩
      cases h with
      | other _ h => exact h
  | succ l ih =>
    by_cases hs : ∃ e, Γ.denoted t = .slice e
    · obtain ⟨e, hd⟩ := hs
      have hse := denoted_sees hd (by simp)
      have hae : e.anon = false := by
        cases hse with
        | is hi =>
          cases hi with
          | self => simpa [TExpr.anon] using ha
          | named hd => simpa [TExpr.anon] using noAnon_alias hna hd
        | sel hd => simpa [TExpr.anon] using noAnon_alias hna hd
      constructor
      · rintro ⟨k, hk⟩
        obtain ⟨l', hl, h⟩ := (genReset_slice hd).1 hk
        cases hl
        by_cases hb : e = .prim .byte
        · subst hb; exact .bytes hse
        · exact .slice hse hb ((ih hae).1 ⟨k, h.resolve_left hb⟩)
      · intro h
        cases h with
        | bytes h =>
          have := (sees_denoted h (by intro n h; cases h)).symm.trans hd
          cases this
          exact ⟨0, (genReset_slice hd).2 ⟨l, rfl, Or.inl rfl⟩⟩
        | slice h hb he =>
          have := (sees_denoted h (by intro n h; cases h)).symm.trans hd
          cases this
          obtain ⟨k, hk⟩ := (ih hae).2 he
          exact ⟨k, (genReset_slice hd).2 ⟨l, rfl, Or.inr hk⟩⟩
        | other h => exact absurd hse (h e)
    · have hs' : ∀ e, Γ.denoted t ≠ .slice e := fun e h => hs ⟨e, h⟩
      have h1 : Even (fun k => genReset Γ k (l + 1) t) ↔ Even (fun k => zeroKnown Γ k (Γ.denoted t)) :=
        even_congr fun k => genReset_rest ha hs'
      rw [h1, zeroKnown_even, ← allEnd_iff]
      refine ⟨fun h => .other (fun e he => hs' e (sees_denoted he (by intro n h; cases h))) h, fun h => ?_⟩
      cases h with
      | bytes h => exact absurd (sees_denoted h (by intro n h; cases h)) (hs' _)
      | slice h => exact absurd (sees_denoted h (by intro n h; cases h)) (hs' _)
      | other _ h => exact h

section
variable [Ext]

theorem genResets_even {Γ : Env} {fields : List FieldDecl} :
    Even (fun k => genResets Γ k fields) ↔ ∀ fd ∈ fields, Even fun k => genReset Γ k 6 fd.typ :=
  even_list (f := fun k fd => genReset Γ k 6 fd.typ) (F := genResets Γ) (fun fd k => genReset_mono Γ k 6 _)
    (fun _ => rfl) (fun _ _ _ => rfl) fields

theorem genResetDecl_iff {Γ : Env} (hna : NoAnonymous Γ) {d : Decl} (hd : ∀ t ∈ d.types, t.anon = false) :
    Even (fun k => genResetDecl Γ k d) ↔ ResettableDecl Γ d := by
  cases d with
  | struct st fields =>
    have hf : ∀ fd ∈ fields, fd.typ.anon = false := fun fd h => hd _ (by simp [Decl.types]; exact ⟨fd, h, rfl⟩)
    have h1 : Even (fun k => genResetDecl Γ k (.struct st fields)) ↔ Even (fun k => genResets Γ k fields) :=
      even_congr fun k => by simp [genResetDecl]
    rw [h1, genResets_even]
    constructor
    · intro h; exact .struct fun fd hfd => (depth_iff hna (hf fd hfd)).1 (h fd hfd)
    · intro h; cases h with | struct h => exact fun fd hfd => (depth_iff hna (hf fd hfd)).2 (h fd hfd)
  | «alias» t =>
    have hat : t.anon = false := hd t (by simp [Decl.types])
    have other : ∀ t : TExpr, t.anon = false → ((∃ p, t = TExpr.prim p) ∨ (∃ n, NameOf t n) ∨ t = .time ∨ t = .uuid) →
        (∀ k, genResetDecl Γ k (.alias t) = (do
          let x ← genReset Γ k 6 t
          return .single x)) → (Even (fun k => genResetDecl Γ k (.alias t)) ↔ ResettableDecl Γ (.alias t)) := by
      intro t hat ht hg
      have h1 : Even (fun k => genResetDecl Γ k (.alias t)) ↔ Depth Γ 6 t := by
        rw [← depth_iff hna hat]
        exact even_congr fun k => by rw [hg, okay_map']
      rw [h1]
      refine ⟨fun h => .other ht h, fun h => ?_⟩
      cases h with
      | map => rcases ht with ⟨p, h⟩ | ⟨n, h⟩ | h | h <;> cases h
      | slice => rcases ht with ⟨p, h⟩ | ⟨n, h⟩ | h | h <;> cases h
      | array => rcases ht with ⟨p, h⟩ | ⟨n, h⟩ | h | h <;> cases h
      | other _ h => exact h
    cases t with
    | map v =>
      have h1 : Even (fun k => genResetDecl Γ k (.alias (.map v))) ↔ Depth Γ 6 v := by
        rw [← depth_iff hna (by simpa [TExpr.anon] using hat)]
        exact even_congr fun k => by simp [genResetDecl]
      rw [h1]
      refine ⟨fun h => .map h, fun h => ?_⟩
      cases h with
      | map h => exact h
      | other ht => rcases ht with ⟨p, h⟩ | ⟨n, h⟩ | h | h <;> cases h
    | slice e =>
      refine ⟨fun _ => .slice e, fun _ => ⟨0, ?_⟩⟩
      by_cases hb : e = .prim .byte
      · subst hb; simp [genResetDecl, TExpr.isByte]
      · simp only [genResetDecl, isByte_ne hb, Bool.false_eq_true, if_false]
        split
        · rename_i hst
          rcases nameOf_cases e with ⟨n, hn⟩ | hn
          · cases hn <;> simp
          · rw [denoted_not_name hn] at hst
            subst hst
            simp [TExpr.anon] at hat
        · simp
    | array len e => exact ⟨fun _ => .array len e, fun _ => ⟨0, by simp [genResetDecl]⟩⟩
    | star u =>
      constructor
      · rintro ⟨k, hk⟩; simp [genResetDecl] at hk
      · intro h; cases h with | other ht => rcases ht with ⟨p, h⟩ | ⟨n, h⟩ | h | h <;> cases h
    | structT => simp [TExpr.anon] at hat
    | prim p => exact other _ hat (Or.inl ⟨p, rfl⟩) fun _ => rfl
    | named n => exact other _ hat (Or.inr (Or.inl ⟨n, .named n⟩)) fun _ => rfl
    | sel n => exact other _ hat (Or.inr (Or.inl ⟨n, .sel n⟩)) fun _ => rfl
    | time => exact other _ hat (by simp) fun _ => rfl
    | uuid => exact other _ hat (by simp) fun _ => rfl

end

end VJ
