import Verif.Spec.EncodeError
import Verif.Proof.EncodeTotal
import Verif.Proof.EncodeUnique

/-!
# What an encoding that fails says
-/

namespace VJ
set_option linter.unusedSectionVars false

variable [Ext] {Γ : Env} {S : Nat → Prop}

/-- a set of places, with their names -/
abbrev Places := List Nat → List ECtx → Bool → Prop

/-- How a write ends when `E` are the places that cannot be written: if there are none nothing
fails; otherwise it fails, and unless the first one is in an embedded struct with its names. -/
structure Tells (E : Places) (w : W) (r : Option EErr × W) : Prop where
  keeps : w.err ≠ none → r.2.err ≠ none
  tells : w.err = none → ((∀ pos p b, ¬ E pos p b) ∧ r.1 = none ∧ r.2.err = none) ∨
    ∃ pos p b, E pos p b ∧ (∀ pos' p' b', E pos' p' b' → ¬ pos' < pos) ∧ (r.1 ≠ none ∨ r.2.err ≠ none) ∧
      (b = false → r.1 = some ⟨p, codeTimeText⟩)

theorem Tells.quiet {E : Places} {w : W} {r : Option EErr × W} (hE : ∀ pos p b, ¬ E pos p b) (h1 : r.1 = none) (h2 : r.2.err = w.err) : Tells E w r :=
  ⟨fun h => by rw [h2]; exact h, fun h => .inl ⟨hE, h1, by rw [h2, h]⟩⟩

theorem Tells.congr {E E' : Places} {w : W} {r : Option EErr × W} (h : Tells E w r) (hE : ∀ pos p b, E' pos p b ↔ E pos p b) : Tells E' w r := by
  have : E' = E := by funext pos p b; exact propext (hE pos p b)
  rw [this]; exact h

theorem Tells.raw {E : Places} {w w' : W} {r : Option EErr × W} (h : Tells E w' r) (he : w'.err = w.err) : Tells E w r :=
  ⟨fun hw => h.keeps (by rw [he]; exact hw), fun hw => h.tells (by rw [he]; exact hw)⟩

/-- the places, one name further down -/
def Places.under (E : Places) (label : ECtx) : Places := fun pos p b => ∃ q, p = label :: q ∧ E pos q b

theorem Tells.wrap {E : Places} {w : W} {r : Option EErr × W} (h : Tells E w r) (label : ECtx) :
    Tells (E.under label) w (EErr.wrap? label r.1, r.2) := by
  obtain ⟨e, w1⟩ := r
  refine ⟨h.keeps, fun hw => ?_⟩
  rcases h.tells hw with ⟨h1, h2, h3⟩ | ⟨pos, p, b, h1, h2, h3, h4⟩
  · exact .inl ⟨fun pos p b ⟨q, _, hq⟩ => h1 _ _ _ hq, by simp only at h2; simp [h2, EErr.wrap?], h3⟩
  · refine .inr ⟨pos, label :: p, b, ⟨p, rfl, h1⟩, fun pos' p' b' ⟨q, _, hq⟩ => h2 _ _ _ hq, ?_, fun hb => ?_⟩
    · rcases h3 with h3 | h3
      · refine .inl ?_
        cases e with
        | none => exact absurd rfl h3
        | some e => simp [EErr.wrap?]
      · exact .inr h3
    · have := h4 hb
      simp only at this
      simp [this, EErr.wrap?, EErr.wrap]

/-- places in a row -/
def Places.seq (E : Nat → Places) (i len : Nat) : Places := fun pos p b => ∃ j pos', pos = j :: pos' ∧ i ≤ j ∧ j < i + len ∧ E j pos' p b

theorem Tells.cons {E : Nat → Places} {i len : Nat} {w w1 : W} {e : Option EErr} {r : Option EErr × W} (h : Tells (E i) w (e, w1))
    (hs : ∀ x, e = some x → r.1 = some x ∧ r.2.err = w1.err) (hn : e = none → Tells (Places.seq E (i + 1) len) w1 r) :
    Tells (Places.seq E i (len + 1)) w r := by
  refine ⟨fun hw => ?_, fun hw => ?_⟩
  · have := h.keeps hw
    cases e with
    | none => exact (hn rfl).keeps this
    | some x => rw [(hs x rfl).2]; exact this
  · rcases h.tells hw with ⟨h1, h2, h3⟩ | ⟨pos, p, b, h1, h2, h3, h4⟩
    · simp only at h2 h3
      rcases (hn h2).tells h3 with ⟨g1, g2, g3⟩ | ⟨pos, p, b, g1, g2, g3, g4⟩
      · refine .inl ⟨?_, g2, g3⟩
        rintro pos p b ⟨j, pos', rfl, hi, hj, hE⟩
        by_cases hij : j = i
        · subst hij; exact h1 _ _ _ hE
        · exact g1 _ _ _ ⟨j, pos', rfl, by omega, by omega, hE⟩
      · obtain ⟨j, pos', rfl, hi, hj, hE⟩ := g1
        refine .inr ⟨_, p, b, ⟨j, pos', rfl, by omega, by omega, hE⟩, ?_, g3, g4⟩
        rintro pos2 p2 b2 ⟨j2, pos2', rfl, hi2, hj2, hE2⟩
        by_cases hij : j2 = i
        · subst hij; exact absurd hE2 (h1 _ _ _)
        · exact g2 _ _ _ ⟨j2, pos2', rfl, by omega, by omega, hE2⟩
    · refine .inr ⟨i :: pos, p, b, ⟨i, pos, rfl, Nat.le_refl i, by omega, h1⟩, ?_, ?_, ?_⟩
      · rintro pos2 p2 b2 ⟨j2, pos2', rfl, hi2, hj2, hE2⟩ hlt
        rcases List.cons_lt_cons_iff.1 hlt with hlt' | ⟨rfl, hlt'⟩
        · omega
        · exact h2 _ _ _ hE2 hlt'
      · cases e with
        | some x => exact .inl (by simp [(hs x rfl).1])
        | none =>
          rcases h3 with h3 | h3
          · exact absurd rfl h3
          · exact .inr ((hn rfl).keeps h3)
      · intro hb
        exact (hs _ (h4 hb)).1

theorem Tells.close {E : Places} {w w1 : W} {e : Option EErr} {r : Option EErr × W} (h : Tells E w (e, w1))
    (hs : ∀ x, e = some x → r.1 = some x ∧ r.2.err = w1.err) (hn : e = none → r.2.err = w1.err ∧ (r.1 = none ∨ r.1 = w1.err)) : Tells E w r := by
  have herr : r.2.err = w1.err := by
    cases e with
    | none => exact (hn rfl).1
    | some x => exact (hs x rfl).2
  refine ⟨fun hw => by rw [herr]; exact h.keeps hw, fun hw => ?_⟩
  rcases h.tells hw with ⟨h1, h2, h3⟩ | ⟨pos, p, b, h1, h2, h3, h4⟩
  · simp only at h2 h3
    refine .inl ⟨h1, ?_, by rw [herr, h3]⟩
    rcases (hn h2).2 with h | h
    · exact h
    · rw [h, h3]
  · refine .inr ⟨pos, p, b, h1, h2, ?_, fun hb => (hs _ (h4 hb)).1⟩
    rcases h3 with h3 | h3
    · cases e with
      | none => exact absurd rfl h3
      | some x => exact .inl (by simp [(hs x rfl).1])
    · exact .inr (by rw [herr]; exact h3)

/-! ### lists -/

theorem elems_tell {E : Nat → Places} {f : Nat → GoVal → W → Out (Option EErr × W)} : ∀ (vs : List GoVal) (i : Nat) (sep : Bool) (w : W)
    (r : Option EErr × W), (∀ j v w r, vs[j]? = some v → f (i + j) v w = .ok r → Tells (E (i + j)) w r) →
    writeElems f i sep vs w = .ok r → Tells (Places.seq E i vs.length) w r
  | [], i, sep, w, r, _, h => by
    simp only [writeElems, Out.ok.injEq] at h
    subst h
    refine .quiet ?_ rfl rfl
    rintro pos p b ⟨j, pos', _, h1, h2, _⟩
    simp only [List.length_nil] at h2
    omega
  | v :: vs, i, sep, w, r, hf, h => by
    simp only [writeElems] at h
    obtain ⟨⟨e, w1⟩, h1, h⟩ := Out.bind_eq_ok.1 h
    have ht : Tells (E i) w (e, w1) := (hf 0 v _ _ rfl h1).raw (by cases sep <;> rfl)
    refine Tells.cons ht ?_ ?_
    · rintro x rfl
      simp only [Out.pure_eq, Out.ok.injEq] at h
      subst h
      exact ⟨rfl, rfl⟩
    · rintro rfl
      exact elems_tell vs (i + 1) true w1 r (fun j v' w r hj hr => by
        have := hf (j + 1) v' w r (by simpa using hj)
        rw [show i + (j + 1) = i + 1 + j by omega] at this
        exact this hr) h

theorem members_tell {E : Nat → Places} {f : Str → GoVal → W → Out (Option EErr × W)} : ∀ (kvs : List (Str × GoVal)) (i : Nat) (sep : Bool) (w : W)
    (r : Option EErr × W), (∀ j key v w r, kvs[j]? = some (key, v) → f key v w = .ok r → Tells (E (i + j)) w r) →
    writeMembers f sep kvs w = .ok r → Tells (Places.seq E i kvs.length) w r
  | [], i, sep, w, r, _, h => by
    simp only [writeMembers, Out.ok.injEq] at h
    subst h
    refine .quiet ?_ rfl rfl
    rintro pos p b ⟨j, pos', _, h1, h2, _⟩
    simp only [List.length_nil] at h2
    omega
  | (key, v) :: kvs, i, sep, w, r, hf, h => by
    simp only [writeMembers] at h
    obtain ⟨⟨e, w1⟩, h1, h⟩ := Out.bind_eq_ok.1 h
    have ht : Tells (E i) w (e, w1) := (hf 0 key v _ _ rfl h1).raw (by cases sep <;> rfl)
    refine Tells.cons ht ?_ ?_
    · rintro x rfl
      simp only [Out.pure_eq, Out.ok.injEq] at h
      subst h
      exact ⟨rfl, rfl⟩
    · rintro rfl
      exact members_tell kvs (i + 1) true w1 r (fun j key' v' w r hj hr => by
        have := hf (j + 1) key' v' w r (by simpa using hj) hr
        rw [show i + (j + 1) = i + 1 + j by omega] at this
        exact this) h

/-! ### elements -/

/-- a write that cannot fail -/
def Silent (w : W) (r : Option EErr × W) : Prop := r.1 = none ∧ r.2.err = w.err

theorem prim_silent {M : Nat → Methods} {p : Prim} {x : VExt} (hx : primVExt p = .ok x) {label : ECtx} {v : GoVal} {w : W} {r : Option EErr × W}
    (h : runVExt M label x v w = .ok r) : Silent w r := by
  cases p <;> simp only [primVExt] at hx <;> cases hx <;> cases v <;> simp only [runVExt] at h <;> cases h <;> exact ⟨rfl, rfl⟩

/-- what is known about the methods at one level -/
structure Level (Γ : Env) (S : Nat → Prop) (k : Nat) : Prop where
  val : ∀ n v w r, S n → (Γ.methods k n).marshalTo (some v) w = .ok r → Tells (Unwritable Γ (.decl n) v) w r
  nil : ∀ n w r, S n → (Γ.methods k n).marshalTo none w = .ok r → Tells (fun _ _ _ => False) w r

/-- no time is behind a scalar type -/
theorem not_unwritable_prim {n : Nat} {p : Prim} {v : GoVal} {pos : List Nat} {q : List ECtx} {b : Bool} {u : TExpr}
    (hd : Γ.decl n = some (.alias u)) (hu : IsPrim Γ u p) : ¬ Unwritable Γ (.decl n) v pos q b := by
  intro h
  cases h with
  | time hd' => rw [hd] at hd'; cases hd'; cases hu
  | struct hd' => rw [hd] at hd'; cases hd'
  | namedList hd' _ hu' => rw [hd] at hd'; cases hd'; rcases hu' with rfl | ⟨_, rfl⟩ <;> cases hu
  | namedMap hd' => rw [hd] at hd'; cases hd'; cases hu
  | @namedName _ m _ _ _ _ _ hd' hu' h =>
    rw [hd] at hd'; cases hd'
    have : Γ.decl m = some (.alias (.prim p)) := by
      cases hu' <;> cases hu <;> assumption
    cases h with
    | time hd' => rw [this] at hd'; cases hd'
    | struct hd' => rw [this] at hd'; cases hd'
    | namedList hd' _ hu' => rw [this] at hd'; cases hd'; rcases hu' with hu' | ⟨_, hu'⟩ <;> cases hu'
    | namedMap hd' => rw [this] at hd'; cases hd'
    | namedName hd' hu' => rw [this] at hd'; cases hd'; cases hu'

theorem leaf_tell {k : Nat} (hL : Level Γ S k) {t : TExpr} {x : VExt} (hp : LeafPlan Γ t x) (hg : EGood Γ S t) {o : Bool}
    (hl : o = true → ∀ e, ¬ ListOf Γ t e) {v : GoVal} {label : ECtx} {w : W} {r : Option EErr × W} (h : runVExt (Γ.methods k) label x v w = .ok r) :
    Tells (Places.under (Unwritable Γ (.elem o t) v) label) w r := by
  cases hp with
  | @prim _ p _ ht hx =>
    obtain ⟨h1, h2⟩ := prim_silent hx h
    refine .quiet ?_ h1 h2
    rintro pos p' b ⟨q, _, h⟩
    cases h with
    | ptr hy hp h =>
      cases ht with
      | base hb => cases hb
    | name hn hp _ h =>
      cases ht with
      | base hb => exact hp _ hb
      | chain hd hb => cases hn; exact not_unwritable_prim hd hb h
    | list ht' => exact hl rfl _ ht'
  | @ptr _ y p x ht hy hx =>
    have hs : Silent w r := by
      cases v with
      | nil => simp only [runVExt, Out.ok.injEq] at h; subst h; exact ⟨rfl, rfl⟩
      | ptr g => simp only [runVExt] at h; exact prim_silent hx h
      | _ => simp [runVExt] at h
    refine .quiet ?_ hs.1 hs.2
    rintro pos p' b ⟨q, _, h⟩
    cases h with
    | ptr hy' hp h =>
      cases ht with
      | self => exact hp _ hy
    | name hn hp hl' h =>
      cases ht with
      | self => cases hn
      | named hd =>
        cases hn
        cases h with
        | time hd' => rw [hd] at hd'; cases hd'
        | struct hd' => rw [hd] at hd'; cases hd'
        | namedList hd' _ hu' => rw [hd] at hd'; cases hd'; rcases hu' with hu' | ⟨_, hu'⟩ <;> cases hu'
        | namedMap hd' => rw [hd] at hd'; cases hd'
        | namedName hd' hu' => rw [hd] at hd'; cases hd'; cases hu'
    | list ht' => exact hl rfl _ ht'
  | time =>
    have hs : Silent w r := by
      cases v with
      | time tm => simp only [runVExt, Out.ok.injEq] at h; subst h; exact ⟨rfl, rfl⟩
      | _ => simp [runVExt] at h
    refine .quiet ?_ hs.1 hs.2
    rintro pos p' b ⟨q, _, h⟩
    cases h with
    | name hn => cases hn
    | list ht' => exact hl rfl _ ht'
  | @call _ n ht hp =>
    have h : ((Γ.methods k n).marshalTo (some v) w >>= fun r => Out.ok (EErr.wrap? label r.1, r.2)) = .ok r := by
      cases v <;> exact h
    obtain ⟨r1, h1, h⟩ := Out.bind_eq_ok.1 h
    cases h
    refine ((hL.val _ _ _ _ (hg.name ht) h1).wrap label).congr fun pos p b => ?_
    constructor
    · rintro ⟨q, rfl, h⟩
      refine ⟨q, rfl, ?_⟩
      cases h with
      | ptr => cases ht
      | name hn _ _ h => cases hn.inj ht; exact h
      | list ht' => exact absurd ht' (hl rfl _)
    · rintro ⟨q, rfl, h⟩
      exact ⟨q, rfl, .name ht hp hl h⟩
  | @callPtr y n hy hp =>
    cases v with
    | nil =>
      simp only [runVExt] at h
      obtain ⟨⟨e, w1⟩, h1, h⟩ := Out.bind_eq_ok.1 h
      cases h
      refine ((hL.nil _ _ _ (hg.star.name hy) h1).wrap label).congr fun pos p b => ⟨?_, fun h => h.elim fun _ h => h.2.elim⟩
      rintro ⟨q, _, h⟩
      cases h with
      | name hn => cases hn
      | list ht' hv => cases hv
    | ptr g =>
      simp only [runVExt] at h
      obtain ⟨⟨e, w1⟩, h1, h⟩ := Out.bind_eq_ok.1 h
      cases h
      refine ((hL.val _ _ _ _ (hg.star.name hy) h1).wrap label).congr fun pos p b => ?_
      constructor
      · rintro ⟨q, rfl, h⟩
        refine ⟨q, rfl, ?_⟩
        cases h with
        | ptr hy' hp' h => cases hy'.inj hy; exact h
        | name hn => cases hn
        | list ht' => exact absurd ht' (hl rfl _)
      · rintro ⟨q, rfl, h⟩
        exact ⟨q, rfl, .ptr hy hp h⟩
    | _ => simp [runVExt] at h

theorem getElem?_len {α : Type} {l : List α} {i : Nat} {a : α} (h : l[i]? = some a) : i < l.length := (List.getElem?_eq_some_iff.1 h).1

theorem vext_tell {k : Nat} (hP : TypeSet Γ S) (hL : Level Γ S k) {t : TExpr} {x : VExt} (hp : ElemPlan Γ t x) (hg : EGood Γ S t)
    {v : GoVal} {label : ECtx} {w : W} {r : Option EErr × W} (h : runVExt (Γ.methods k) label x v w = .ok r) :
    Tells (Places.under (Unwritable Γ (.elem true t) v) label) w r := by
  cases hp with
  | leaf hl hp => exact leaf_tell hL hp hg (fun _ => hl) h
  | @list e x ht hp =>
    have hge : EGood Γ S e := by
      rcases ht.2 with hi | ⟨n, hi⟩
      · exact (hg.is hP hi).slice
      · exact (hg.is hP hi).array
    have notName : ∀ {v pos q b}, Unwritable Γ (.elem true t) v pos q b → ∃ es i x pos', Listing v es ∧ es[i]? = some x ∧ pos = i :: pos' ∧
        Unwritable Γ (.elem false e) x pos' q b := by
      intro v pos q b h
      generalize hpl : Place.elem true t = pl at h
      cases h with
      | ptr hy =>
        cases hpl
        rcases ht.2 with hi | ⟨n, hi⟩ <;> cases hi
      | name hn hp' hl => cases hpl; exact absurd ht (hl rfl _)
      | @list _ e' _ x es i pos' _ _ ht' hv hx h =>
        cases hpl
        have : e' = e := by
          have h1 := listOf_denoted ht
          have h2 := listOf_denoted ht'
          rcases h1 with h1 | ⟨_, h1⟩ <;> rcases h2 with h2 | ⟨_, h2⟩ <;> rw [h1] at h2 <;> cases h2 <;> rfl
        subst this
        exact ⟨es, i, x, pos', hv, hx, rfl, h⟩
      | _ => cases hpl
    have key : ∀ es : List GoVal, Listing v es → (do
          let (er, w) ← writeElems (fun _ v w => runVExt (Γ.methods k) label x v w) 0 false es (w.raw ['['])
          match er with
          | some er => return (some er, w)
          | none => return (none, w.raw [']']) : Out (Option EErr × W)) = .ok r → Tells (Places.under (Unwritable Γ (.elem true t) v) label) w r := by
      intro es hes h
      obtain ⟨⟨er, w1⟩, h1, h⟩ := Out.bind_eq_ok.1 h
      have hE := elems_tell (E := fun i pos p b => ∃ x q, es[i]? = some x ∧ p = label :: q ∧ Unwritable Γ (.elem false e) x pos q b) es 0 false _ _
        (fun j v w r hj hr => ((leaf_tell hL hp hge (o := false) (by simp) hr).congr fun pos p b => by
          simp only [Nat.zero_add, Places.under]
          constructor
          · rintro ⟨x, q, hx, rfl, h⟩; rw [hj] at hx; cases hx; exact ⟨q, rfl, h⟩
          · rintro ⟨q, rfl, h⟩; exact ⟨v, q, hj, rfl, h⟩)) h1
      refine (hE.raw (w := w) rfl).close ?_ ?_ |>.congr ?_
      · rintro x rfl; cases h; exact ⟨rfl, rfl⟩
      · rintro rfl; cases h; exact ⟨rfl, .inl rfl⟩
      · intro pos p b
        constructor
        · rintro ⟨q, rfl, h⟩
          obtain ⟨es', i, x, pos', hv, hx, rfl, hU⟩ := notName h
          have : es' = es := by cases hv <;> cases hes <;> rfl
          subst this
          exact ⟨i, pos', rfl, Nat.zero_le _, by rw [Nat.zero_add]; exact getElem?_len hx, x, q, hx, rfl, hU⟩
        · rintro ⟨i, pos', rfl, _, _, x, q, hx, rfl, h⟩
          exact ⟨q, rfl, .list ht hes hx h⟩
    cases v with
    | nil =>
      simp only [runVExt, Out.ok.injEq] at h
      subst h
      refine .quiet ?_ rfl rfl
      rintro pos p b ⟨q, _, h⟩
      obtain ⟨es', i, x, pos', hv, _⟩ := notName h
      cases hv
    | slice es sp => exact key es (.slice es sp) h
    | arr es => exact key es (.arr es) h
    | _ => simp [runVExt] at h

theorem list_tell {k : Nat} (hP : TypeSet Γ S) (hL : Level Γ S k) {t : TExpr} {x : VExt} (hp : ElemPlan Γ t x) (hg : EGood Γ S t)
    {name : Str} {es : List GoVal} {w : W} {r : Option EErr × W} (h : writeList (Γ.methods k) name x es w = .ok r) :
    Tells (fun pos p b => ∃ i pos' x q, pos = i :: pos' ∧ es[i]? = some x ∧ p = atItem name i :: q ∧ Unwritable Γ (.elem true t) x pos' q b) w r := by
  obtain ⟨⟨er, w1⟩, h1, h⟩ := Out.bind_eq_ok.1 h
  have hE := elems_tell (E := fun i pos p b => ∃ x q, es[i]? = some x ∧ p = atItem name i :: q ∧ Unwritable Γ (.elem true t) x pos q b) es 0 false _ _
    (fun j v w r hj hr => ((vext_tell hP hL hp hg hr).congr fun pos p b => by
      simp only [Nat.zero_add, Places.under]
      have hlab : itemLabel name j = atItem name j := rfl
      rw [hlab]
      constructor
      · rintro ⟨x, q, hx, rfl, h⟩; rw [hj] at hx; cases hx; exact ⟨q, rfl, h⟩
      · rintro ⟨q, rfl, h⟩; exact ⟨v, q, hj, rfl, h⟩)) h1
  refine (hE.raw (w := w) rfl).close ?_ ?_ |>.congr ?_
  · rintro x rfl; cases h; exact ⟨rfl, rfl⟩
  · rintro rfl; cases h; exact ⟨rfl, .inl rfl⟩
  · intro pos p b
    constructor
    · rintro ⟨i, pos', x, q, rfl, hx, rfl, h⟩
      exact ⟨i, pos', rfl, Nat.zero_le _, by rw [Nat.zero_add]; exact getElem?_len hx, x, q, hx, rfl, h⟩
    · rintro ⟨i, pos', rfl, _, _, x, q, hx, rfl, h⟩
      exact ⟨i, pos', x, q, rfl, hx, rfl, h⟩

theorem map_tell {k : Nat} (hP : TypeSet Γ S) (hL : Level Γ S k) {t : TExpr} {x : VExt} (hp : ElemPlan Γ t x) (hg : EGood Γ S t)
    {name : Str} {kvs : List (Str × GoVal)} {w : W} {r : Option EErr × W} (h : writeMap (Γ.methods k) name x kvs w = .ok r) :
    Tells (fun pos p b => ∃ i pos' key x q, pos = i :: pos' ∧ kvs[i]? = some (key, x) ∧ p = atMember name key :: q ∧
      Unwritable Γ (.elem true t) x pos' q b) w r := by
  obtain ⟨⟨er, w1⟩, h1, h⟩ := Out.bind_eq_ok.1 h
  have hE := members_tell (E := fun i pos p b => ∃ key x q, kvs[i]? = some (key, x) ∧ p = atMember name key :: q ∧ Unwritable Γ (.elem true t) x pos q b)
    kvs 0 false _ _
    (fun j key v w r hj hr => ((vext_tell hP hL hp hg hr).congr fun pos p b => by
      simp only [Nat.zero_add, Places.under]
      have hlab : memberLabel name key = atMember name key := rfl
      rw [hlab]
      constructor
      · rintro ⟨key', x, q, hx, rfl, h⟩; rw [hj] at hx; cases hx; exact ⟨q, rfl, h⟩
      · rintro ⟨q, rfl, h⟩; exact ⟨key, v, q, hj, rfl, h⟩)) h1
  refine (hE.raw (w := w) rfl).close ?_ ?_ |>.congr ?_
  · rintro x rfl; cases h; exact ⟨rfl, rfl⟩
  · rintro rfl; cases h; exact ⟨rfl, .inl rfl⟩
  · intro pos p b
    constructor
    · rintro ⟨i, pos', key, x, q, rfl, hx, rfl, h⟩
      exact ⟨i, pos', rfl, Nat.zero_le _, by rw [Nat.zero_add]; exact getElem?_len hx, key, x, q, hx, rfl, h⟩
    · rintro ⟨i, pos', rfl, _, _, key, x, q, hx, rfl, h⟩
      exact ⟨i, pos', key, x, q, rfl, hx, rfl, h⟩

/-! ### fields -/

/-- bodies of fields that cannot fail -/
def Body.simple : Body → Prop
  | .prim _ _ | .boolTrue | .refBool _ | .time _ _ | .uuid _ | .bytes => True
  | _ => False

theorem simple_silent {M : Nat → Methods} {name : Str} {b : Body} (hb : b.simple) {v : GoVal} {w : W} {r : Option EErr × W}
    (h : runBody M name b v w = .ok r) : Silent w r := by
  cases b with
  | prim pw d =>
    simp only [runBody] at h
    obtain ⟨v', _, h⟩ := Out.bind_eq_ok.1 h
    split at h <;> cases h <;> exact ⟨rfl, rfl⟩
  | boolTrue => simp only [runBody, Out.ok.injEq] at h; subst h; exact ⟨rfl, rfl⟩
  | refBool d =>
    simp only [runBody] at h
    obtain ⟨v', _, h⟩ := Out.bind_eq_ok.1 h
    split at h <;> cases h <;> exact ⟨rfl, rfl⟩
  | time l d =>
    simp only [runBody] at h
    obtain ⟨v', _, h⟩ := Out.bind_eq_ok.1 h
    split at h <;> cases h <;> exact ⟨rfl, rfl⟩
  | uuid st =>
    simp only [runBody] at h
    obtain ⟨v', _, h⟩ := Out.bind_eq_ok.1 h
    split at h <;> cases h <;> exact ⟨rfl, rfl⟩
  | bytes => cases v <;> simp only [runBody] at h <;> cases h <;> exact ⟨rfl, rfl⟩
  | _ => cases hb

/-- how a block ends -/
theorem blk_tell_of {E : Places} {k : Nat} {b : Blk} {v : GoVal} {wc : Bool} {w : W} {r : Option EErr × Bool × W}
    (hfalse : ∀ c, b.cond = some c → runCond (Γ.methods k) c v = .ok false → ∀ pos p b, ¬ E pos p b)
    (hbody : (∀ c, b.cond = some c → runCond (Γ.methods k) c v = .ok true) → ∀ w r, runBody (Γ.methods k) b.name b.body v w = .ok r → Tells E w r)
    (h : runBlk (Γ.methods k) b v wc w = .ok r) : Tells E w (r.1, r.2.2) := by
  have body : (∀ c, b.cond = some c → runCond (Γ.methods k) c v = .ok true) →
      (do let (e, w) ← runBody (Γ.methods k) b.name b.body v (putComma wc w); return (e, true, w) : Out (Option EErr × Bool × W)) = .ok r →
      Tells E w (r.1, r.2.2) := by
    intro hc h
    obtain ⟨⟨e, w1⟩, h1, h⟩ := Out.bind_eq_ok.1 h
    cases h
    exact (hbody hc _ _ h1).raw (putComma_err wc w)
  unfold runBlk at h
  cases hb : b.cond with
  | none => rw [hb] at h; exact body (by simp [hb]) h
  | some c =>
    rw [hb] at h
    obtain ⟨nz, hnz, h⟩ := Out.bind_eq_ok.1 h
    cases nz with
    | true => exact body (fun c' hc' => by rw [hb] at hc'; cases hc'; exact hnz) h
    | false =>
      simp only [Bool.false_eq_true, if_false] at h
      have hE := hfalse c hb hnz
      cases hz : b.ifZero with
      | none => rw [hz] at h; cases h; exact .quiet hE rfl rfl
      | some p => rw [hz] at h; cases h; exact .quiet hE rfl (putComma_err wc w)

theorem inline_tell {k n : Nat} (hT : ForeignTame Γ) {strict : Bool} {fields : List FieldDecl} (hd : Γ.decl n = some (.struct strict fields))
    {E : Places} {v : GoVal} (hc : ∀ w r, (Γ.methods k n).marshalTo (some v) w = .ok r → Tells E w r) {name : Str} {w : W} {r : Option EErr × W}
    (h : runBody (Γ.methods k) name (.inline n) v w = .ok r) : Tells (fun pos p b => b = true ∧ ∃ b', E pos p b') w r := by
  simp only [runBody, marshalJSON] at h
  obtain ⟨res, h1, h⟩ := Out.bind_eq_ok.1 h
  obtain ⟨⟨e1, w1⟩, h0, h1⟩ := Out.bind_eq_ok.1 h1
  have ht := (hc _ _ h0).tells rfl
  cases h
  refine ⟨fun hw => ?_, fun hw => ?_⟩
  · simp only [W.rawData]
    cases he : w.err with
    | none => exact absurd he hw
    | some x => simp [he]
  · rcases ht with ⟨g1, g2, g3⟩ | ⟨pos, p, b, g1, g2, g3, g4⟩
    · simp only at g2 g3
      subst g2
      cases h1
      obtain ⟨s, hs⟩ := struct_text hT hd h0
      refine .inl ⟨fun pos p b ⟨_, b', hb'⟩ => g1 _ _ _ hb', rfl, ?_⟩
      simp only [W.build, g3, hs, unpack_obj]
      simp [W.rawData, hw]
      split <;> simp_all
    · refine .inr ⟨pos, p, true, ⟨rfl, b, g1⟩, fun pos' p' b' ⟨_, b'', hb'⟩ => g2 _ _ _ hb', .inr ?_, fun h => by cases h⟩
      have : ∃ x, res = .error x := by
        cases e1 with
        | some x => cases h1; exact ⟨x, rfl⟩
        | none =>
          rcases g3 with g3 | g3
          · exact absurd rfl g3
          · cases h1
            cases he : w1.err with
            | none => exact absurd he g3
            | some x => exact ⟨x, by simp [W.build, he]⟩
      obtain ⟨x, rfl⟩ := this
      simp [unpackObject, W.rawData, hw]

/-- the unwritable places of a field that is written -/
def fieldPlaces (Γ : Env) (fd : FieldDecl) (v : GoVal) : Places := fun pos p b => ¬ Omitted Γ fd v ∧ Unwritable Γ (.field fd) v pos p b

theorem blk_tell {k : Nat} (hP : QuietPackage Γ S) (hL : Level Γ S k) {fd : FieldDecl} {kd : EKind} {b : Blk} (hp : BlkPlan Γ fd kd b) (hg : EGood Γ S fd.typ)
    (hemb : ∀ m, fd.tags.jsonName = [] → ByMethod Γ fd.typ m → Γ.decl m ≠ none) {v : GoVal} {wc : Bool} {w : W} {r : Option EErr × Bool × W}
    (h : runBlk (Γ.methods k) b v wc w = .ok r) : Tells (fieldPlaces Γ fd v) w (r.1, r.2.2) := by
  have hk := hp.kind
  have isZ : ∀ {m b}, runCond (Γ.methods k) (.method m) v = .ok b → IsZeroIs Γ m v (!b) := by
    intro m b h
    simp only [runCond] at h
    obtain ⟨z, h1, h2⟩ := Out.bind_eq_ok.1 h
    cases h2
    exact ⟨k, by simpa using h1⟩
  have inv : ∀ {pos p b'}, Unwritable Γ (.field fd) v pos p b' →
      (∃ n q, kd = .method n ∧ fd.tags.jsonName ≠ [] ∧ p = .attr fd.tags.jsonName :: q ∧ Unwritable Γ (.decl n) v pos q b') ∨
      (∃ n q g, kd = .methodPtr n ∧ v = .ptr g ∧ p = .attr fd.tags.jsonName :: q ∧ Unwritable Γ (.decl n) g pos q b') ∨
      (∃ n b'', kd = .method n ∧ fd.tags.jsonName = [] ∧ b' = true ∧ Unwritable Γ (.decl n) v pos p b'') ∨
      (∃ e kvs i pos' key x q, kd = .map e ∧ v = .map kvs ∧ pos = i :: pos' ∧ kvs[i]? = some (key, x) ∧ p = atMember fd.tags.jsonName key :: q ∧
        Unwritable Γ (.elem true e) x pos' q b') ∨
      (∃ e es i pos' x q, kd = .list e ∧ Listing v es ∧ pos = i :: pos' ∧ es[i]? = some x ∧ p = atItem fd.tags.jsonName i :: q ∧
        Unwritable Γ (.elem true e) x pos' q b') := by
    intro pos p b' h
    cases h with
    | field hk' hn h => exact .inl ⟨_, _, fieldKind_unique hk hk', hn, rfl, h⟩
    | ptrField hk' h => exact .inr (.inl ⟨_, _, _, fieldKind_unique hk hk', rfl, rfl, h⟩)
    | embedded hk' hn h => exact .inr (.inr (.inl ⟨_, _, fieldKind_unique hk hk', hn, rfl, h⟩))
    | mapField hk' hx h => exact .inr (.inr (.inr (.inl ⟨_, _, _, _, _, _, _, fieldKind_unique hk hk', rfl, rfl, hx, rfl, h⟩)))
    | listField hk' hv hx h => exact .inr (.inr (.inr (.inr ⟨_, _, _, _, _, _, fieldKind_unique hk hk', hv, rfl, hx, rfl, h⟩)))
  have simple : (∀ n, kd ≠ .method n) → (∀ n, kd ≠ .methodPtr n) → (∀ e, kd ≠ .map e) → (∀ e, kd ≠ .list e) → b.body.simple →
      Tells (fieldPlaces Γ fd v) w (r.1, r.2.2) := by
    intro h1 h2 h3 h4 h5
    have no : ∀ pos p b, ¬ fieldPlaces Γ fd v pos p b := by
      rintro pos p b' ⟨_, hU⟩
      rcases inv hU with ⟨n, _, hk, _⟩ | ⟨n, _, _, hk, _⟩ | ⟨n, _, hk, _⟩ | ⟨e, _, _, _, _, _, _, hk, _⟩ | ⟨e, _, _, _, _, _, hk, _⟩
      · exact h1 _ hk
      · exact h2 _ hk
      · exact h1 _ hk
      · exact h3 _ hk
      · exact h4 _ hk
    exact blk_tell_of (fun _ _ _ => no) (fun _ w r hr => by
      obtain ⟨g1, g2⟩ := simple_silent h5 hr
      exact .quiet no g1 g2) h
  have typeSimple : ∀ {p d}, typeMarshal fd.tags p d = .ok b → b.body.simple := by
    intro p d hb
    cases p <;> simp only [typeMarshal] at hb <;> first | cases hb |
      (simp only [Out.ok_bind] at hb; split at hb <;> cases hb <;> first | trivial | (simp only; split <;> trivial))
  cases hp with
  | scalar ht hb => exact simple (by simp) (by simp) (by simp) (by simp) (typeSimple hb)
  | ptr _ ht hy hb => exact simple (by simp) (by simp) (by simp) (by simp) (typeSimple hb)
  | ptr2 ht hy hb => exact simple (by simp) (by simp) (by simp) (by simp) (typeSimple hb)
  | time ht => exact simple (by simp) (by simp) (by simp) (by simp) trivial
  | timePtr ht => exact simple (by simp) (by simp) (by simp) (by simp) trivial
  | uuid ht => exact simple (by simp) (by simp) (by simp) (by simp) trivial
  | uuidPtr ht => exact simple (by simp) (by simp) (by simp) (by simp) trivial
  | bytes ht => exact simple (by simp) (by simp) (by simp) (by simp) trivial
  | fixedBytes ht => exact simple (by simp) (by simp) (by simp) (by simp) trivial
  | @method m _ ht hb =>
    have hm : S m := ht.inS hP.toTypeSet hg
    unfold marshalTransit at hb
    by_cases hj : fd.tags.jsonName = []
    · rw [if_pos hj] at hb; cases hb
      refine blk_tell_of (fun c hc hz => ?_) (fun hnz w r hr => ?_) h
      · simp only [Option.some.injEq] at hc; subst hc
        exact fun _ _ _ hU => hU.1 ⟨_, hk, .method (isZ hz), .inr ⟨⟨m, rfl⟩, hj⟩⟩
      · have hz := hnz _ rfl
        have ho : ¬ Omitted Γ fd v := not_omitted hk fun h => by
          cases h with
          | method h => cases isZero_unique h (isZ hz)
        have hs : ∃ strict fields, Γ.decl m = some (.struct strict fields) := by
          have := hemb m hj ht
          clear hk inv simple typeSimple
          generalize fd.typ = ft at ht hg
          cases ht with
          | struct hd => exact ⟨_, _, hd⟩
          | sel hd => exact absurd hd this
          | named hd => exact absurd ((hP.alias (hg.name (.named _)) hd).sel) this
        obtain ⟨strict, fields, hd⟩ := hs
        refine (inline_tell hP.tame hd (fun w r hr => hL.val _ _ _ _ hm hr) hr).congr fun pos p b' => ?_
        constructor
        · rintro ⟨_, hU⟩
          rcases inv hU with ⟨n, _, _, hn, _⟩ | ⟨n, _, _, hk, _⟩ | ⟨n, b'', hk, _, rfl, hU⟩ | ⟨e, _, _, _, _, _, _, hk, _⟩ | ⟨e, _, _, _, _, _, hk, _⟩
          · exact absurd hj hn
          · cases hk
          · cases hk; exact ⟨rfl, b'', hU⟩
          · cases hk
          · cases hk
        · rintro ⟨rfl, b'', hU⟩
          exact ⟨ho, .embedded hk hj hU⟩
    · rw [if_neg hj] at hb
      simp only [Bool.false_eq_true, if_false] at hb
      cases hb
      refine blk_tell_of (fun c hc hz => ?_) (fun hnz w r hr => ?_) h
      · simp only at hc
        split at hc
        · rename_i hom
          simp only [Option.some.injEq] at hc; subst hc
          exact fun _ _ _ hU => hU.1 ⟨_, hk, .method (isZ hz), .inl hom⟩
        · cases hc
      · have ho : ¬ Omitted Γ fd v := not_omitted hk fun h => by
          cases hom : fd.tags.omitempty with
          | false => exact ⟨rfl, fun _ => hj⟩
          | true =>
            have hz := hnz (.method m) (by simp [hom])
            cases h with
            | method h => cases isZero_unique h (isZ hz)
        simp only [runBody, Bool.false_eq_true, if_false, deref, Out.ok_bind] at hr
        obtain ⟨r1, h1, hr⟩ := Out.bind_eq_ok.1 hr
        cases hr
        refine (((hL.val _ _ _ _ hm h1).wrap (.attr fd.tags.jsonName)).raw (w := w) rfl).congr fun pos p b' => ?_
        constructor
        · rintro ⟨_, hU⟩
          rcases inv hU with ⟨n, q, hk, _, rfl, hU⟩ | ⟨n, _, _, hk, _⟩ | ⟨n, b'', hk, hn, _⟩ | ⟨e, _, _, _, _, _, _, hk, _⟩ | ⟨e, _, _, _, _, _, hk, _⟩
          · cases hk; exact ⟨q, rfl, hU⟩
          · cases hk
          · exact absurd hn hj
          · cases hk
          · cases hk
        · rintro ⟨q, rfl, hU⟩
          exact ⟨ho, .field hk hj hU⟩
  | @methodPtr t m _ ht hy hb =>
    have hm : S m := hy.inS hP.toTypeSet (by rw [ht] at hg; exact hg.star)
    unfold marshalTransit at hb
    by_cases hj : fd.tags.jsonName = []
    · rw [if_pos hj] at hb; cases hb
    · rw [if_neg hj] at hb
      simp only [if_true] at hb
      cases hb
      have only : ∀ {pos p b'}, Unwritable Γ (.field fd) v pos p b' → ∃ q g, v = .ptr g ∧ p = .attr fd.tags.jsonName :: q ∧ Unwritable Γ (.decl m) g pos q b' := by
        intro pos p b' hU
        rcases inv hU with ⟨n, q, hk, _⟩ | ⟨n, q, g, hk, hv, hp, hU⟩ | ⟨n, b'', hk, hn, _⟩ | ⟨e, _, _, _, _, _, _, hk, _⟩ | ⟨e, _, _, _, _, _, hk, _⟩
        · cases hk
        · cases hk; exact ⟨q, g, hv, hp, hU⟩
        · cases hk
        · cases hk
        · cases hk
      refine blk_tell_of (fun c hc hz => ?_) (fun hnz w r hr => ?_) h
      · simp only [Option.some.injEq] at hc; subst hc
        rintro pos p b' ⟨_, hU⟩
        obtain ⟨q, g, rfl, _⟩ := only hU
        simp [runCond, eqZero] at hz
      · simp only [runBody, if_true] at hr
        obtain ⟨g, hd, hr⟩ := Out.bind_eq_ok.1 hr
        cases v with
        | ptr g' =>
          simp only [deref, Out.ok.injEq] at hd
          subst hd
          obtain ⟨r1, h1, hr⟩ := Out.bind_eq_ok.1 hr
          cases hr
          have ho : ¬ Omitted Γ fd (.ptr g') := not_omitted hk fun h => by cases h
          refine (((hL.val _ _ _ _ hm h1).wrap (.attr fd.tags.jsonName)).raw (w := w) rfl).congr fun pos p b' => ?_
          constructor
          · rintro ⟨_, hU⟩
            obtain ⟨q, g, hg, rfl, hU⟩ := only hU
            cases hg
            exact ⟨q, rfl, hU⟩
          · rintro ⟨q, rfl, hU⟩
            exact ⟨ho, .ptrField hk hU⟩
        | nil => cases hd
        | _ => simp [deref] at hd
  | @map e x ht hx =>
    have only : ∀ {pos p b'}, Unwritable Γ (.field fd) v pos p b' → ∃ kvs i pos' key x q, v = .map kvs ∧ pos = i :: pos' ∧ kvs[i]? = some (key, x) ∧
        p = atMember fd.tags.jsonName key :: q ∧ Unwritable Γ (.elem true e) x pos' q b' := by
      intro pos p b' hU
      rcases inv hU with ⟨n, q, hk, _⟩ | ⟨n, q, g, hk, _⟩ | ⟨n, b'', hk, hn, _⟩ | ⟨e, kvs, i, pos', key, x, q, hk, h⟩ | ⟨e, _, _, _, _, _, hk, _⟩
      · cases hk
      · cases hk
      · cases hk
      · cases hk; exact ⟨kvs, i, pos', key, x, q, h⟩
      · cases hk
    refine blk_tell_of (fun c hc hz => ?_) (fun hnz w r hr => ?_) h
    · simp only [Option.some.injEq] at hc; subst hc
      rintro pos p b' ⟨_, hU⟩
      obtain ⟨kvs, i, pos', key, x, q, rfl, _⟩ := only hU
      simp [runCond, eqZero] at hz
    · cases v with
      | map kvs =>
        simp only [runBody] at hr
        have ho : ¬ Omitted Γ fd (.map kvs) := not_omitted hk fun h => by cases h
        refine ((map_tell hP.toTypeSet hL hx (hg.is hP.toTypeSet ht).map hr).raw (w := w) rfl).congr fun pos p b' => ?_
        constructor
        · rintro ⟨_, hU⟩
          obtain ⟨kvs', i, pos', key, x, q, hv, h1, h2, h3, h4⟩ := only hU
          cases hv
          exact ⟨i, pos', key, x, q, h1, h2, h3, h4⟩
        · rintro ⟨i, pos', key, x, q, rfl, h2, rfl, h4⟩
          exact ⟨ho, .mapField hk h2 h4⟩
      | _ => simp [runBody] at hr
  | @slice e x ht hb hx =>
    have only : ∀ {pos p b'}, Unwritable Γ (.field fd) v pos p b' → ∃ es i pos' x q, Listing v es ∧ pos = i :: pos' ∧ es[i]? = some x ∧
        p = atItem fd.tags.jsonName i :: q ∧ Unwritable Γ (.elem true e) x pos' q b' := by
      intro pos p b' hU
      rcases inv hU with ⟨n, q, hk, _⟩ | ⟨n, q, g, hk, _⟩ | ⟨n, b'', hk, hn, _⟩ | ⟨e, _, _, _, _, _, _, hk, h⟩ | ⟨e, es, i, pos', x, q, hk, h⟩
      · cases hk
      · cases hk
      · cases hk
      · cases hk
      · cases hk; exact ⟨es, i, pos', x, q, h⟩
    refine blk_tell_of (fun c hc hz => ?_) (fun hnz w r hr => ?_) h
    · simp only [Option.some.injEq] at hc; subst hc
      rintro pos p b' ⟨_, hU⟩
      obtain ⟨es, i, pos', x, q, hv, _⟩ := only hU
      cases hv <;> simp [runCond, eqZero] at hz
    · have : ∃ es, Listing v es ∧ writeList (Γ.methods k) fd.tags.jsonName x es (w.raw (keyText fd.tags.jsonName)) = .ok r := by
        cases v with
        | slice es sp => exact ⟨es, .slice es sp, hr⟩
        | arr es => exact ⟨es, .arr es, hr⟩
        | _ => simp [runBody] at hr
      obtain ⟨es, hv, hr⟩ := this
      have ho : ¬ Omitted Γ fd v := not_omitted hk fun h => by cases h; cases hv
      refine ((list_tell hP.toTypeSet hL hx (hg.is hP.toTypeSet ht).slice hr).raw (w := w) rfl).congr fun pos p b' => ?_
      constructor
      · rintro ⟨_, hU⟩
        obtain ⟨es', i, pos', x, q, hv', h1, h2, h3, h4⟩ := only hU
        have : es' = es := by cases hv <;> cases hv' <;> rfl
        subst this
        exact ⟨i, pos', x, q, h1, h2, h3, h4⟩
      · rintro ⟨i, pos', x, q, rfl, h2, rfl, h4⟩
        exact ⟨ho, .listField hk hv h2 h4⟩
  | @array e len x ht hb hx =>
    have only : ∀ {pos p b'}, Unwritable Γ (.field fd) v pos p b' → ∃ es i pos' x q, Listing v es ∧ pos = i :: pos' ∧ es[i]? = some x ∧
        p = atItem fd.tags.jsonName i :: q ∧ Unwritable Γ (.elem true e) x pos' q b' := by
      intro pos p b' hU
      rcases inv hU with ⟨n, q, hk, _⟩ | ⟨n, q, g, hk, _⟩ | ⟨n, b'', hk, hn, _⟩ | ⟨e, _, _, _, _, _, _, hk, h⟩ | ⟨e, es, i, pos', x, q, hk, h⟩
      · cases hk
      · cases hk
      · cases hk
      · cases hk
      · cases hk; exact ⟨es, i, pos', x, q, h⟩
    refine blk_tell_of (by simp) (fun hnz w r hr => ?_) h
    have : ∃ es, Listing v es ∧ writeList (Γ.methods k) fd.tags.jsonName x es (w.raw (keyText fd.tags.jsonName)) = .ok r := by
      cases v with
      | slice es sp => exact ⟨es, .slice es sp, hr⟩
      | arr es => exact ⟨es, .arr es, hr⟩
      | _ => simp [runBody] at hr
    obtain ⟨es, hv, hr⟩ := this
    have ho : ¬ Omitted Γ fd v := not_omitted hk fun h => by cases h; cases hv
    refine ((list_tell hP.toTypeSet hL hx (hg.is hP.toTypeSet ht).array hr).raw (w := w) rfl).congr fun pos p b' => ?_
    constructor
    · rintro ⟨_, hU⟩
      obtain ⟨es', i, pos', x, q, hv', h1, h2, h3, h4⟩ := only hU
      have : es' = es := by cases hv <;> cases hv' <;> rfl
      subst this
      exact ⟨i, pos', x, q, h1, h2, h3, h4⟩
    · rintro ⟨i, pos', x, q, rfl, h2, rfl, h4⟩
      exact ⟨ho, .listField hk hv h2 h4⟩

theorem blks_tell {k : Nat} (hP : QuietPackage Γ S) (hL : Level Γ S k) : ∀ (fields : List FieldDecl) (bs : List Blk) (gs : List GoVal) (i : Nat)
    (E : Nat → Places) (wc : Bool) (w : W) (r : Option EErr × W), genBlks Γ fields = .ok bs →
    (∀ (j : Nat) (fd : FieldDecl), fields[j]? = some fd → EGood Γ S fd.typ ∧ ∀ m, fd.tags.jsonName = [] → ByMethod Γ fd.typ m → Γ.decl m ≠ none) →
    (∀ (j : Nat) (fd : FieldDecl) (g : GoVal), fields[j]? = some fd → gs[j]? = some g → E (i + j) = fieldPlaces Γ fd g) →
    runBlks (Γ.methods k) bs gs wc w = .ok r → Tells (Places.seq E i fields.length) w r
  | [], bs, gs, i, E, wc, w, r, hb, _, _, h => by
    simp only [genBlks, Out.ok.injEq] at hb
    subst hb
    cases gs with
    | nil =>
      simp only [runBlks, Out.ok.injEq] at h
      subst h
      refine .quiet ?_ rfl rfl
      rintro pos p b ⟨j, pos', _, h1, h2, _⟩
      simp only [List.length_nil] at h2
      omega
    | cons => simp [runBlks] at h
  | fd :: fds, bs, gs, i, E, wc, w, r, hb, hf, hE, h => by
    simp only [genBlks] at hb
    obtain ⟨b, h1, hb⟩ := Out.bind_eq_ok.1 hb
    obtain ⟨bs', h2, hb⟩ := Out.bind_eq_ok.1 hb
    simp only [Out.pure_eq, Out.ok.injEq] at hb
    subst hb
    cases gs with
    | nil => simp [runBlks] at h
    | cons g gs =>
      simp only [runBlks] at h
      obtain ⟨⟨e, wc1, w1⟩, h3, h⟩ := Out.bind_eq_ok.1 h
      obtain ⟨hg, hemb⟩ := hf 0 fd rfl
      obtain ⟨kd, hp⟩ := blk_plan hP.toTypeSet hg h1
      have ht := blk_tell hP hL hp hg hemb h3
      rw [← hE 0 fd g rfl rfl] at ht
      refine Tells.cons ht ?_ ?_
      · rintro x rfl
        simp only [Out.pure_eq, Out.ok.injEq] at h
        subst h
        exact ⟨rfl, rfl⟩
      · intro he
        simp only at he
        subst he
        exact blks_tell hP hL fds bs' gs (i + 1) E wc1 w1 r h2 (fun j fd' hj => hf (j + 1) fd' (by simpa using hj))
          (fun j fd' g' hj hgj => by
            have := hE (j + 1) fd' g' (by simpa using hj) (by simpa using hgj)
            rw [show i + (j + 1) = i + 1 + j by omega] at this
            exact this) h

/-! ### declared types -/

theorem level (hP : QuietPackage Γ S) : ∀ k, Level Γ S k
  | 0 => ⟨fun n v w r _ (h : Out.loop = _) => (by cases h), fun n w r _ (h : Out.loop = _) => (by cases h)⟩
  | k + 1 => by
    have hL := level hP k
    constructor
    · intro n v w r hn h
      cases hd : Γ.decl n with
      | none =>
        rw [methods_none hd] at h
        obtain ⟨e, w1⟩ := r
        have no : ∀ pos p b, ¬ Unwritable Γ (.decl n) v pos p b := by
          intro pos p b hU
          cases hU with
          | time hd' | struct hd' | namedList hd' | namedMap hd' | namedName hd' => rw [hd] at hd'; cases hd'
        refine ⟨fun hw => ?_, fun hw => .inl ⟨no, ?_⟩⟩
        · cases he : w.err with
          | none => exact absurd he hw
          | some x => simp [((hP.tame n (some v) hd).keeps w e w1 x h he)]
        · exact hP.quiet n (some v) w e w1 hd hw h
      | some d =>
        rw [methods_some hd] at h
        simp only [declMethods] at h
        obtain ⟨ir, hir, h⟩ := Out.bind_eq_ok.1 h
        have al : ∀ {u pos p b}, d = .alias u → Unwritable Γ (.decl n) v pos p b →
            (u = .time ∧ ∃ tm, v = .time tm ∧ Ext.timeText tm = none ∧ pos = [] ∧ p = [] ∧ b = false) ∨
            (∃ e es i pos' x q, e ≠ .prim .byte ∧ (u = .slice e ∨ ∃ len, u = .array len e) ∧ Listing v es ∧ pos = i :: pos' ∧ es[i]? = some x ∧
              p = atItem [] i :: q ∧ Unwritable Γ (.elem true e) x pos' q b) ∨
            (∃ e kvs i pos' key x q, u = .map e ∧ v = .map kvs ∧ pos = i :: pos' ∧ kvs[i]? = some (key, x) ∧ p = atMember [] key :: q ∧
              Unwritable Γ (.elem true e) x pos' q b) ∨
            (∃ m, NameOf u m ∧ Unwritable Γ (.decl m) v pos p b) := by
          intro u pos p b hdu hU
          subst hdu
          cases hU with
          | time hd' ht => rw [hd] at hd'; cases hd'; exact .inl ⟨rfl, _, rfl, ht, rfl, rfl, rfl⟩
          | struct hd' => rw [hd] at hd'; cases hd'
          | namedList hd' hb hu hv hx hU => rw [hd] at hd'; cases hd'; exact .inr (.inl ⟨_, _, _, _, _, _, hb, hu, hv, rfl, hx, rfl, hU⟩)
          | namedMap hd' hx hU => rw [hd] at hd'; cases hd'; exact .inr (.inr (.inl ⟨_, _, _, _, _, _, _, rfl, rfl, rfl, hx, rfl, hU⟩))
          | namedName hd' hu hU => rw [hd] at hd'; cases hd'; exact .inr (.inr (.inr ⟨_, hu, hU⟩))
        have listCase : ∀ {e x es} {len : Nat}, e ≠ .prim .byte → (d = .alias (.slice e) ∨ d = .alias (.array len e)) → ElemPlan Γ e x → EGood Γ S e →
            Listing v es → (do
              let (e, w) ← writeList (Γ.methods k) [] x es w
              match e with
              | some e => return (some e, w)
              | none => return (w.err, w) : Out (Option EErr × W)) = .ok r → Tells (Unwritable Γ (.decl n) v) w r := by
          intro e x es len hb hdu hx hge hv h
          obtain ⟨⟨er, w1⟩, h1, h⟩ := Out.bind_eq_ok.1 h
          refine ((list_tell hP.toTypeSet hL hx hge h1).close (r := r) ?_ ?_).congr fun pos p b => ?_
          · rintro x rfl; cases h; exact ⟨rfl, rfl⟩
          · rintro rfl; cases h; exact ⟨rfl, .inr rfl⟩
          · constructor
            · intro hU
              have hinv : ∃ u, d = .alias u ∧ (u = .slice e ∨ u = .array len e) := by
                rcases hdu with h | h
                · exact ⟨_, h, .inl rfl⟩
                · exact ⟨_, h, .inr rfl⟩
              obtain ⟨u, hdu', hu⟩ := hinv
              rcases al hdu' hU with ⟨rfl, _⟩ | ⟨e', es', i, pos', x, q, _, hu', hv', g1, g2, g3, g4⟩ | ⟨_, _, _, _, _, _, _, rfl, _⟩ | ⟨m, hm, _⟩
              · rcases hu with h | h <;> cases h
              · have : e' = e := by
                  rcases hu with rfl | rfl <;> rcases hu' with h | ⟨_, h⟩ <;> cases h <;> rfl
                subst this
                have : es' = es := by cases hv <;> cases hv' <;> rfl
                subst this
                exact ⟨i, pos', x, q, g1, g2, g3, g4⟩
              · rcases hu with h | h <;> cases h
              · rcases hu with rfl | rfl <;> cases hm
            · rintro ⟨i, pos', x, q, rfl, hx, rfl, hU⟩
              rcases hdu with rfl | rfl
              · exact .namedList hd hb (.inl rfl) hv hx hU
              · exact .namedList hd hb (.inr ⟨_, rfl⟩) hv hx hU
        cases decl_plan hP.toTypeSet hn hd hir with
        | @struct strict fields bs hbs =>
          cases bs with
          | nil =>
            simp only [runMarshal, Out.ok.injEq] at h
            subst h
            refine .quiet ?_ rfl rfl
            intro pos p b hU
            cases hU with
            | time hd' | namedList hd' | namedMap hd' | namedName hd' => rw [hd] at hd'; cases hd'
            | struct hd' hf =>
              rw [hd] at hd'; cases hd'
              cases fields with
              | nil => simp at hf
              | cons fd fds =>
                simp only [genBlks] at hbs
                obtain ⟨b, h1, hb⟩ := Out.bind_eq_ok.1 hbs
                obtain ⟨bs', h2, hb⟩ := Out.bind_eq_ok.1 hb
                cases hb
          | cons b0 bs =>
            cases v with
            | struct gs =>
              simp only [runMarshal] at h
              obtain ⟨⟨er, w1⟩, h1, h⟩ := Out.bind_eq_ok.1 h
              have hE := blks_tell hP hL fields (b0 :: bs) gs 0
                (fun i pos p b => ∃ fd g, fields[i]? = some fd ∧ gs[i]? = some g ∧ fieldPlaces Γ fd g pos p b) false _ _ hbs
                (fun j fd hj => ⟨hP.field hn hd (List.mem_of_getElem? hj), fun m hjn hm => hP.embeds n strict fields fd m hn hd (List.mem_of_getElem? hj) hjn hm⟩)
                (fun j fd g hj hgj => by
                  funext pos p b
                  rw [Nat.zero_add]
                  apply propext
                  constructor
                  · rintro ⟨fd', g', h1, h2, h3⟩; rw [hj] at h1; rw [hgj] at h2; cases h1; cases h2; exact h3
                  · intro h3; exact ⟨fd, g, hj, hgj, h3⟩) h1
              refine ((hE.raw (w := w) rfl).close (r := r) ?_ ?_).congr fun pos p b => ?_
              · rintro x rfl; cases h; exact ⟨rfl, rfl⟩
              · rintro rfl; cases h; exact ⟨rfl, .inr rfl⟩
              · constructor
                · intro hU
                  cases hU with
                  | namedList hd' | namedName hd' => rw [hd] at hd'; cases hd'
                  | struct hd' hf hgi ho hU =>
                    rw [hd] at hd'; cases hd'
                    exact ⟨_, _, rfl, Nat.zero_le _, by rw [Nat.zero_add]; exact getElem?_len hf, _, _, hf, hgi, ho, hU⟩
                · rintro ⟨i, pos', rfl, _, _, fd, g, hf, hgi, ho, hU⟩
                  exact .struct hd hf hgi ho hU
            | _ => simp [runMarshal] at h
        | @map e x hx =>
          cases v with
          | map kvs =>
            simp only [runMarshal] at h
            obtain ⟨⟨er, w1⟩, h1, h⟩ := Out.bind_eq_ok.1 h
            refine ((map_tell hP.toTypeSet hL hx (hP.alias hn hd).map h1).close (r := r) ?_ ?_).congr fun pos p b => ?_
            · rintro x rfl; cases h; exact ⟨rfl, rfl⟩
            · rintro rfl; cases h; exact ⟨rfl, .inr rfl⟩
            · constructor
              · intro hU
                rcases al rfl hU with ⟨h, _⟩ | ⟨_, _, _, _, _, _, _, hu', _⟩ | ⟨_, _, i, pos', key, x, q, h, hv, h1, h2, h3, h4⟩ | ⟨m, hm, _⟩
                · cases h
                · rcases hu' with h | ⟨_, h⟩ <;> cases h
                · cases h; cases hv; exact ⟨i, pos', key, x, q, h1, h2, h3, h4⟩
                · cases hm
              · rintro ⟨i, pos', key, x, q, rfl, hx, rfl, hU⟩
                exact .namedMap hd hx hU
          | nil =>
            simp only [runMarshal, Out.ok.injEq] at h
            subst h
            refine .quiet ?_ rfl rfl
            intro pos p b hU
            rcases al rfl hU with ⟨h, _⟩ | ⟨_, _, _, _, _, _, _, hu', _⟩ | ⟨_, _, i, pos', key, x, q, h, hv, _⟩ | ⟨m, hm, _⟩
            · cases h
            · rcases hu' with h | ⟨_, h⟩ <;> cases h
            · cases hv
            · cases hm
          | _ => simp [runMarshal] at h
        | @slice e x hb hx =>
          cases v with
          | slice es sp => exact listCase (len := 0) hb (.inl rfl) hx (hP.alias hn hd).slice (.slice es sp) h
          | arr es => exact listCase (len := 0) hb (.inl rfl) hx (hP.alias hn hd).slice (.arr es) h
          | nil =>
            simp only [runMarshal, Bool.false_eq_true, if_false, Out.ok.injEq] at h
            subst h
            refine .quiet ?_ rfl rfl
            intro pos p b hU
            rcases al rfl hU with ⟨h, _⟩ | ⟨_, _, _, _, _, _, _, _, hv, _⟩ | ⟨_, _, _, _, _, _, _, h, _⟩ | ⟨m, hm, _⟩
            · cases h
            · cases hv
            · cases h
            · cases hm
          | _ => simp [runMarshal] at h
        | @array len e x hb hx =>
          cases v with
          | slice es sp => exact listCase (len := len) hb (.inr rfl) hx (hP.alias hn hd).array (.slice es sp) h
          | arr es => exact listCase (len := len) hb (.inr rfl) hx (hP.alias hn hd).array (.arr es) h
          | nil => simp [runMarshal] at h
          | _ => simp [runMarshal] at h
        | bytes =>
          have hs : Silent w r := by
            cases v <;> simp only [runMarshal, Bool.false_eq_true, if_false] at h <;> cases h <;> exact ⟨rfl, rfl⟩
          refine .quiet ?_ hs.1 hs.2
          intro pos p b hU
          rcases al rfl hU with ⟨h, _⟩ | ⟨_, _, _, _, _, _, hb, hu', _⟩ | ⟨_, _, _, _, _, _, _, h, _⟩ | ⟨m, hm, _⟩
          · cases h
          · rcases hu' with h | ⟨_, h⟩
            · cases h; exact hb rfl
            · cases h
          · cases h
          · cases hm
        | fixedBytes =>
          have hs : Silent w r := by
            cases v <;> simp only [runMarshal, if_true] at h <;> cases h <;> exact ⟨rfl, rfl⟩
          refine .quiet ?_ hs.1 hs.2
          intro pos p b hU
          rcases al rfl hU with ⟨h, _⟩ | ⟨_, _, _, _, _, _, hb, hu', _⟩ | ⟨_, _, _, _, _, _, _, h, _⟩ | ⟨m, hm, _⟩
          · cases h
          · rcases hu' with h | ⟨_, h⟩
            · cases h
            · cases h; exact hb rfl
          · cases h
          · cases hm
        | time =>
          have only : ∀ {pos p b}, Unwritable Γ (.decl n) v pos p b → ∃ tm, v = .time tm ∧ Ext.timeText tm = none ∧ pos = [] ∧ p = [] ∧ b = false := by
            intro pos p b hU
            rcases al rfl hU with ⟨_, h⟩ | ⟨_, _, _, _, _, _, hb, hu', _⟩ | ⟨_, _, _, _, _, _, _, h, _⟩ | ⟨m, hm, _⟩
            · exact h
            · rcases hu' with h | ⟨_, h⟩ <;> cases h
            · cases h
            · cases hm
          cases v with
          | time tm =>
            simp only [runMarshal] at h
            cases ht : Ext.timeText tm with
            | some s =>
              rw [ht] at h; cases h
              refine .quiet ?_ rfl rfl
              intro pos p b hU
              obtain ⟨tm', hv, h, _⟩ := only hU
              cases hv; rw [ht] at h; cases h
            | none =>
              rw [ht] at h; cases h
              refine ⟨fun hw => hw, fun hw => .inr ⟨[], [], false, .time hd ht, fun pos' p' b' hU hlt => ?_, .inl (by simp), fun _ => rfl⟩⟩
              obtain ⟨_, _, _, rfl, _⟩ := only hU
              exact absurd hlt (List.lt_irrefl _)
          | _ => simp [runMarshal] at h
        | uuid =>
          have hs : Silent w r := by
            cases v <;> simp only [runMarshal] at h <;> cases h <;> exact ⟨rfl, rfl⟩
          refine .quiet ?_ hs.1 hs.2
          intro pos p b hU
          rcases al rfl hU with ⟨h, _⟩ | ⟨_, _, _, _, _, _, hb, hu', _⟩ | ⟨_, _, _, _, _, _, _, h, _⟩ | ⟨m, hm, _⟩
          · cases h
          · rcases hu' with h | ⟨_, h⟩ <;> cases h
          · cases h
          · cases hm
        | prim p =>
          have hs : Silent w r := by
            simp only [runMarshal] at h
            split at h <;> cases h <;> exact ⟨rfl, rfl⟩
          exact .quiet (fun _ _ _ => not_unwritable_prim hd (.self p)) hs.1 hs.2
        | @name t m hm =>
          have h : (Γ.methods k m).marshalTo (some v) w = .ok r := h
          refine (hL.val _ _ _ _ ((hP.alias hn hd).name hm) h).congr fun pos p b => ?_
          constructor
          · intro hU
            rcases al rfl hU with ⟨h, _⟩ | ⟨_, _, _, _, _, _, hb, hu', _⟩ | ⟨_, _, _, _, _, _, _, h, _⟩ | ⟨m', hm', hU⟩
            · subst h; cases hm
            · rcases hu' with rfl | ⟨_, rfl⟩ <;> cases hm
            · subst h; cases hm
            · cases hm.inj hm'; exact hU
          · intro hU; exact .namedName hd hm hU
    · intro n w r hn h
      cases hd : Γ.decl n with
      | none =>
        rw [methods_none hd] at h
        obtain ⟨e, w1⟩ := r
        refine ⟨fun hw => ?_, fun hw => .inl ⟨fun _ _ _ h => h, hP.quiet n none w e w1 hd hw h⟩⟩
        cases he : w.err with
        | none => exact absurd he hw
        | some x => simp [((hP.tame n none hd).keeps w e w1 x h he)]
      | some d =>
        rw [methods_some hd] at h
        simp only [declMethods] at h
        obtain ⟨ir, hir, h⟩ := Out.bind_eq_ok.1 h
        cases ir with
        | struct bs => cases bs <;> cases h <;> exact .quiet (fun _ _ _ h => h) rfl rfl
        | _ => cases h; exact .quiet (fun _ _ _ h => h) rfl rfl

/-! ### a place has one name -/

theorem unwritable_unique {pl : Place} {v : GoVal} {pos : List Nat} {p : List ECtx} {b : Bool} (h : Unwritable Γ pl v pos p b) :
    ∀ {p' b'}, Unwritable Γ pl v pos p' b' → p = p' ∧ b = b' := by
  induction h with
  | time hd ht =>
    intro p' b' h
    cases h with
    | time => exact ⟨rfl, rfl⟩
    | namedName hd' hu => rw [hd] at hd'; cases hd'; cases hu
  | struct hd hf hg ho h ih =>
    intro p' b' h'
    cases h' with
    | struct hd' hf' hg' ho' h' =>
      rw [hd] at hd'; cases hd'; rw [hf] at hf'; cases hf'; rw [hg] at hg'; cases hg'
      exact ih h'
    | namedList hd' => rw [hd] at hd'; cases hd'
    | namedName hd' hu => rw [hd] at hd'; cases hd'
  | namedList hd hb hu hv hx h ih =>
    intro p' b' h'
    cases h' with
    | struct hd' => rw [hd] at hd'; cases hd'
    | namedList hd' hb' hu' hv' hx' h' =>
      rw [hd] at hd'; cases hd'
      cases listing_unique hv hv'
      rw [hx] at hx'; cases hx'
      rcases hu with rfl | ⟨_, rfl⟩ <;> rcases hu' with hu' | ⟨_, hu'⟩ <;> cases hu' <;> obtain ⟨rfl, rfl⟩ := ih h' <;> exact ⟨rfl, rfl⟩
    | namedMap => cases hv
    | namedName hd' hu' => rw [hd] at hd'; cases hd'; rcases hu with rfl | ⟨_, rfl⟩ <;> cases hu'
  | namedMap hd hx h ih =>
    intro p' b' h'
    cases h' with
    | namedList hd' hb' hu' => rw [hd] at hd'; cases hd'; rcases hu' with h | ⟨_, h⟩ <;> cases h
    | namedMap hd' hx' h' =>
      rw [hd] at hd'; cases hd'; rw [hx] at hx'; cases hx'
      obtain ⟨rfl, rfl⟩ := ih h'
      exact ⟨rfl, rfl⟩
    | namedName hd' hu' => rw [hd] at hd'; cases hd'; cases hu'
  | namedName hd hu h ih =>
    intro p' b' h'
    cases h' with
    | time hd' => rw [hd] at hd'; cases hd'; cases hu
    | struct hd' => rw [hd] at hd'; cases hd'
    | namedList hd' hb' hu' => rw [hd] at hd'; cases hd'; rcases hu' with rfl | ⟨_, rfl⟩ <;> cases hu
    | namedMap hd' => rw [hd] at hd'; cases hd'; cases hu
    | namedName hd' hu' h' => rw [hd] at hd'; cases hd'; cases hu.inj hu'; exact ih h'
  | ptr hy hp h ih =>
    intro p' b' h'
    cases h' with
    | ptr hy' _ h' => cases hy.inj hy'; exact ih h'
    | name ht' => cases ht'
    | list ht' => exact (not_star_list ht').elim
  | name ht hp hl h ih =>
    intro p' b' h'
    cases h' with
    | ptr => cases ht
    | name ht' _ _ h' => cases ht.inj ht'; exact ih h'
    | list ht' => exact absurd ht' (hl rfl _)
  | list ht hv hx h ih =>
    intro p' b' h'
    cases h' with
    | ptr => exact (not_star_list ht).elim
    | name _ _ hl => exact absurd ht (hl rfl _)
    | list ht' hv' hx' h' =>
      cases list_unique ht ht'; cases listing_unique hv hv'; rw [hx] at hx'; cases hx'
      exact ih h'
  | field hk hn h ih =>
    intro p' b' h'
    cases h' with
    | field hk' _ h' => cases fieldKind_unique hk hk'; obtain ⟨rfl, rfl⟩ := ih h'; exact ⟨rfl, rfl⟩
    | ptrField hk' => cases fieldKind_unique hk hk'
    | embedded hk' hn' => exact absurd hn' hn
    | mapField hk' => cases fieldKind_unique hk hk'
    | listField hk' => cases fieldKind_unique hk hk'
  | ptrField hk h ih =>
    intro p' b' h'
    cases h' with
    | field hk' => cases fieldKind_unique hk hk'
    | ptrField hk' h' => cases fieldKind_unique hk hk'; obtain ⟨rfl, rfl⟩ := ih h'; exact ⟨rfl, rfl⟩
    | embedded hk' hn' => cases fieldKind_unique hk hk'
    | listField hk' => cases fieldKind_unique hk hk'
  | embedded hk hn h ih =>
    intro p' b' h'
    cases h' with
    | field hk' hn' => exact absurd hn hn'
    | ptrField hk' => cases fieldKind_unique hk hk'
    | embedded hk' _ h' => cases fieldKind_unique hk hk'; exact ⟨(ih h').1, rfl⟩
    | mapField hk' => cases fieldKind_unique hk hk'
    | listField hk' => cases fieldKind_unique hk hk'
  | mapField hk hx h ih =>
    intro p' b' h'
    cases h' with
    | field hk' => cases fieldKind_unique hk hk'
    | embedded hk' hn' => cases fieldKind_unique hk hk'
    | mapField hk' hx' h' =>
      cases fieldKind_unique hk hk'; rw [hx] at hx'; cases hx'; obtain ⟨rfl, rfl⟩ := ih h'; exact ⟨rfl, rfl⟩
    | listField hk' => cases fieldKind_unique hk hk'
  | listField hk hv hx h ih =>
    intro p' b' h'
    cases h' with
    | field hk' => cases fieldKind_unique hk hk'
    | ptrField hk' => cases fieldKind_unique hk hk'
    | embedded hk' hn' => cases fieldKind_unique hk hk'
    | mapField hk' => cases fieldKind_unique hk hk'
    | listField hk' hv' hx' h' =>
      cases fieldKind_unique hk hk'; cases listing_unique hv hv'; rw [hx] at hx'; cases hx'; obtain ⟨rfl, rfl⟩ := ih h'; exact ⟨rfl, rfl⟩

end VJ
