import Verif.Proof.Mono
import Verif.Spec.Api
import Verif.Spec.Struct

/-!
# Struct decoding: lemmas
-/

set_option linter.unusedSectionVars false

namespace VJ

variable [Ext]

theorem methods_struct {Γ : Env} {n : Nat} {strict : Bool} {fields : List FieldDecl}
    (hd : Γ.decl n = some (.struct strict fields)) (k : Nat) (v : JV) (s : GoVal) :
    (Γ.methods (k + 1) n).fill v s
      = (genFields Γ k fields >>= fun fs => runFill (Γ.methods k) (.struct (jsonNames fields) strict fs) v s) := by
  simp only [Env.methods, hd, declMethods, genFill, Out.bind_assoc, Out.ok_bind, Out.pure_eq, jsonNames]

/-! ### validate -/

/-- counter of the first field with this name -/
def ctr (key : Str) : List Str → List Nat → Nat
  | n :: ns, c :: cs => if n = key then c else ctr key ns cs
  | _, _ => 0

theorem bump_none {key : Str} : ∀ {names : List Str} {cs : List Nat}, cs.length = names.length →
    (bump key names cs = none ↔ key ∉ names)
  | [], [], _ => by simp [bump]
  | n :: ns, c :: cs, h => by
    have ih := bump_none (key := key) (names := ns) (cs := cs) (by simpa using h)
    simp only [bump]
    split
    · rename_i hn; simp [hn]
    · rename_i hn
      simp [ih, Ne.symm hn]

theorem bump_some {key : Str} : ∀ {names : List Str} {cs : List Nat} {c : Nat} {cs' : List Nat},
    cs.length = names.length → bump key names cs = some (c, cs') →
    key ∈ names ∧ c = ctr key names cs + 1 ∧ cs'.length = names.length ∧
      ∀ x, ctr x names cs' = if x = key then ctr x names cs + 1 else ctr x names cs
  | [], [], _, _, _, h => by simp [bump] at h
  | n :: ns, c0 :: cs, c, cs', hl, h => by
    simp only [bump] at h
    split at h
    · rename_i hn
      subst hn
      simp only [Option.some.injEq, Prod.mk.injEq] at h
      obtain ⟨rfl, rfl⟩ := h
      refine ⟨by simp, by simp [ctr], by simpa using hl, ?_⟩
      intro x
      simp only [ctr]
      by_cases hx : n = x
      · simp [hx]
      · have : ¬ x = n := fun h => hx h.symm
        simp [hx, this]
    · rename_i hn
      rw [Option.map_eq_some_iff] at h
      obtain ⟨⟨c1, cs1⟩, h1, h2⟩ := h
      simp only [Prod.mk.injEq] at h2
      obtain ⟨rfl, rfl⟩ := h2
      have ih := bump_some (key := key) (names := ns) (cs := cs) (by simpa using hl) h1
      refine ⟨by simp [ih.1], ?_, ?_, ?_⟩
      · simp [ctr, hn, ih.2.1]
      · simp [ih.2.2.1]
      · intro x
        simp only [ctr]
        by_cases hx : n = x
        · subst hx; simp [hn]
        · simp [hx, ih.2.2.2 x]

theorem occurrences_cons (key : Str) (kv : Str × JV) (kvs : List (Str × JV)) :
    occurrences key (kv :: kvs) = (if kv.1 = key then 1 else 0) + occurrences key kvs := by
  unfold occurrences
  by_cases h : kv.1 = key
  · simp [h]; omega
  · simp [h]

theorem validateLoop_iff {names : List Str} {strict : Bool} : ∀ {kvs : List (Str × JV)} {cs : List Nat},
    cs.length = names.length →
    (validateLoop names strict kvs cs = none ↔
      (∀ key ∈ names, occurrences key kvs = 0 ∨ occurrences key kvs + ctr key names cs ≤ 1)
        ∧ (strict = true → ∀ kv ∈ kvs, kv.1 ∈ names))
  | [], cs, _ => by simp [validateLoop, occurrences]
  | (key, v) :: rest, cs, hl => by
    simp only [validateLoop]
    cases hb : bump key names cs with
    | none =>
      have hk : key ∉ names := (bump_none hl).1 hb
      simp only
      cases strict with
      | true => simp [hk]
      | false =>
        have ih := validateLoop_iff (names := names) (strict := false) (kvs := rest) hl
        simp only [Bool.false_eq_true, if_false, ih, occurrences_cons, false_implies, and_true]
        constructor
        · intro h x hx
          have hne : ¬ key = x := fun h' => hk (h' ▸ hx)
          have := h x hx
          simp [hne]; omega
        · intro h x hx
          have hne : ¬ key = x := fun h' => hk (h' ▸ hx)
          have := h x hx
          simp [hne] at this; omega
    | some r =>
      obtain ⟨c, cs'⟩ := r
      obtain ⟨hmem, hc, hl', hctr⟩ := bump_some hl hb
      simp only
      by_cases hc1 : c > 1
      · simp only [hc1, if_true]
        constructor
        · intro h; cases h
        · intro h
          have := h.1 key hmem
          simp [occurrences_cons] at this
          omega
      · simp only [hc1, if_false]
        have ih := validateLoop_iff (names := names) (strict := strict) (kvs := rest) hl'
        rw [ih]
        refine and_congr ?_ ?_
        · constructor
          · intro h x hx
            have h1 := h x hx
            rw [hctr] at h1
            rw [occurrences_cons]
            by_cases hxk : x = key
            · subst hxk; simp at h1 ⊢; omega
            · have : ¬ key = x := fun h => hxk h.symm
              simp [hxk] at h1; simp [this]; omega
          · intro h x hx
            have h1 := h x hx
            rw [occurrences_cons] at h1
            rw [hctr]
            by_cases hxk : x = key
            · subst hxk; simp at h1 ⊢; omega
            · have : ¬ key = x := fun h => hxk h.symm
              simp [this] at h1; simp [hxk]; omega
        · simp [hmem]

theorem ctr_zero (key : Str) : ∀ names : List Str, ctr key names (names.map fun _ => 0) = 0
  | [] => rfl
  | n :: ns => by simp [ctr, ctr_zero key ns]

/-- `validate` decides `Acceptable`. -/
theorem validate_iff (names : List Str) (strict : Bool) (v : JV) :
    validate names strict v = none ↔ Acceptable names strict v := by
  unfold validate Acceptable
  cases v with
  | obj kvs =>
    simp only [JV.getObj]
    rw [validateLoop_iff (by simp)]
    simp only [ctr_zero, JV.obj.injEq]
    constructor
    · intro h
      refine ⟨kvs, rfl, fun key hk => ?_, h.2⟩
      have := h.1 key hk
      omega
    · rintro ⟨kvs', rfl, h1, h2⟩
      exact ⟨fun key hk => by have := h1 key hk; omega, h2⟩
  | _ => simp [JV.getObj]

/-- what `validate` complains about -/
theorem validateLoop_error {names : List Str} {strict : Bool} {e : Err} : ∀ {kvs : List (Str × JV)} {cs : List Nat},
    cs.length = names.length → validateLoop names strict kvs cs = some e →
      (∃ key ∈ names, occurrences key kvs ≥ 1 ∧ occurrences key kvs + ctr key names cs ≥ 2
        ∧ e = ⟨some key, .twice key⟩)
      ∨ (strict = true ∧ ∃ kv ∈ kvs, kv.1 ∉ names ∧ e = ⟨none, .unexpected kv.1⟩)
  | [], cs, _, h => by simp [validateLoop] at h
  | (key, v) :: rest, cs, hl, h => by
    simp only [validateLoop] at h
    cases hb : bump key names cs with
    | none =>
      have hk : key ∉ names := (bump_none hl).1 hb
      rw [hb] at h
      simp only at h
      cases strict with
      | true =>
        simp only [if_true, Option.some.injEq] at h
        exact Or.inr ⟨rfl, (key, v), by simp, hk, h.symm⟩
      | false =>
        simp only [Bool.false_eq_true, if_false] at h
        rcases validateLoop_error hl h with ⟨x, hx, h1, h2, h3⟩ | ⟨h1, _⟩
        · refine Or.inl ⟨x, hx, ?_, ?_, h3⟩ <;> rw [occurrences_cons] <;> omega
        · cases h1
    | some r =>
      obtain ⟨c, cs'⟩ := r
      obtain ⟨hmem, hc, hl', hctr⟩ := bump_some hl hb
      rw [hb] at h
      simp only at h
      by_cases hc1 : c > 1
      · simp only [hc1, if_true, Option.some.injEq] at h
        refine Or.inl ⟨key, hmem, ?_, ?_, h.symm⟩ <;> rw [occurrences_cons] <;> simp <;> omega
      · simp only [hc1, if_false] at h
        rcases validateLoop_error hl' h with ⟨x, hx, h1, h2, h3⟩ | ⟨h1, kv, h2, h3⟩
        · refine Or.inl ⟨x, hx, ?_, ?_, h3⟩
          · rw [occurrences_cons]; omega
          · rw [occurrences_cons]
            rw [hctr] at h2
            by_cases hxk : x = key
            · subst hxk; simp at h2 ⊢; omega
            · simp [hxk] at h2; omega
        · exact Or.inr ⟨h1, kv, by simp [h2], h3⟩

theorem validate_error {names : List Str} {strict : Bool} {v : JV} {e : Err}
    (h : validate names strict v = some e) :
    ((∀ kvs, v ≠ .obj kvs) ∧ e = ⟨none, .wrongType .object v.type⟩) ∨
    (∃ kvs, v = .obj kvs ∧
      ((∃ key ∈ names, occurrences key kvs ≥ 2 ∧ e = ⟨some key, .twice key⟩)
      ∨ (strict = true ∧ ∃ kv ∈ kvs, kv.1 ∉ names ∧ e = ⟨none, .unexpected kv.1⟩))) := by
  unfold validate at h
  cases v with
  | obj kvs =>
    refine Or.inr ⟨kvs, rfl, ?_⟩
    simp only [JV.getObj] at h
    rcases validateLoop_error (by simp) h with ⟨x, hx, _, h2, h3⟩ | h
    · rw [ctr_zero] at h2; exact Or.inl ⟨x, hx, h2, h3⟩
    · exact Or.inr h
  | _ => simp [JV.getObj] at h; exact Or.inl ⟨by simp, h.symm⟩

/-! ### Acceptable and agreement -/

theorem AgreeOn.acceptable {K : Str → Prop} {v v' : JV} {names : List Str} {strict : Bool}
    (h : AgreeOn K v v') (hK : (∀ key, K key) ∨ (strict = false ∧ ∀ key ∈ names, K key)) :
    Acceptable names strict v ↔ Acceptable names strict v' := by
  obtain ⟨kvs, kvs', rfl, rfl, hag⟩ := h
  have mem_iff : ∀ (l : List (Str × JV)) (key : Str), (∃ kv ∈ l, kv.1 = key) ↔ occurrences key l ≠ 0 := by
    intro l key
    unfold occurrences
    rw [Ne, List.length_eq_zero_iff, List.filter_eq_nil_iff]
    simp only [decide_eq_true_eq]
    constructor
    · rintro ⟨kv, h1, h2⟩ h3; exact h3 kv h1 h2
    · intro h; exact Classical.byContradiction fun hc => h fun a ha hak => hc ⟨a, ha, hak⟩
  have key : ∀ (l l' : List (Str × JV)), (∀ key, K key → occurrences key l = occurrences key l') →
      Acceptable names strict (.obj l) → Acceptable names strict (.obj l') := by
    intro l l' hll ⟨kvs, h0, h1, h2⟩
    simp only [JV.obj.injEq] at h0
    subst h0
    refine ⟨l', rfl, ?_, ?_⟩
    · intro x hx
      have hKx : K x := by rcases hK with hK | hK; exact hK x; exact hK.2 x hx
      rw [← hll x hKx]; exact h1 x hx
    · intro hs kv hkv
      rcases hK with hK | hK
      · have : occurrences kv.1 l' ≠ 0 := (mem_iff l' kv.1).1 ⟨kv, hkv, rfl⟩
        rw [← hll _ (hK _)] at this
        obtain ⟨kv2, h3, h4⟩ := (mem_iff l kv.1).2 this
        rw [← h4]; exact h2 hs kv2 h3
      · rw [hK.1] at hs; cases hs
  exact ⟨key kvs kvs' fun x hx => (hag x hx).1, key kvs' kvs fun x hx => (hag x hx).1.symm⟩

theorem SameUpToError.refl (r : Out (Option Err × GoVal)) : SameUpToError r r := by
  cases r with
  | ok p => obtain ⟨e, s⟩ := p; exact ⟨rfl, Iff.rfl⟩
  | _ => rfl

/-- the same for the list of fields -/
def SameUpToErrorL : Out (Option Err × List GoVal) → Out (Option Err × List GoVal) → Prop
  | .ok (e, s), .ok (e', s') => s = s' ∧ (e = none ↔ e' = none)
  | r, r' => r = r'

theorem SameUpToErrorL.refl (r : Out (Option Err × List GoVal)) : SameUpToErrorL r r := by
  cases r with
  | ok p => obtain ⟨e, s⟩ := p; exact ⟨rfl, Iff.rfl⟩
  | _ => rfl

theorem runFields_same {M : Nat → Methods} {v v' : JV} :
    ∀ {fs : List (Option FieldFill)} {gs : List GoVal},
      (∀ f, some f ∈ fs → ∀ g, SameUpToError (runField M f v g) (runField M f v' g)) →
      SameUpToErrorL (runFields M v fs gs) (runFields M v' fs gs)
  | [], [], _ => SameUpToErrorL.refl _
  | [], _ :: _, _ => SameUpToErrorL.refl _
  | none :: _, [], _ => SameUpToErrorL.refl _
  | some _ :: _, [], _ => SameUpToErrorL.refl _
  | none :: fs, g :: gs, h => by
    have ih := runFields_same (fs := fs) (gs := gs) fun f hf => h f (by simp [hf])
    simp only [runFields]
    revert ih
    cases runFields M v fs gs <;> cases runFields M v' fs gs <;> simp [SameUpToErrorL]
  | some f :: fs, g :: gs, h => by
    have hf := h f (by simp) g
    have ih := runFields_same (fs := fs) (gs := gs) fun f hf => h f (by simp [hf])
    simp only [runFields]
    revert hf
    cases h1 : runField M f v g with
    | ok p =>
      cases h2 : runField M f v' g with
      | ok p' =>
        obtain ⟨e, g1⟩ := p
        obtain ⟨e', g1'⟩ := p'
        rintro ⟨rfl, he⟩
        cases e with
        | some e =>
          cases e' with
          | some e' => exact ⟨rfl, by simp⟩
          | none => exact absurd (he.2 rfl) (by simp)
        | none =>
          have := he.1 rfl
          subst this
          simp only [Out.ok_bind]
          revert ih
          cases runFields M v fs gs <;> cases runFields M v' fs gs <;> simp [SameUpToErrorL]
      | _ => simp [SameUpToError]
    | _ => cases h2 : runField M f v' g <;> simp [SameUpToError, SameUpToErrorL]

/-! ### the code emitted for a field -/

theorem genFields_mem {Γ : Env} {k : Nat} : ∀ {fds : List FieldDecl} {fs : List (Option FieldFill)},
    genFields Γ k fds = .ok fs → ∀ {f : Option FieldFill}, f ∈ fs →
      ∃ fd ∈ fds, genFieldFill Γ k fd = .ok f
  | [], fs, h, f, hf => by simp [genFields] at h; subst h; cases hf
  | fd :: fds, fs, h, f, hf => by
    simp only [genFields] at h
    obtain ⟨f0, h0, h1⟩ := Out.bind_eq_ok.1 h
    obtain ⟨fs0, h2, h3⟩ := Out.bind_eq_ok.1 h1
    simp only [Out.pure_eq, Out.ok.injEq] at h3
    subst h3
    rcases List.mem_cons.1 hf with rfl | hf
    · exact ⟨fd, by simp, h0⟩
    · obtain ⟨fd', hm, hg⟩ := genFields_mem h2 hf
      exact ⟨fd', by simp [hm], hg⟩

theorem genFields_length {Γ : Env} {k : Nat} : ∀ {fds : List FieldDecl} {fs : List (Option FieldFill)},
    genFields Γ k fds = .ok fs → fs.length = fds.length
  | [], fs, h => by simp [genFields] at h; subst h; rfl
  | fd :: fds, fs, h => by
    simp only [genFields] at h
    obtain ⟨f0, h0, h1⟩ := Out.bind_eq_ok.1 h
    obtain ⟨fs0, h2, h3⟩ := Out.bind_eq_ok.1 h1
    simp only [Out.pure_eq, Out.ok.injEq] at h3
    subst h3
    simp [genFields_length h2]

theorem genFields_get {Γ : Env} {k : Nat} : ∀ {fds : List FieldDecl} {fs : List (Option FieldFill)},
    genFields Γ k fds = .ok fs → ∀ {i : Nat} {fd : FieldDecl}, fds[i]? = some fd →
      ∃ f, fs[i]? = some f ∧ genFieldFill Γ k fd = .ok f
  | [], fs, h, i, fd, hf => by simp at hf
  | fd :: fds, fs, h, i, fd', hf => by
    simp only [genFields] at h
    obtain ⟨f0, h0, h1⟩ := Out.bind_eq_ok.1 h
    obtain ⟨fs0, h2, h3⟩ := Out.bind_eq_ok.1 h1
    simp only [Out.pure_eq, Out.ok.injEq] at h3
    subst h3
    cases i with
    | zero => simp at hf; subst hf; exact ⟨f0, by simp, h0⟩
    | succ i =>
      simp at hf
      obtain ⟨f, h4, h5⟩ := genFields_get h2 hf
      exact ⟨f, by simpa using h4, h5⟩

/-- fields of `FieldFill` that come straight from the declaration -/
theorem genFieldFill_some {Γ : Env} {k : Nat} {fd : FieldDecl} {f : FieldFill}
    (h : genFieldFill Γ k fd = .ok (some f)) :
    f.json = fd.tags.jsonName ∧ fd.tags.jsonName ≠ str "-" ∧
    ∃ r, typedValue Γ k (Fld.prepare Γ true fd.typ fd.tags false false) (.const fd.tags.jsonName) = .ok r
      ∧ f.x = r.x ∧ storeOf (Fld.prepare Γ true fd.typ fd.tags false false) r = .ok f.store
      ∧ ifDefault (Fld.prepare Γ true fd.typ fd.tags false false) r.isStarType = .ok f.dflt
      ∧ f.nullable = (Fld.prepare Γ true fd.typ fd.tags false false).isNullable
      ∧ f.check = !((Fld.prepare Γ true fd.typ fd.tags false false).refx == .prim .string)
      ∧ f.max = (if (Fld.prepare Γ true fd.typ fd.tags false false).refx == .prim .string then none
          else maxByType (Fld.prepare Γ true fd.typ fd.tags false false).refx) := by
  unfold genFieldFill at h
  split at h
  · simp at h
  · rename_i hne
    obtain ⟨r, h1, h⟩ := Out.bind_eq_ok.1 h
    obtain ⟨st, h2, h⟩ := Out.bind_eq_ok.1 h
    obtain ⟨d, h3, h⟩ := Out.bind_eq_ok.1 h
    simp only [Out.pure_eq, Out.ok.injEq, Option.some.injEq] at h
    subst h
    exact ⟨rfl, hne, r, h1, rfl, h2, h3, rfl, rfl, rfl⟩

theorem genFieldFill_none {Γ : Env} {k : Nat} {fd : FieldDecl}
    (h : genFieldFill Γ k fd = .ok none) : fd.tags.jsonName = str "-" := by
  unfold genFieldFill at h
  split at h
  · assumption
  · obtain ⟨r, h1, h⟩ := Out.bind_eq_ok.1 h
    obtain ⟨st, h2, h⟩ := Out.bind_eq_ok.1 h
    obtain ⟨d, h3, h⟩ := Out.bind_eq_ok.1 h
    simp at h

/-- an embedded struct is filled in place from the parent's own object -/
theorem genFieldFill_embedded {Γ : Env} {k : Nat} {fd : FieldDecl} {f : FieldFill} {m : Nat}
    {st : Bool} {fs : List FieldDecl} (hd : Γ.decl m = some (.struct st fs)) (ht : fd.typ = .named m)
    (h : genFieldFill Γ k fd = .ok (some f)) :
    f.x = .nestedInPlace (.named m) ∧ f.store = .filled ∧ f.nullable = false ∧ f.check = true
      ∧ f.max = none := by
  obtain ⟨_, _, r, h1, hx, hs, _, hn, hc, hmx⟩ := genFieldFill_some h
  have hp : Fld.prepare Γ true fd.typ fd.tags false false
      = ⟨true, .named m, .structT, fd.tags, false, false, false⟩ := by
    simp [Fld.prepare, ht, Env.denoted, Env.denotedIdent, hd, Decl.spec, TExpr.isOrdinal]
  rw [hp] at h1 hs hn hc hmx
  cases k with
  | zero => simp [typedValue] at h1
  | succ k =>
    simp [typedValue, Env.denoted, TExpr.isOrdinal, nestedExtraction] at h1
    subst h1
    simp [storeOf] at hs
    refine ⟨hx, hs.symm, hn, ?_, ?_⟩
    · rw [hc]; rfl
    · rw [hmx]; rfl

theorem runField_congr {M : Nat → Methods} {f : FieldFill} {v v' : JV} {g : GoVal} (hj : f.json ≠ [])
    (h : v.get f.json = v'.get f.json) : runField M f v g = runField M f v' g := by
  unfold runField
  simp [hj, h]

/-- Documents that agree on the keys a type looks at decode alike. -/
theorem fill_agree {Γ : Env} {S : Nat → Prop} {K : Str → Prop} (hS : ClosedUnderEmbedding Γ S)
    (hK : ∀ n, S n → ∀ strict fields, Γ.decl n = some (.struct strict fields) →
      (∀ key, K key) ∨ (strict = false ∧ ∀ key ∈ jsonNames fields, K key))
    {v v' : JV} (hv : AgreeOn K v v') :
    ∀ (k n : Nat) (s : GoVal), S n → SameUpToError ((Γ.methods k n).fill v s) ((Γ.methods k n).fill v' s) := by
  intro k
  induction k with
  | zero => intro n s _; rfl
  | succ k ih =>
    intro n s hn
    obtain ⟨strict, fields, hd, hemb⟩ := hS n hn
    rw [methods_struct hd, methods_struct hd]
    cases hg : genFields Γ k fields with
    | ok fs =>
      simp only [Out.ok_bind]
      cases s with
      | struct gs =>
        simp only [runFill]
        have hacc := hv.acceptable (names := jsonNames fields) (strict := strict) (hK n hn strict fields hd)
        rw [← validate_iff, ← validate_iff] at hacc
        cases h1 : validate (jsonNames fields) strict v with
        | some e =>
          cases h2 : validate (jsonNames fields) strict v' with
          | some e' => exact ⟨rfl, by simp⟩
          | none => rw [h1, h2] at hacc; simp at hacc
        | none =>
          rw [h1] at hacc
          rw [hacc.1 rfl]
          have hsame : SameUpToErrorL (runFields (Γ.methods k) v fs gs) (runFields (Γ.methods k) v' fs gs) := by
            apply runFields_same
            intro f hf g
            obtain ⟨fd, hfd, hgen⟩ := genFields_mem hg hf
            have hj := (genFieldFill_some hgen).1
            by_cases hne : fd.tags.jsonName = []
            · obtain ⟨m, ht, hSm⟩ := hemb fd hfd hne
              obtain ⟨st, fs', hdm, _⟩ := hS m hSm
              obtain ⟨hx, hst, hnl, hck, hmx⟩ := genFieldFill_embedded hdm ht hgen
              unfold runField
              rw [hj, hne, hx, hst, hnl, hck, hmx]
              simp only [if_true, Bool.false_and, Bool.false_eq_true, if_false, runExtr, fillT]
              have := ih m g hSm
              revert this
              cases h3 : (Γ.methods k m).fill v g with
              | ok p =>
                cases h4 : (Γ.methods k m).fill v' g with
                | ok p' =>
                  obtain ⟨e, s1⟩ := p
                  obtain ⟨e', s1'⟩ := p'
                  rintro ⟨rfl, he⟩
                  cases e with
                  | none => have := he.1 rfl; subst this; exact SameUpToError.refl _
                  | some e =>
                    cases e' with
                    | none => exact absurd (he.2 rfl) (by simp)
                    | some e' => exact ⟨rfl, by simp⟩
                | _ => simp [SameUpToError]
              | _ => cases h4 : (Γ.methods k m).fill v' g <;> simp [SameUpToError]
            · have hKj : K fd.tags.jsonName := by
                rcases hK n hn strict fields hd with h | h
                · exact h _
                · exact h.2 _ (List.mem_map_of_mem hfd)
              obtain ⟨kvs, kvs', rfl, rfl, hag⟩ := hv
              rw [runField_congr (v' := .obj kvs') (by rw [hj]; exact hne)]
              · exact SameUpToError.refl _
              · rw [hj]; exact (hag _ hKj).2
          revert hsame
          cases runFields (Γ.methods k) v fs gs <;> cases runFields (Γ.methods k) v' fs gs <;>
            simp [SameUpToErrorL, SameUpToError]
      | _ => rfl
    | _ => rfl

end VJ
