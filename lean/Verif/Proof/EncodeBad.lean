import Verif.Proof.EncodeSound
import Verif.Proof.EncodeUnique
import Verif.Proof.JsonUnique
import Verif.Proof.Lexer
import Verif.Spec.EncodeExact

/-!
# Troubled values are not encoded as JSON
-/

namespace VJ

variable [Ext] [Nans] {Γ : Env} {X : Nat → GoVal → Prop} {S : Nat → Prop} {F : Nat → Option GoVal → JV → Prop}

/-! ### floats -/

omit [Ext] [Nans] in
theorem zero_finite {f : F64} (h : f.isZero = true) : ¬ Nonfinite f := by
  simp only [F64.isZero, Bool.or_eq_true, beq_iff_eq] at h
  rcases h with rfl | rfl <;> (unfold Nonfinite; decide)

omit [Ext] in
theorem word_N {s : Str} (h : s = str "NaN" ∨ s = str "+Inf" ∨ s = str "-Inf") : Nans.reject = true → Rejected s := by
  rintro hr st p hp
  have hbad : ∀ {q : Char} {c : Char}, Start st q → c = 'N' ∨ c = 'I' → lex1 (.out st q) c = .bad := by
    intro q c hq hc
    simp only [lex1]; unfold lexOut
    have h1 : ¬ wsChar c = true := by rcases hc with rfl | rfl <;> decide
    rw [if_neg h1, if_neg hq.1, if_neg (fun h => hq.2 h.1), if_neg (by rcases hc with rfl | rfl <;> decide),
      if_neg (by rcases hc with rfl | rfl <;> decide), if_neg (by rcases hc with rfl | rfl <;> decide),
      if_neg (by rcases hc with rfl | rfl <;> decide), if_pos ⟨hc, hr⟩]
  have w : ∀ c ∈ ['+', '-'], Word c := by unfold Word; decide
  rcases h with rfl | rfl | rfl
  · rw [show str "NaN" = 'N' :: str "aN" from rfl, lex_cons, hbad hp (.inl rfl), lex_bad]
  · rw [show str "+Inf" = '+' :: 'I' :: str "nf" from rfl, lex_cons, lex_word1 hp (w _ (by simp)), lex_cons,
      hbad (w _ (by simp)).start (.inr rfl), lex_bad]
  · rw [show str "-Inf" = '-' :: 'I' :: str "nf" from rfl, lex_cons, lex_word1 hp (w _ (by simp)), lex_cons,
      hbad (w _ (by simp)).start (.inr rfl), lex_bad]

omit [Ext] [Nans] in
theorem word_odd {s : Str} (h : s = str "NaN" ∨ s = str "+Inf" ∨ s = str "-Inf") : ¬ NumText s := by
  intro hn
  have h1 := num_chars (P := fun c => c ≠ 'N' ∧ c ≠ 'I') (by decide) (by decide) hn
  rcases h with rfl | rfl | rfl
  · exact (h1 'N' (by simp [str])).1 rfl
  · exact (h1 'I' (by simp [str])).2 rfl
  · exact (h1 'I' (by simp [str])).2 rfl

omit [Nans] in
theorem FloatTexts.odd (hN : FloatTexts) {f : F64} (h : Nonfinite f) : ¬ NumText (Ext.fmtFloat f) :=
  word_odd (hN.nonfinite f h)

/-! ### trouble, from the outside in -/

/-- the struct itself is in trouble -/
def OwnTrouble (Γ : Env) (F : Nat → Option GoVal → JV → Prop) (fields : List FieldDecl) (gs : List GoVal) : Prop :=
  MissingComma Γ fields gs ∨ ∃ (i : Nat) (fd : FieldDecl) (g : GoVal), fields[i]? = some fd ∧ gs[i]? = some g ∧ EmptySplice Γ F fd g

omit [Nans] in
theorem Trouble.front {T : TExpr} {V : GoVal} (h : Trouble Γ F T V) :
    (∃ p f, T = .prim p ∧ V = .float f ∧ Nonfinite f) ∨
    (∃ n strict fields gs, V = .struct gs ∧ NameOf T n ∧ Γ.decl n = some (.struct strict fields) ∧ OwnTrouble Γ F fields gs) ∨
    ∃ u g, WStep Γ T V u g ∧ Trouble Γ F u g := by
  rcases h with ⟨p, f, hw, hf⟩ | ⟨e, n, strict, fields, gs, hw, he, hd, ht⟩
  · rcases hw.front with ⟨rfl, rfl⟩ | ⟨u, g, h1, h2⟩
    · exact .inl ⟨p, f, rfl, rfl, hf⟩
    · exact .inr (.inr ⟨u, g, h1, .inl ⟨p, f, h2, hf⟩⟩)
  · rcases hw.front with ⟨rfl, rfl⟩ | ⟨u, g, h1, h2⟩
    · exact .inr (.inl ⟨n, strict, fields, gs, rfl, he, hd, ht⟩)
    · exact .inr (.inr ⟨u, g, h1, .inr ⟨e, n, strict, fields, gs, h2, he, hd, ht⟩⟩)

omit [Nans] in
theorem Trouble.part {T t : TExpr} {V v : GoVal} (hw : Written Γ T V t v) (h : Trouble Γ F t v) : Trouble Γ F T V := by
  rcases h with ⟨p, f, hw', hf⟩ | ⟨e, n, strict, fields, gs, hw', he, hd, ht⟩
  · exact .inl ⟨p, f, hw.trans hw', hf⟩
  · exact .inr ⟨e, n, strict, fields, gs, hw.trans hw', he, hd, ht⟩

omit [Nans] in
theorem Trouble.alias {T u : TExpr} {V : GoVal} {n : Nat} (h : Trouble Γ F T V) (he : NameOf T n) (hd : Γ.decl n = some (.alias u)) :
    Trouble Γ F u V := by
  rcases h.front with ⟨p, f, rfl, _⟩ | ⟨m, strict, fields, gs, _, he', hd', _⟩ | ⟨t, g, h1, h2⟩
  · cases he
  · cases he.inj he'; rw [hd] at hd'; cases hd'
  · cases h1 with
    | alias he' hd' => cases he.inj he'; rw [hd] at hd'; cases hd'; exact h2
    | field he' hd' => cases he.inj he'; rw [hd] at hd'; cases hd'
    | _ => cases he

omit [Nans] in
theorem Trouble.is {T u : TExpr} {V : GoVal} (h : Trouble Γ F T V) (hi : Is Γ T u) : Trouble Γ F u V := by
  cases hi with
  | self => exact h
  | named hd => exact h.alias (.named _) hd

omit [Nans] in
theorem Trouble.rename {e e' : TExpr} {V : GoVal} {n : Nat} (h : Trouble Γ F e V) (he : NameOf e n) (he' : NameOf e' n) : Trouble Γ F e' V := by
  rcases h.front with ⟨p, f, rfl, _⟩ | ⟨m, strict, fields, gs, rfl, hm, hd', ht⟩ | ⟨t, g, h1, h2⟩
  · cases he
  · cases he.inj hm
    exact .inr ⟨e', n, strict, fields, gs, .self, he', hd', ht⟩
  · cases h1 with
    | alias hm hd => cases he.inj hm; exact h2.part (.alias .self he' hd)
    | field hm hd hf hg ho => cases he.inj hm; exact h2.part (.field .self he' hd hf hg ho)
    | _ => cases he

omit [Nans] in
theorem no_trouble {T : TExpr} {V : GoVal} (h : Trouble Γ F T V) (h0 : ∀ p, T ≠ .prim p) (h1 : ∀ n, ¬ NameOf T n)
    (h2 : ∀ u g, ¬ WStep Γ T V u g) : False := by
  rcases h.front with ⟨p, _, hp, _⟩ | ⟨m, _, _, _, _, hm, _⟩ | ⟨t, g, h, _⟩
  · exact h0 p hp
  · exact h1 m hm
  · exact h2 t g h

omit [Nans] in
/-- the only trouble with a scalar is a float that is not finite -/
theorem trouble_prim {p : Prim} {V : GoVal} (h : Trouble Γ F (.prim p) V) : ∃ f, V = .float f ∧ Nonfinite f := by
  rcases h.front with ⟨p, f, _, h1, h2⟩ | ⟨m, _, _, _, _, hm, _⟩ | ⟨t, g, h, _⟩
  · exact ⟨f, h1, h2⟩
  · cases hm
  · cases h with | «alias» he => cases he | field he => cases he
omit [Nans] in
/-- byte strings have no elements that could be in trouble -/
theorem no_trouble_bytes {v : GoVal} {t : TExpr} (ht : t = .slice (.prim .byte) ∨ ∃ n, t = .array n (.prim .byte)) (hv : HasType Γ X t v)
    (h : Trouble Γ F t v) : False := by
  rcases h.front with ⟨p, _, rfl, _⟩ | ⟨m, _, _, _, _, hm, _⟩ | ⟨u, g, hs, _⟩
  · simp at ht
  · rcases ht with rfl | ⟨n, rfl⟩ <;> cases hm
  · cases hs with
    | slice => cases hv with
      | slice hb => simp_all
      | «alias» he => cases he
      | foreign he => cases he
    | array => cases hv with
      | array hb => simp_all
      | «alias» he => cases he
      | foreign he => cases he
    | «alias» he => rcases ht with rfl | ⟨n, rfl⟩ <;> cases he
    | field he => rcases ht with rfl | ⟨n, rfl⟩ <;> cases he
    | _ => simp at ht
omit [Nans] in
theorem no_trouble_time {V : GoVal} (h : Trouble Γ F .time V) : False :=
  no_trouble h (by simp) (by rintro n ⟨⟩) (by rintro u g h; cases h with | «alias» he => cases he | field he => cases he)
omit [Nans] in
theorem no_trouble_uuid {V : GoVal} (h : Trouble Γ F .uuid V) : False :=
  no_trouble h (by simp) (by rintro n ⟨⟩) (by rintro u g h; cases h with | «alias» he => cases he | field he => cases he)

omit [Nans] in
theorem trouble_isPrim {t : TExpr} {p : Prim} {V : GoVal} (h : Trouble Γ F t V) (hp : IsPrim Γ t p) : ∃ f, V = .float f ∧ Nonfinite f := by
  cases hp with
  | self => exact trouble_prim h
  | named hd => exact trouble_prim (h.alias (.named _) hd)
  | sel hd => exact trouble_prim (h.alias (.sel _) hd)

omit [Nans] in
theorem trouble_primName {t : TExpr} {p : Prim} {V : GoVal} (h : Trouble Γ F t V) (hp : PrimName Γ t p) : ∃ f, V = .float f ∧ Nonfinite f := by
  cases hp with
  | base hp => exact trouble_isPrim h hp
  | chain hd hp => exact trouble_isPrim (h.alias (.named _) hd) hp

omit [Nans] in
theorem Trouble.star {t : TExpr} {V : GoVal} (h : Trouble Γ F (.star t) V) : ∃ v, V = .ptr v ∧ Trouble Γ F t v := by
  rcases h.front with ⟨_, _, h, _⟩ | ⟨m, _, _, _, _, hm, _⟩ | ⟨t, g, h1, h2⟩
  · cases h
  · cases hm
  · cases h1 with
    | ptr => exact ⟨_, rfl, h2⟩
    | «alias» he => cases he
    | field he => cases he

omit [Nans] in
theorem Trouble.slice {t : TExpr} {V : GoVal} (h : Trouble Γ F (.slice t) V) : ∃ es sp, V = .slice es sp ∧ ∃ v ∈ es, Trouble Γ F t v := by
  rcases h.front with ⟨_, _, h, _⟩ | ⟨m, _, _, _, _, hm, _⟩ | ⟨t, g, h1, h2⟩
  · cases h
  · cases hm
  · cases h1 with
    | slice hv => exact ⟨_, _, rfl, _, hv, h2⟩
    | «alias» he => cases he
    | field he => cases he

omit [Nans] in
theorem Trouble.array {t : TExpr} {n : Nat} {V : GoVal} (h : Trouble Γ F (.array n t) V) : ∃ es, V = .arr es ∧ ∃ v ∈ es, Trouble Γ F t v := by
  rcases h.front with ⟨_, _, h, _⟩ | ⟨m, _, _, _, _, hm, _⟩ | ⟨t, g, h1, h2⟩
  · cases h
  · cases hm
  · cases h1 with
    | array hv => exact ⟨_, rfl, _, hv, h2⟩
    | «alias» he => cases he
    | field he => cases he

omit [Nans] in
theorem Trouble.map {t : TExpr} {V : GoVal} (h : Trouble Γ F (.map t) V) : ∃ kvs, V = .map kvs ∧ ∃ kv ∈ kvs, Trouble Γ F t kv.2 := by
  rcases h.front with ⟨_, _, h, _⟩ | ⟨m, _, _, _, _, hm, _⟩ | ⟨t, g, h1, h2⟩
  · cases h
  · cases hm
  · cases h1 with
    | map hv => exact ⟨_, rfl, _, hv, h2⟩
    | «alias» he => cases he
    | field he => cases he

omit [Nans] in
theorem Trouble.byMethod {t : TExpr} {n : Nat} {v : GoVal} (h : Trouble Γ F t v) (hm : ByMethod Γ t n) : Trouble Γ F (.named n) v := by
  cases hm with
  | struct => exact h
  | sel => exact h.rename (.sel _) (.named _)
  | named hd => exact (h.alias (.named _) hd).rename (.sel _) (.named _)

omit [Nans] in
/-- values without trouble are those the encoder copes with -/
theorem fine_iff (hN : FloatTexts) {T : TExpr} {V : GoVal} : Fine Γ F T V ↔ ¬ Trouble Γ F T V := by
  constructor
  · rintro h (⟨p, f, hw, hf⟩ | ⟨e, n, strict, fields, gs, hw, he, hd, ⟨i, j, fi, fj, gi, gj, hij, h1, h2, h3, h4, h5, h6, h7⟩ | ⟨i, fd, g, h1, h2, h3, n', jv, h4, h5, h6, h7⟩⟩)
    · exact (hN.odd hf) (h.floats p f hw)
    · obtain ⟨l, fl, gl, hl, h8, h9, h10, h11⟩ := h.commas e n strict fields gs hw he hd i j fi fj gi gj hij h1 h2 h3 h4 h5 h6
      exact h11 (h7 l fl gl hl h8 h9 h10)
    · obtain ⟨kv, kvs, rfl⟩ := h.splices e n strict fields gs hw he hd i n' fd g jv h1 h2 h3 h4 h5 h6
      exact h7 kv kvs rfl
  · intro ht
    refine ⟨fun p f hw => hN.finite f fun hf => ht (.inl ⟨p, f, hw, hf⟩), ?_, ?_⟩
    · intro e n strict fields gs hw he hd i j fi fj gi gj hij h1 h2 h3 h4 h5 h6
      apply Classical.byContradiction
      intro hc
      refine ht (.inr ⟨e, n, strict, fields, gs, hw, he, hd, .inl ⟨i, j, fi, fj, gi, gj, hij, h1, h2, h3, h4, h5, h6, ?_⟩⟩)
      intro l fl gl hl h7 h8 h9
      apply Classical.byContradiction
      intro h10
      exact hc ⟨l, fl, gl, hl, h7, h8, h9, h10⟩
    · intro e n strict fields gs hw he hd i n' fd g jv h1 h2 h3 h4 h5 h6
      apply Classical.byContradiction
      intro hc
      refine ht (.inr ⟨e, n, strict, fields, gs, hw, he, hd, .inr ⟨i, fd, g, h1, h2, h3, n', jv, h4, h5, h6, ?_⟩⟩)
      rintro kv kvs rfl
      exact hc ⟨kv, kvs, rfl⟩

/-! ### values that the reader can tell from fine ones -/

/-- the reader minds words, or there are none -/
def Calm (Γ : Env) (T : TExpr) (V : GoVal) : Prop :=
  Nans.reject = true ∨ ∀ p f, Written Γ T V (.prim p) (.float f) → ¬ Nonfinite f

theorem Calm.part {T t : TExpr} {V v : GoVal} (h : Calm Γ T V) (hw : Written Γ T V t v) : Calm Γ t v :=
  h.imp id fun h p f h' => h p f (hw.trans h')

theorem Calm.alias {T u : TExpr} {V : GoVal} {n : Nat} (h : Calm Γ T V) (he : NameOf T n) (hd : Γ.decl n = some (.alias u)) : Calm Γ u V :=
  h.part (.alias .self he hd)

theorem Calm.is {T u : TExpr} {V : GoVal} (h : Calm Γ T V) (hi : Is Γ T u) : Calm Γ u V := by
  cases hi with
  | self => exact h
  | named hd => exact h.alias (.named _) hd

theorem Calm.rename {e e' : TExpr} {V : GoVal} {n : Nat} (h : Calm Γ e V) (he : NameOf e n) (he' : NameOf e' n) : Calm Γ e' V := by
  refine h.imp id fun h p f hw => ?_
  rcases hw.front with ⟨h1, _⟩ | ⟨u, g, h1, h2⟩
  · rw [← h1] at he'; cases he'
  · cases h1 with
    | alias hm hd => cases he'.inj hm; exact h p f ((Written.alias .self he hd).trans h2)
    | field hm hd hf hg ho => cases he'.inj hm; exact h p f ((Written.field .self he hd hf hg ho).trans h2)
    | _ => cases he'

theorem Calm.byMethod {t : TExpr} {n : Nat} {v : GoVal} (h : Calm Γ t v) (hm : ByMethod Γ t n) : Calm Γ (.named n) v := by
  cases hm with
  | struct => exact h
  | sel => exact h.rename (.sel _) (.named _)
  | named hd => exact (h.alias (.named _) hd).rename (.sel _) (.named _)

theorem Calm.star {t : TExpr} {v : GoVal} (h : Calm Γ (.star t) (.ptr v)) : Calm Γ t v := h.part (.ptr .self)

/-- floats are troubled only for a reader that minds words -/
theorem Calm.float {T : TExpr} {f : F64} (h : Calm Γ T (.float f)) (ht : Trouble Γ F T (.float f)) : Nans.reject = true := by
  rcases h with h | h
  · exact h
  · exfalso
    have key : ∀ {t : TExpr} {v : GoVal}, Written Γ T (.float f) t v → v = .float f := by
      intro t v hw
      induction hw with
      | self => rfl
      | alias _ _ _ ih => exact ih
      | _ => simp_all
    rcases ht with ⟨p, g, hw, hf⟩ | ⟨e, n, strict, fields, gs, hw, _⟩
    · exact h p g hw hf
    · cases key hw

/-! ### texts that are not JSON -/

/-- text that is rejected among the members of an object, where a comma may be missing before
it -/
def Killer (t : Str) : Prop := ∀ st p, p = '{' ∨ p = ',' ∨ p = 'l' → lex (.out (true :: st) p) t = .bad

/-- text that is rejected, both as it is and without the braces around it -/
structure Botched (s : Str) : Prop where
  long : 2 ≤ s.length
  rejected : Rejected s
  body : ∀ b, s = '{' :: (b ++ ['}']) → Killer b

theorem FloatTexts.botched (hN : FloatTexts) {f : F64} (h : Nonfinite f) (hr : Nans.reject = true) : Botched (Ext.fmtFloat f) := by
  refine ⟨?_, word_N (hN.nonfinite f h) hr, ?_⟩
  · rcases hN.nonfinite f h with h | h | h <;> (rw [h]; decide)
  intro b hb
  exfalso
  have : (Ext.fmtFloat f).head? = some '{' := by rw [hb]; rfl
  rcases hN.nonfinite f h with h | h | h <;> (rw [h] at this; revert this; decide)

omit [Ext] in
theorem lex_l {st : List Bool} {c : Char} (t : Str) (hw : wsChar c = false) (h : c ≠ 'l' ∧ c ≠ 's' ∧ c ≠ ',' ∧ c ≠ '}' ∧ c ≠ ']') :
    lex (.out st 'l') (c :: t) = .bad := by
  have : lex1 (.out st 'l') c = .bad := by
    simp [lex1, lexOut, hw, h]
  rw [lex_cons, this, lex_bad]

omit [Ext] in
theorem lex_quote_l {st : List Bool} (t : Str) : lex (.out st 'l') ('"' :: t) = .bad := lex_l t (by decide) (by decide)

omit [Ext] in
theorem lex_nokey {st : List Bool} {p c : Char} (t : Str) (hp : p = '{' ∨ p = ',') (hw : wsChar c = false) (h : c ≠ '"' ∧ c ≠ '}') :
    lex (.out (true :: st) p) (c :: t) = .bad := by
  have : lex1 (.out (true :: st) p) c = .bad := by
    simp [lex1, lexOut, hw, h, hp]
  rw [lex_cons, this, lex_bad]

omit [Ext] in
theorem killer_word {c : Char} {t : Str} (h : Word c) (hs : c ≠ 's') : Killer (c :: t) := by
  obtain ⟨h1, h2, h3, h4, h5, h6, h7, h8, -, -⟩ := h
  rintro st p (hp | hp | rfl)
  · exact lex_nokey t (.inl hp) h1 ⟨h2, h5⟩
  · exact lex_nokey t (.inr hp) h1 ⟨h2, h5⟩
  · exact lex_l t h1 ⟨h8, hs, h7, h5, h6⟩

omit [Ext] in
theorem Killer.ne_nil {t : Str} (h : Killer t) : t ≠ [] := by
  rintro rfl
  have := h [] '{' (.inl rfl)
  cases this

omit [Ext] in
/-- `"key":` and a text that is rejected -/
theorem killer_key {k key s t : Str} (hk : StrText k key) (hs : Rejected s) : Killer ('"' :: (key ++ '"' :: ':' :: (s ++ t))) := by
  have h : ∀ st p, p = '{' ∨ p = ',' → lex (.out (true :: st) p) ('"' :: (key ++ '"' :: ':' :: (s ++ t))) = .bad := by
    intro st p hp
    rw [lex_key ⟨rfl, hp⟩ hk, lex_cons, lex_colon, lex_append, hs _ _ (colon_start _), lex_bad]
  rintro st p (hp | hp | rfl)
  · exact h st p (.inl hp)
  · exact h st p (.inr hp)
  · exact lex_quote_l _

/-! ### lists and maps -/

/-- what is known of a piece of output: JSON, or botched if `T` -/
def Piece (T : Prop) (w w' : W) : Prop := ∃ s, w' = w.raw s ∧ ((¬ T ∧ ∃ jv, Json jv s) ∨ (T ∧ Botched s))

omit [Ext] in
theorem writeElems_bad {T : GoVal → Prop} {f : Nat → GoVal → W → Out (Option EErr × W)} : ∀ {vs : List GoVal}
    (_ : ∀ i v w w', v ∈ vs → w.err = none → f i v w = .ok (none, w') → Piece (T v) w w') {i : Nat} {sep : Bool} {w w' : W},
    w.err = none → writeElems f i sep vs w = .ok (none, w') →
    ∃ s, w' = w.raw s ∧ ((∃ v ∈ vs, T v) → ∀ st p, sep = true ∨ p ≠ 'l' → lex (.out (false :: st) p) s = .bad)
  | [], _, i, sep, w, w', hw, h => by
    cases h
    exact ⟨[], (W.raw_nil _).symm, by simp⟩
  | v :: vs, hf, i, sep, w, w', hw, h => by
    rw [writeElems] at h
    obtain ⟨⟨e, w1⟩, h1, h2⟩ := Out.bind_eq_ok.1 h
    cases e with
    | some e => cases h2
    | none =>
      obtain ⟨s, rfl, h3⟩ := hf i v _ w1 (by simp) (by cases sep <;> exact hw) h1
      obtain ⟨s', h5, h6⟩ := writeElems_bad (fun i v w w' hm => hf i v w w' (List.mem_cons_of_mem _ hm)) (by cases sep <;> exact hw) h2
      refine ⟨(if sep then [','] else []) ++ (s ++ s'), ?_, ?_⟩
      · rw [h5]; cases sep <;> simp [W.raw_raw]
      · rintro hT st p hp
        have hst : ∃ p', p' ≠ 'l' ∧ lex (.out (false :: st) p) (if sep then [','] else []) = .out (false :: st) p' := by
          cases sep with
          | true => exact ⟨',', by decide, by simp only [if_true]; rw [lex_cons, lex_comma (.inr (by simp)), lex_nil]⟩
          | false => exact ⟨p, by simpa using hp, rfl⟩
        obtain ⟨p', hp', h7⟩ := hst
        have hS : Start (false :: st) p' := ⟨by simp, hp'⟩
        rw [lex_append, h7, lex_append]
        rcases h3 with ⟨hn, jv, hj⟩ | ⟨-, hb⟩
        · obtain ⟨q, -, h8⟩ := lex_json hj _ _ hS
          rw [h8]
          refine h6 ?_ st q (.inl rfl)
          obtain ⟨u, hu, hTu⟩ := hT
          rcases List.mem_cons.1 hu with rfl | hu
          · exact absurd hTu hn
          · exact ⟨u, hu, hTu⟩
        · rw [hb.rejected _ _ hS, lex_bad]

omit [Ext] in
theorem list_bad {T : GoVal → Prop} {f : Nat → GoVal → W → Out (Option EErr × W)} {vs : List GoVal}
    (hf : ∀ i v w w', v ∈ vs → w.err = none → f i v w = .ok (none, w') → Piece (T v) w w') (hT : ∃ v ∈ vs, T v) {w w' : W} (hw : w.err = none)
    (h : (writeElems f 0 false vs (w.raw ['[']) >>= fun r => match r.1 with
      | some e => (.ok (some e, r.2) : Out (Option EErr × W))
      | none => .ok (none, r.2.raw [']'])) = .ok (none, w')) : ∃ s, w' = w.raw s ∧ Botched s := by
  obtain ⟨⟨e, w1⟩, h1, h2⟩ := Out.bind_eq_ok.1 h
  cases e with
  | some e => cases h2
  | none =>
    obtain ⟨s, rfl, hs⟩ := writeElems_bad hf (w := w.raw ['[']) hw h1
    cases h2
    refine ⟨'[' :: (s ++ [']']), by simp [W.raw_raw], by simp, ?_, ?_⟩
    · intro st p hp
      rw [lex_cons, (lex_open hp).2, lex_append, hs hT st '[' (.inr (by decide)), lex_bad]
    · intro b hb
      simp at hb

omit [Ext] in
theorem writeMembers_bad {T : Str × GoVal → Prop} {f : Str → GoVal → W → Out (Option EErr × W)} : ∀ {kvs : List (Str × GoVal)}
    (_ : ∀ kv w w', kv ∈ kvs → w.err = none → f kv.1 kv.2 w = .ok (none, w') → Piece (T kv) w w') {sep : Bool} {w w' : W},
    w.err = none → writeMembers f sep kvs w = .ok (none, w') →
    ∃ s, w' = w.raw s ∧ (sep = false → s = [] ∨ ∃ t, s = '"' :: t) ∧ ((∃ kv ∈ kvs, T kv) → s ≠ [] ∧
      ∀ st p, (if sep then Shut p else p = '{' ∨ p = ',') → lex (.out (true :: st) p) s = .bad)
  | [], _, sep, w, w', hw, h => by
    cases h
    exact ⟨[], (W.raw_nil _).symm, fun _ => .inl rfl, by simp⟩
  | (k, v) :: kvs, hf, sep, w, w', hw, h => by
    rw [writeMembers] at h
    obtain ⟨⟨e, w1⟩, h1, h2⟩ := Out.bind_eq_ok.1 h
    cases e with
    | some e => cases h2
    | none =>
      obtain ⟨s, rfl, h3⟩ := hf (k, v) _ w1 (by simp) (by cases sep <;> exact hw) h1
      obtain ⟨s', h5, -, h6⟩ := writeMembers_bad (fun kv w w' hm => hf kv w w' (List.mem_cons_of_mem _ hm)) (by cases sep <;> exact hw) h2
      refine ⟨(if sep then [','] else []) ++ '"' :: (escBody k ++ '"' :: ':' :: (s ++ s')), ?_, ?_, ?_⟩
      · rw [h5]; cases sep <;> simp [W.raw_raw, W.string, jsonStr]
      · rintro rfl; exact .inr ⟨_, rfl⟩
      · rintro hT
        refine ⟨by simp, ?_⟩
        intro st p hp
        have hst : ∃ p', (p' = '{' ∨ p' = ',') ∧ lex (.out (true :: st) p) (if sep then [','] else []) = .out (true :: st) p' := by
          cases sep with
          | true => exact ⟨',', .inr rfl, by simp only [if_true]; rw [lex_cons, lex_comma (.inl (by simpa using hp)), lex_nil]⟩
          | false => exact ⟨p, by simpa using hp, rfl⟩
        obtain ⟨p', hp', h7⟩ := hst
        rw [lex_append, h7, lex_key ⟨rfl, hp'⟩ (escBody_text k), lex_cons, lex_colon, lex_append]
        rcases h3 with ⟨hn, jv, hj⟩ | ⟨-, hb⟩
        · obtain ⟨q, hq, h8⟩ := lex_json hj _ _ (colon_start _)
          rw [h8]
          refine (h6 ?_).2 st q (by simpa using hq)
          obtain ⟨u, hu, hTu⟩ := hT
          rcases List.mem_cons.1 hu with rfl | hu
          · exact absurd hTu hn
          · exact ⟨u, hu, hTu⟩
        · rw [hb.rejected _ _ (colon_start _), lex_bad]

omit [Ext] in
theorem map_bad {T : Str × GoVal → Prop} {f : Str → GoVal → W → Out (Option EErr × W)} {kvs : List (Str × GoVal)}
    (hf : ∀ kv w w', kv ∈ kvs → w.err = none → f kv.1 kv.2 w = .ok (none, w') → Piece (T kv) w w') (hT : ∃ kv ∈ kvs, T kv) {w w' : W}
    (hw : w.err = none)
    (h : (writeMembers f false kvs (w.raw ['{']) >>= fun r => match r.1 with
      | some e => (.ok (some e, r.2) : Out (Option EErr × W))
      | none => .ok (none, r.2.raw ['}'])) = .ok (none, w')) : ∃ s, w' = w.raw s ∧ Botched s := by
  obtain ⟨⟨e, w1⟩, h1, h2⟩ := Out.bind_eq_ok.1 h
  cases e with
  | some e => cases h2
  | none =>
    obtain ⟨s, rfl, hq, hs⟩ := writeMembers_bad hf (w := w.raw ['{']) hw h1
    obtain ⟨hne, hs⟩ := hs hT
    cases h2
    refine ⟨'{' :: (s ++ ['}']), by simp [W.raw_raw], by simp, ?_, ?_⟩
    · intro st p hp
      rw [lex_cons, (lex_open hp).1, lex_append, hs st '{' (by simp), lex_bad]
    · intro b hb
      simp only [List.cons.injEq, List.append_cancel_right_eq, true_and] at hb
      subst hb
      rintro st p (rfl | rfl | rfl)
      · exact hs st _ (by simp)
      · exact hs st _ (by simp)
      · rcases hq rfl with rfl | ⟨t, rfl⟩
        · exact absurd rfl hne
        · exact lex_quote_l t

/-! ### elements -/

/-- the methods of the package botch troubled values -/
def MBad (Γ : Env) (F : Nat → Option GoVal → JV → Prop) (X : Nat → GoVal → Prop) (S : Nat → Prop) (M : Nat → Methods) : Prop :=
  ∀ n v w w', S n → HasType Γ X (.named n) v → Calm Γ (.named n) v → Trouble Γ F (.named n) v → w.err = none →
    (M n).marshalTo (some v) w = .ok (none, w') → ∃ s, w' = w.raw s ∧ Botched s

theorem leaf_bad {M : Nat → Methods} (hN : FloatTexts) (hB : MBad Γ F X S M) {t : TExpr} {x : VExt}
    (h : LeafPlan Γ t x) (hg : EGood Γ S t) {v : GoVal} (hv : HasType Γ X t v) (hc : Calm Γ t v) (ht : Trouble Γ F t v)
    {label : ECtx} {w w' : W} (hw : w.err = none) (hr : runVExt M label x v w = .ok (none, w')) : ∃ s, w' = w.raw s ∧ Botched s := by
  cases h with
  | prim hp hx =>
    obtain ⟨f, rfl, hf⟩ := trouble_primName ht hp
    rw [primVExt_run hx (hasType_primName hp hv)] at hr; cases hr
    exact ⟨_, rfl, hN.botched hf (hc.float ht)⟩
  | ptr hi hy hx =>
    rename_i y p x
    obtain ⟨g, rfl, h1⟩ := (ht.is hi).star
    obtain ⟨f, rfl, hf⟩ := trouble_isPrim h1 hy
    rcases (hv.of_is hi).star_cases with h' | ⟨g', h', hg'⟩
    · cases h'
    · cases h'
      have hr' : runVExt M label x (.float f) w = .ok (none, w') := by simpa only [runVExt] using hr
      rw [primVExt_run hx (hasType_isPrim hy hg')] at hr'; cases hr'
      exact ⟨_, rfl, hN.botched hf ((hc.is hi).star.float h1)⟩
  | time => exact (no_trouble_time ht).elim
  | call hn hp =>
    simp only [runVExt] at hr
    obtain ⟨⟨e, w1⟩, h1, h2⟩ := Out.bind_eq_ok.1 hr
    simp only [Out.pure_eq, Out.ok.injEq, Prod.mk.injEq] at h2
    obtain ⟨h2, rfl⟩ := h2
    cases wrap_none h2
    exact hB _ v w w1 (hg.name hn) (hv.name hn (.named _)) (hc.rename hn (.named _)) (ht.rename hn (.named _)) hw h1
  | callPtr hy hp =>
    rename_i y n
    obtain ⟨g, rfl, ht'⟩ := ht.star
    rcases hv.star_cases with h' | ⟨g', h', hg'⟩
    · cases h'
    · cases h'
      simp only [runVExt] at hr
      obtain ⟨⟨e, w1⟩, h1, h2⟩ := Out.bind_eq_ok.1 hr
      simp only [Out.pure_eq, Out.ok.injEq, Prod.mk.injEq] at h2
      obtain ⟨h2, rfl⟩ := h2
      cases wrap_none h2
      exact hB n g w w1 (hg.star.name hy) (hg'.name hy (.named _)) (hc.star.rename hy (.named _)) (ht'.rename hy (.named _)) hw h1

theorem leaf_piece {M : Nat → Methods} (hN : FloatTexts) (hP : EncPackage Γ F S) (hM : MSound Γ F X S M) (hB : MBad Γ F X S M) {t : TExpr} {x : VExt}
    (h : LeafPlan Γ t x) (hg : EGood Γ S t) {v : GoVal} (hv : HasType Γ X t v) (hc : Calm Γ t v)
    {label : ECtx} {w w' : W} (hw : w.err = none) (hr : runVExt M label x v w = .ok (none, w')) : Piece (Trouble Γ F t v) w w' := by
  by_cases ht : Trouble Γ F t v
  · obtain ⟨s, h1, h2⟩ := leaf_bad hN hB h hg hv hc ht hw hr
    exact ⟨s, h1, .inr ⟨ht, h2⟩⟩
  · obtain ⟨jv, s, -, h2, h3⟩ := leaf_sound hP hM (o := false) h hg (by simp) hv ((fine_iff hN).2 ht) hw hr
    exact ⟨s, h3, .inl ⟨ht, jv, h2⟩⟩

theorem vext_bad {M : Nat → Methods} (hN : FloatTexts) (hP : EncPackage Γ F S) (hM : MSound Γ F X S M) (hB : MBad Γ F X S M) {t : TExpr} {x : VExt}
    (h : ElemPlan Γ t x) (hg : EGood Γ S t) {v : GoVal} (hv : HasType Γ X t v) (hc : Calm Γ t v) (ht : Trouble Γ F t v)
    {label : ECtx} {w w' : W} (hw : w.err = none) (hr : runVExt M label x v w = .ok (none, w')) : ∃ s, w' = w.raw s ∧ Botched s := by
  cases h with
  | leaf hl h => exact leaf_bad hN hB h hg hv hc ht hw hr
  | list hl h =>
    rename_i e x
    rcases hl.2 with hi | ⟨n, hi⟩
    · obtain ⟨es, sp, rfl, h1⟩ := (ht.is hi).slice
      rcases (hv.of_is hi).slice_cases hl.1 with h' | ⟨es', sp', h', h2, -⟩
      · cases h'
      · cases h'
        exact list_bad (T := Trouble Γ F e) (fun i c w w' hm hw hr => leaf_piece hN hP hM hB h (hg.is hP.toTypeSet hi).slice (h2 c hm) ((hc.is hi).part (.slice .self hm)) hw hr) h1 hw hr
    · obtain ⟨es, rfl, h1⟩ := (ht.is hi).array
      obtain ⟨es', h', -, h2⟩ := (hv.of_is hi).array_cases hl.1
      cases h'
      exact list_bad (T := Trouble Γ F e) (fun i c w w' hm hw hr => leaf_piece hN hP hM hB h (hg.is hP.toTypeSet hi).array (h2 c hm) ((hc.is hi).part (.array .self hm)) hw hr) h1 hw hr

theorem vext_piece {M : Nat → Methods} (hN : FloatTexts) (hP : EncPackage Γ F S) (hM : MSound Γ F X S M) (hB : MBad Γ F X S M) {t : TExpr} {x : VExt}
    (h : ElemPlan Γ t x) (hg : EGood Γ S t) {v : GoVal} (hv : HasType Γ X t v) (hc : Calm Γ t v)
    {label : ECtx} {w w' : W} (hw : w.err = none) (hr : runVExt M label x v w = .ok (none, w')) : Piece (Trouble Γ F t v) w w' := by
  by_cases ht : Trouble Γ F t v
  · obtain ⟨s, h1, h2⟩ := vext_bad hN hP hM hB h hg hv hc ht hw hr
    exact ⟨s, h1, .inr ⟨ht, h2⟩⟩
  · obtain ⟨jv, s, -, h2, h3⟩ := vext_sound hP hM h hg hv ((fine_iff hN).2 ht) hw hr
    exact ⟨s, h3, .inl ⟨ht, jv, h2⟩⟩

theorem writeList_bad {M : Nat → Methods} (hN : FloatTexts) (hP : EncPackage Γ F S) (hM : MSound Γ F X S M) (hB : MBad Γ F X S M) {t : TExpr} {x : VExt}
    (h : ElemPlan Γ t x) (hg : EGood Γ S t) {es : List GoVal} (hv : ∀ v ∈ es, HasType Γ X t v) (hc : ∀ v ∈ es, Calm Γ t v) (ht : ∃ v ∈ es, Trouble Γ F t v)
    {name : Str} {w w' : W} (hw : w.err = none) (hr : writeList M name x es w = .ok (none, w')) :
    ∃ s, w' = w.raw s ∧ Botched s :=
  list_bad (fun _ v _ _ hm hw hr => vext_piece hN hP hM hB h hg (hv v hm) (hc v hm) hw hr) ht hw hr

theorem writeMap_bad {M : Nat → Methods} (hN : FloatTexts) (hP : EncPackage Γ F S) (hM : MSound Γ F X S M) (hB : MBad Γ F X S M) {t : TExpr} {x : VExt}
    (h : ElemPlan Γ t x) (hg : EGood Γ S t) {kvs : List (Str × GoVal)} (hv : ∀ kv ∈ kvs, HasType Γ X t kv.2) (hc : ∀ kv ∈ kvs, Calm Γ t kv.2)
    (ht : ∃ kv ∈ kvs, Trouble Γ F t kv.2)
    {name : Str} {w w' : W} (hw : w.err = none) (hr : writeMap M name x kvs w = .ok (none, w')) :
    ∃ s, w' = w.raw s ∧ Botched s :=
  map_bad (T := fun kv => Trouble Γ F t kv.2) (fun kv _ _ hm hw hr => vext_piece hN hP hM hB h hg (hv kv hm) (hc kv hm) hw hr) ht hw hr

end VJ
