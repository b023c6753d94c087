import Verif.Proof.SupportZero
import Verif.Proof.Complete
import Verif.Props.StructDecode

/-!
# Which types the generator supports: decoding
-/

namespace VJ
set_option linter.unusedSectionVars false
set_option linter.unusedSimpArgs false
set_option linter.unusedVariables false

theorem primExtraction_okay {b : Bool} {path : PathE} {p : Prim} : Okay (primExtraction b path p) ↔ p.hasJSON := by
  cases p <;> simp [primExtraction, Prim.hasJSON]

theorem take5_prefix {l : Str} : l.take 5 = str "time." ↔ str "time." <+: l := by
  constructor
  · intro h; rw [← h]; exact List.take_prefix 5 l
  · rintro ⟨r, rfl⟩; rfl

theorem decodeLayout_okay {l : Str} : Okay (decodeLayout l) ↔ LayoutOK l := by
  unfold decodeLayout
  by_cases h0 : l = []
  · subst h0; simp [LayoutOK.none]
  · rw [if_neg h0]
    by_cases h1 : l.take 5 = str "time." ∧ ¬ '.' ∈ l.drop 5
    · rw [if_pos h1]
      have hl : l = str "time." ++ l.drop 5 := by rw [← h1.1, List.take_append_drop]
      constructor
      · intro h
        cases hc : timeConst (l.drop 5) with
        | none => rw [hc] at h; simp at h
        | some c =>
          rw [hl]
          exact .const (timeConst_iff.1 hc)
      · intro h
        cases h with
        | none => exact absurd rfl h0
        | @const name c h =>
          have : (str "time." ++ name).drop 5 = name := rfl
          rw [this, timeConst_iff.2 h]
          exact okay_ok _
        | literal _ hn _ => exact absurd ⟨take5_prefix.1 h1.1, h1.2⟩ hn
    · rw [if_neg h1]
      constructor
      · intro h
        split at h
        · rename_i hp
          exact .literal h0 (fun h => h1 ⟨take5_prefix.2 h.1, h.2⟩) (literalText_iff.1 hp)
        · simp at h
      · intro h
        cases h with
        | none => exact absurd rfl h0
        | @const name c h =>
          exact absurd ⟨rfl, by
            have : (str "time." ++ name).drop 5 = name := rfl
            rw [this]; exact timeConst_noDot (timeConst_iff.2 h)⟩ h1
        | literal _ _ hq => rw [literalText_iff.2 hq]; exact okay_ok _

/-! ### `typedValue`, case by case -/

variable {Γ : Env}

theorem tv_prim {k : Nat} {f : Fld} {path : PathE} {p : Prim} (href : f.refx = resolve Γ f.expr) (h : PrimName Γ f.expr p) :
    typedValue Γ (k + 1) f path = (do
      let x ← primExtraction f.dontCheckErr path p
      return ⟨x, false, false⟩) := by
  unfold typedValue
  simp only [resolve2_def]
  rw [href, primName_final h]

theorem tv_call {k n : Nat} {f : Fld} {path : PathE} (href : f.refx = resolve Γ f.expr) (h : Calls Γ f.expr n) :
    typedValue Γ (k + 1) f path = .ok ⟨(nestedExtraction f).1, (nestedExtraction f).2, false⟩ := by
  unfold typedValue
  simp only [resolve2_def]
  rw [href]
  rcases calls_final h with ⟨m, hm⟩ | ⟨m, hm⟩ | hm <;> rw [hm]

theorem tv_time {k : Nat} {f : Fld} {path : PathE} (href : f.refx = resolve Γ f.expr) (h : Is Γ f.expr .time) :
    typedValue Γ (k + 1) f path = (do
      let l ← decodeLayout f.tags.layout
      return ⟨.time f.tags.jsonName l, false, false⟩) := by
  unfold typedValue
  simp only [resolve2_def]
  rw [href, is_resolve h (by simp) (by simp) (by simp)]

theorem tv_uuid {k : Nat} {f : Fld} {path : PathE} (href : f.refx = resolve Γ f.expr) (h : Is Γ f.expr .uuid) :
    typedValue Γ (k + 1) f path = .ok ⟨.uuid f.tags.jsonName, false, false⟩ := by
  unfold typedValue
  simp only [resolve2_def]
  rw [href, is_resolve h (by simp) (by simp) (by simp)]

theorem tv_bytes {k : Nat} {f : Fld} {path : PathE} (href : f.refx = resolve Γ f.expr) (h : Is Γ f.expr (.slice (.prim .byte))) :
    typedValue Γ (k + 1) f path = .ok ⟨.bytes none, false, false⟩ := by
  unfold typedValue
  simp only [resolve2_def]
  rw [href, is_resolve h (by simp) (by simp) (by simp)]
  rfl

theorem tv_fixed {k len : Nat} {f : Fld} {path : PathE} (href : f.refx = resolve Γ f.expr)
    (h : Is Γ f.expr (.array len (.prim .byte))) : typedValue Γ (k + 1) f path = .ok ⟨.bytes (some len), false, false⟩ := by
  unfold typedValue
  simp only [resolve2_def]
  rw [href, is_resolve h (by simp) (by simp) (by simp)]
  rfl

theorem tv_slice {k : Nat} {f : Fld} {path : PathE} {e : TExpr} (href : f.refx = resolve Γ f.expr) (h : Is Γ f.expr (.slice e))
    (hb : e ≠ .prim .byte) {r : TVGen} (hr : typedValue Γ (k + 1) f path = .ok r) :
    f.hasField = !f.isStar ∧ (∀ n t, e ≠ .array n t) ∧ (∃ a b c d e g, r.x = .slice a b c d e g) ∧
    ∃ r', typedValue Γ k (Fld.prepare Γ true e {} false false) .index = .ok r' ∧ r'.isStarType = false := by
  unfold typedValue at hr
  simp only [resolve2_def] at hr
  rw [href, is_resolve h (by simp) (by simp) (by simp)] at hr
  simp only [isByte_ne hb, Bool.false_eq_true, if_false] at hr
  split at hr
  · cases hr
  · split at hr
    · cases hr
    · rename_i h1 h2
      obtain ⟨r', hr', h3⟩ := Out.bind_eq_ok.1 hr
      split at h3
      · cases h3
      · rename_i hs
        refine ⟨?_, ?_, ?_, r', hr', by simpa using hs⟩
        · cases hf : f.hasField <;> cases hst : f.isStar <;> simp_all
        · rintro n t rfl
          cases h3
        · cases e <;> first
            | (simp only [Out.pure_eq, Out.ok.injEq] at h3; subst h3; exact ⟨_, _, _, _, _, _, rfl⟩)
            | cases h3

theorem tv_slice_ok {k : Nat} {f : Fld} {path : PathE} {e : TExpr} (href : f.refx = resolve Γ f.expr) (h : Is Γ f.expr (.slice e))
    (hb : e ≠ .prim .byte) (hf : f.hasField = !f.isStar) (ha : ∀ n t, e ≠ .array n t) {r' : TVGen}
    (hr' : typedValue Γ k (Fld.prepare Γ true e {} false false) .index = .ok r') (hs : r'.isStarType = false) :
    ∃ r, typedValue Γ (k + 1) f path = .ok r ∧ r.isStarType = false := by
  unfold typedValue
  simp only [resolve2_def]
  rw [href, is_resolve h (by simp) (by simp) (by simp)]
  simp only [isByte_ne hb, Bool.false_eq_true, if_false, hf]
  rw [if_neg (by cases f.isStar <;> simp), if_neg (by cases f.isStar <;> simp)]
  simp only [hr', Out.ok_bind, hs, Bool.false_eq_true, if_false]
  cases e with
  | array n t => exact absurd rfl (ha n t)
  | _ => exact ⟨_, rfl, rfl⟩

theorem tv_array {k len : Nat} {f : Fld} {path : PathE} {e : TExpr} (href : f.refx = resolve Γ f.expr)
    (h : Is Γ f.expr (.array len e)) (hb : e ≠ .prim .byte) {r : TVGen} (hr : typedValue Γ (k + 1) f path = .ok r) :
    e.nullLike = false ∧ (∃ a b c d e g, r.x = .array a b c d e g) ∧
    ∃ r', typedValue Γ k (Fld.prepare Γ true e {} false false) .index = .ok r' ∧ r'.isStarType = false ∧ r'.filled = false ∧
      (∀ a b c d e g, r'.x ≠ .slice a b c d e g) ∧ (∀ a b c d e g, r'.x ≠ .array a b c d e g) ∧ ∀ a b c d, r'.x ≠ .map a b c d := by
  unfold typedValue at hr
  simp only [resolve2_def] at hr
  rw [href, is_resolve h (by simp) (by simp) (by simp)] at hr
  simp only [isByte_ne hb, Bool.false_eq_true, if_false, prepare_nullLike] at hr
  split at hr
  · cases hr
  · rename_i hn
    obtain ⟨r', hr', h3⟩ := Out.bind_eq_ok.1 hr
    split at h3
    · cases h3
    · rename_i hs
      simp only [Bool.or_eq_true, not_or, Bool.not_eq_true] at hs
      refine ⟨by simpa using hn, ?_, r', hr', hs.2, hs.1, ?_, ?_, ?_⟩
      · split at h3
        · cases h3
        · cases h3
        · cases h3
        · simp only [Out.pure_eq, Out.ok.injEq] at h3; subst h3; exact ⟨_, _, _, _, _, _, rfl⟩
      · intro a b c d e g hx; rw [hx] at h3; cases h3
      · intro a b c d e g hx; rw [hx] at h3; cases h3
      · intro a b c d hx; rw [hx] at h3; cases h3

theorem tv_array_ok {k len : Nat} {f : Fld} {path : PathE} {e : TExpr} (href : f.refx = resolve Γ f.expr)
    (h : Is Γ f.expr (.array len e)) (hb : e ≠ .prim .byte) (hn : e.nullLike = false) {r' : TVGen}
    (hr' : typedValue Γ k (Fld.prepare Γ true e {} false false) .index = .ok r') (hs : r'.isStarType = false)
    (hfl : r'.filled = false) (h1 : ∀ a b c d e g, r'.x ≠ .slice a b c d e g) (h2 : ∀ a b c d e g, r'.x ≠ .array a b c d e g)
    (h3 : ∀ a b c d, r'.x ≠ .map a b c d) : ∃ r, typedValue Γ (k + 1) f path = .ok r ∧ r.isStarType = false := by
  unfold typedValue
  simp only [resolve2_def]
  rw [href, is_resolve h (by simp) (by simp) (by simp)]
  simp only [isByte_ne hb, Bool.false_eq_true, if_false, prepare_nullLike, hn, hr', Out.ok_bind, hs, hfl, Bool.or_self]
  exact ⟨_, rfl, rfl⟩

theorem tv_map {k : Nat} {f : Fld} {path : PathE} {v : TExpr} (href : f.refx = resolve Γ f.expr)
    (h : Is Γ f.expr (.map v)) {r : TVGen} (hr : typedValue Γ (k + 1) f path = .ok r) :
    f.hasField = true ∧ f.isStar = false ∧ (∃ a b c d, r.x = .map a b c d) ∧
    ∃ r', typedValue Γ k (Fld.prepare Γ false v f.tags false true) (.const f.tags.jsonName) = .ok r' ∧ r'.isStarType = false ∧
      r'.x.simple = true := by
  unfold typedValue at hr
  simp only [resolve2_def] at hr
  rw [href, is_resolve h (by simp) (by simp) (by simp)] at hr
  simp only at hr
  split at hr
  · cases hr
  · rename_i hf
    simp only [Bool.or_eq_true, Bool.not_eq_true', not_or, Bool.not_eq_false, Bool.not_eq_true] at hf
    obtain ⟨r', hr', h3⟩ := Out.bind_eq_ok.1 hr
    split at h3
    · cases h3
    · rename_i hs
      refine ⟨hf.1, hf.2, ?_, r', hr', by simpa using hs, ?_⟩
      · split at h3 <;> first
          | cases h3; done
          | (simp only [Out.pure_eq, Out.ok.injEq] at h3; subst h3; exact ⟨_, _, _, _, rfl⟩)
      · split at h3 <;> first
          | cases h3; done
          | (cases hx : r'.x <;> first | rfl | simp_all)

theorem tv_map_ok {k : Nat} {f : Fld} {path : PathE} {v : TExpr} (href : f.refx = resolve Γ f.expr)
    (h : Is Γ f.expr (.map v)) (hf : f.hasField = true) (hst : f.isStar = false) {r' : TVGen}
    (hr' : typedValue Γ k (Fld.prepare Γ false v f.tags false true) (.const f.tags.jsonName) = .ok r')
    (hs : r'.isStarType = false) (hx : r'.x.simple = true) :
    ∃ r, typedValue Γ (k + 1) f path = .ok r ∧ r.isStarType = false := by
  unfold typedValue
  simp only [resolve2_def]
  rw [href, is_resolve h (by simp) (by simp) (by simp)]
  simp only [hf, hst, Bool.not_true, Bool.or_self, Bool.false_eq_true, if_false, hr', Out.ok_bind, hs]
  cases hxx : r'.x <;> rw [hxx] at hx <;> first
    | (simp [Extr.simple] at hx; done)
    | exact ⟨_, rfl, rfl⟩

/-! ### all of it -/

/-- `Readable`, for a value that stands in a field (`hf`) behind a pointer (`st`) or not -/
inductive RV (Γ : Env) : Bool → Bool → Str → TExpr → Prop
  | prim {hf st : Bool} {l : Str} {t : TExpr} {p : Prim} (h : PrimName Γ t p) (hp : p.hasJSON) : RV Γ hf st l t
  | method {hf st : Bool} {l : Str} {t : TExpr} {n : Nat} (h : Calls Γ t n) : RV Γ hf st l t
  | time {hf st : Bool} {l : Str} {t : TExpr} (h : Is Γ t .time) (hl : LayoutOK l) : RV Γ hf st l t
  | uuid {hf st : Bool} {l : Str} {t : TExpr} (h : Is Γ t .uuid) : RV Γ hf st l t
  | bytes {hf st : Bool} {l : Str} {t : TExpr} (h : Is Γ t (.slice (.prim .byte))) : RV Γ hf st l t
  | fixedBytes {hf st : Bool} {l : Str} {t : TExpr} {len : Nat} (h : Is Γ t (.array len (.prim .byte))) : RV Γ hf st l t
  | slice {hf st : Bool} {l : Str} {t e : TExpr} (hfs : hf = !st) (h : Is Γ t (.slice e)) (hb : e ≠ .prim .byte)
      (ha : ∀ len u, e ≠ .array len u) (he : RV Γ true e.isPtr [] (pointee e)) : RV Γ hf st l t
  | array {hf st : Bool} {l : Str} {t e : TExpr} {len : Nat} (h : Is Γ t (.array len e)) (hb : e ≠ .prim .byte)
      (he : ArrayElem Γ e) : RV Γ hf st l t
  | map {hf st : Bool} {l : Str} {t v : TExpr} (hfs : hf = true ∧ st = false) (h : Is Γ t (.map v)) (hv : MapValue Γ v) : RV Γ hf st l t

theorem noAnon_is (hna : NoAnonymous Γ) {t u : TExpr} (ha : t.anon = false) (h : Is Γ t u) : u.anon = false := by
  cases h with
  | self => exact ha
  | named hd => exact noAnon_alias hna hd

theorem anon_of_pointee {t : TExpr} (h : t.anon = false) : (pointee t).anon = false := by
  cases t <;> simp_all [pointee, TExpr.anon]

theorem tv_rv (hna : NoAnonymous Γ) : ∀ {k : Nat} {f : Fld} {path : PathE} {r : TVGen}, typedValue Γ k f path = .ok r →
    f.refx = resolve Γ f.expr → f.expr.anon = false → r.isStarType = false → RV Γ f.hasField f.isStar f.tags.layout f.expr := by
  intro k
  induction k with
  | zero => intro f path r hg; simp [typedValue] at hg
  | succ k ih =>
    intro f path r hg href ha hns
    have hk := kind_final Γ f.expr
    generalize hT : resolve2 Γ (resolve Γ f.expr) = T at hk
    cases hk with
    | prim h =>
      rw [tv_prim href h] at hg
      obtain ⟨x, hx, _⟩ := Out.bind_eq_ok.1 hg
      exact .prim h (primExtraction_okay.1 ⟨x, hx⟩)
    | call h _ => exact .method h
    | structLit h => rw [h] at ha; simp [TExpr.anon] at ha
    | is h h1 h2 h3 h4 =>
      cases T with
      | prim p => exact absurd rfl (h1 p)
      | named m => exact absurd rfl (h2 m)
      | sel m => exact absurd rfl (h3 m)
      | structT => exact absurd rfl h4
      | star x =>
        unfold typedValue at hg
        simp only [resolve2_def] at hg
        rw [href, hT] at hg
        obtain ⟨r', _, hr⟩ := Out.bind_eq_ok.1 hg
        simp only [Out.pure_eq, Out.ok.injEq] at hr
        subst hr
        simp at hns
      | time =>
        rw [tv_time href h] at hg
        obtain ⟨x, hx, _⟩ := Out.bind_eq_ok.1 hg
        exact .time h (decodeLayout_okay.1 ⟨x, hx⟩)
      | uuid => exact .uuid h
      | slice e =>
        by_cases hb : e = .prim .byte
        · subst hb; exact .bytes h
        · obtain ⟨h1, h2, _, r', hr', hs⟩ := tv_slice href h hb hg
          have hae : e.anon = false := by simpa [TExpr.anon] using noAnon_is hna ha h
          have := ih hr' (prepare_resolve _ _ _ _ _ _) (by rw [prepare_expr]; exact anon_of_pointee hae) hs
          rw [prepare_expr, prepare_star_isPtr] at this
          exact .slice h1 h hb h2 this
      | array len e =>
        by_cases hb : e = .prim .byte
        · subst hb; exact .fixedBytes h
        · obtain ⟨hn, _, r', hr', hs, hfl, h5, h6, h7⟩ := tv_array href h hb hg
          have hae : e.anon = false := by simpa [TExpr.anon] using noAnon_is hna ha h
          have hpe : pointee e = e := nullLike_pointee hn
          have hhf : (Fld.prepare Γ true e {} false false).hasField = true := rfl
          have hhs : (Fld.prepare Γ true e {} false false).isStar = false := by
            rw [prepare_star_isPtr]; cases e <;> first | rfl | simp [TExpr.nullLike] at hn
          have := ih hr' (prepare_resolve _ _ _ _ _ _) (by rw [prepare_expr]; exact anon_of_pointee hae) hs
          have hex : (Fld.prepare Γ true e {} false false).expr = e := by rw [prepare_expr, hpe]
          have hrx : (Fld.prepare Γ true e {} false false).refx = resolve Γ (Fld.prepare Γ true e {} false false).expr := rfl
          have hnm : ∀ u, Is Γ e u → u.nullLike = true → ∃ n, e = .named n := by
            intro u hu hnu
            cases hu with
            | self => rw [hn] at hnu; cases hnu
            | named => exact ⟨_, rfl⟩
          cases k with
          | zero => simp [typedValue] at hr'
          | succ k =>
            rw [hex] at this
            refine .array h hb ?_
            cases this with
            | prim h hp => exact .prim h hp
            | method h =>
              rw [tv_call hrx (by rw [hex]; exact h)] at hr'
              simp only [Out.ok.injEq] at hr'
              subst hr'
              simp [nestedExtraction, hhf, hhs] at hfl
            | time h _ => exact .time h
            | uuid h => exact .uuid h
            | bytes h =>
              obtain ⟨n, hn⟩ := hnm _ h rfl
              exact .bytes hn h
            | fixedBytes h =>
              obtain ⟨n, hn⟩ := hnm _ h rfl
              exact .fixedBytes hn h
            | slice _ h hb _ _ =>
              obtain ⟨_, _, ⟨a, b, c, d, e, g, hx⟩, _⟩ := tv_slice hrx (by rw [hex]; exact h) hb hr'
              exact absurd hx (h5 _ _ _ _ _ _)
            | array h hb _ =>
              obtain ⟨_, ⟨a, b, c, d, e, g, hx⟩, _⟩ := tv_array hrx (by rw [hex]; exact h) hb hr'
              exact absurd hx (h6 _ _ _ _ _ _)
            | map _ h _ =>
              obtain ⟨_, _, ⟨a, b, c, d, hx⟩, _⟩ := tv_map hrx (by rw [hex]; exact h) hr'
              exact absurd hx (h7 _ _ _ _)
      | map v =>
        obtain ⟨h1, h2, _, r', hr', hs, hx⟩ := tv_map href h hg
        have hae : v.anon = false := by simpa [TExpr.anon] using noAnon_is hna ha h
        have := ih hr' (prepare_resolve _ _ _ _ _ _) (by rw [prepare_expr]; exact anon_of_pointee hae) hs
        have hrx : (Fld.prepare Γ false v f.tags false true).refx = resolve Γ (Fld.prepare Γ false v f.tags false true).expr := rfl
        refine .map ⟨h1, h2⟩ h ?_
        cases k with
        | zero => simp [typedValue] at hr'
        | succ k =>
          have hex : (Fld.prepare Γ false v f.tags false true).expr = pointee v := prepare_expr _ _ _ _ _ _
          cases this with
          | prim h hp => exact .prim (by rw [← hex]; exact h) hp
          | method h => exact .method (by rw [← hex]; exact h)
          | time h _ =>
            rw [tv_time hrx h] at hr'
            obtain ⟨_, _, hr⟩ := Out.bind_eq_ok.1 hr'
            simp only [Out.pure_eq, Out.ok.injEq] at hr
            subst hr
            simp [Extr.simple] at hx
          | uuid h =>
            rw [tv_uuid hrx h] at hr'
            simp only [Out.ok.injEq] at hr'
            subst hr'
            simp [Extr.simple] at hx
          | bytes h =>
            rw [tv_bytes hrx h] at hr'
            simp only [Out.ok.injEq] at hr'
            subst hr'
            simp [Extr.simple] at hx
          | fixedBytes h =>
            rw [tv_fixed hrx h] at hr'
            simp only [Out.ok.injEq] at hr'
            subst hr'
            simp [Extr.simple] at hx
          | slice _ h hb _ _ =>
            obtain ⟨_, _, ⟨a, b, c, d, e, g, hx'⟩, _⟩ := tv_slice hrx h hb hr'
            rw [hx'] at hx; simp [Extr.simple] at hx
          | array h hb _ =>
            obtain ⟨_, ⟨a, b, c, d, e, g, hx'⟩, _⟩ := tv_array hrx h hb hr'
            rw [hx'] at hx; simp [Extr.simple] at hx
          | map _ h _ =>
            obtain ⟨_, _, ⟨a, b, c, d, hx'⟩, _⟩ := tv_map hrx h hr'
            rw [hx'] at hx; simp [Extr.simple] at hx

/-- values of maps get a template that may stand in a closure -/
theorem mapValue_tv {v : TExpr} {tags : Tags} {path : PathE} (h : MapValue Γ v) :
    ∃ r, typedValue Γ 1 (Fld.prepare Γ false v tags false true) path = .ok r ∧ r.isStarType = false ∧ r.x.simple = true := by
  have hrx : (Fld.prepare Γ false v tags false true).refx = resolve Γ (Fld.prepare Γ false v tags false true).expr := rfl
  have hex : (Fld.prepare Γ false v tags false true).expr = pointee v := prepare_expr _ _ _ _ _ _
  have hd : (Fld.prepare Γ false v tags false true).dontCheckErr = true := by cases v <;> rfl
  cases h with
  | @prim p h hp =>
    rw [tv_prim hrx (by rw [hex]; exact h), hd]
    cases p <;> simp [Prim.hasJSON] at hp <;> exact ⟨_, rfl, rfl, rfl⟩
  | method h =>
    rw [tv_call hrx (by rw [hex]; exact h)]
    refine ⟨_, rfl, rfl, ?_⟩
    unfold nestedExtraction
    split <;> rfl

theorem rv_tv {hf st : Bool} {l : Str} {t : TExpr} (h : RV Γ hf st l t) : ∀ (f : Fld) (path : PathE), f.hasField = hf → f.isStar = st →
    f.tags.layout = l → f.expr = t → f.refx = resolve Γ f.expr → ∃ k r, typedValue Γ k f path = .ok r ∧ r.isStarType = false := by
  induction h with
  | prim h hp =>
    rintro f path rfl rfl rfl rfl href
    obtain ⟨x, hx⟩ := (primExtraction_okay (b := f.dontCheckErr) (path := path)).2 hp
    exact ⟨1, _, (by rw [tv_prim href h, hx]; rfl), rfl⟩
  | method h =>
    rintro f path rfl rfl rfl rfl href
    exact ⟨1, _, tv_call href h, rfl⟩
  | time h hl =>
    rintro f path rfl rfl rfl rfl href
    obtain ⟨x, hx⟩ := decodeLayout_okay.2 hl
    exact ⟨1, _, (by rw [tv_time href h, hx]; rfl), rfl⟩
  | uuid h =>
    rintro f path rfl rfl rfl rfl href
    exact ⟨1, _, tv_uuid href h, rfl⟩
  | bytes h =>
    rintro f path rfl rfl rfl rfl href
    exact ⟨1, _, tv_bytes href h, rfl⟩
  | fixedBytes h =>
    rintro f path rfl rfl rfl rfl href
    exact ⟨1, _, tv_fixed href h, rfl⟩
  | @slice hf st l t e hfs h hb ha he ih =>
    rintro f path rfl rfl rfl rfl href
    obtain ⟨k, r', hr', hs⟩ := ih (Fld.prepare Γ true e {} false false) .index rfl (prepare_star_isPtr _ _ _ _ _) rfl
      (prepare_expr _ _ _ _ _ _) rfl
    obtain ⟨r, hr, hs⟩ := tv_slice_ok (path := path) href h hb hfs ha hr' hs
    exact ⟨k + 1, r, hr, hs⟩
  | @array hf st l t e len h hb he =>
    rintro f path rfl rfl rfl rfl href
    have hrx : (Fld.prepare Γ true e {} false false).refx = resolve Γ (Fld.prepare Γ true e {} false false).expr := rfl
    have hn : e.nullLike = false := by
      cases he with
      | prim h _ =>
        cases h with
        | base h => cases h <;> rfl
        | chain => rfl
      | time h => cases h <;> rfl
      | uuid h => cases h <;> rfl
      | bytes he _ => subst he; rfl
      | fixedBytes he _ => subst he; rfl
    have hex : (Fld.prepare Γ true e {} false false).expr = e := by rw [prepare_expr, nullLike_pointee hn]
    have : ∃ r', typedValue Γ 1 (Fld.prepare Γ true e {} false false) .index = .ok r' ∧ r'.isStarType = false ∧ r'.filled = false ∧
        (∀ a b c d e g, r'.x ≠ .slice a b c d e g) ∧ (∀ a b c d e g, r'.x ≠ .array a b c d e g) ∧ ∀ a b c d, r'.x ≠ .map a b c d := by
      cases he with
      | @prim p h hp =>
        rw [tv_prim hrx (by rw [hex]; exact h)]
        have hd : (Fld.prepare Γ true e {} false false).dontCheckErr = false := by cases e <;> rfl
        rw [hd]
        cases p <;> simp [Prim.hasJSON] at hp <;> exact ⟨_, rfl, rfl, rfl, by simp, by simp, by simp⟩
      | time h =>
        rw [tv_time hrx (by rw [hex]; exact h)]
        exact ⟨_, rfl, rfl, rfl, by simp, by simp, by simp⟩
      | uuid h =>
        rw [tv_uuid hrx (by rw [hex]; exact h)]
        exact ⟨_, rfl, rfl, rfl, by simp, by simp, by simp⟩
      | bytes _ h =>
        rw [tv_bytes hrx (by rw [hex]; exact h)]
        exact ⟨_, rfl, rfl, rfl, by simp, by simp, by simp⟩
      | fixedBytes _ h =>
        rw [tv_fixed hrx (by rw [hex]; exact h)]
        exact ⟨_, rfl, rfl, rfl, by simp, by simp, by simp⟩
    obtain ⟨r', hr', hs, hfl, h5, h6, h7⟩ := this
    obtain ⟨r, hr, hs⟩ := tv_array_ok (path := path) href h hb hn hr' hs hfl h5 h6 h7
    exact ⟨2, r, hr, hs⟩
  | map hfs h hv =>
    rintro f path rfl rfl rfl rfl href
    obtain ⟨r', hr', hs, hx⟩ := mapValue_tv (tags := f.tags) (path := .const f.tags.jsonName) hv
    obtain ⟨r, hr, hs⟩ := tv_map_ok (path := path) href h hfs.1 hfs.2 hr' hs hx
    exact ⟨2, r, hr, hs⟩

theorem rv_true {st : Bool} {l : Str} {t : TExpr} : RV Γ true st l t ↔ Readable Γ st l t := by
  constructor
  · intro h
    generalize hb : true = b at h
    induction h with
    | prim h hp => exact .prim h hp
    | method h => exact .method h
    | time h hl => exact .time h hl
    | uuid h => exact .uuid h
    | bytes h => exact .bytes h
    | fixedBytes h => exact .fixedBytes h
    | @slice hf st l t e hfs h hb' ha he ih =>
      subst hb
      cases st with
      | true => cases hfs
      | false => exact .slice h hb' ha (ih rfl)
    | array h hb' he => exact .array h hb' he
    | map hfs h hv =>
      obtain ⟨_, rfl⟩ := hfs
      exact .map h hv
  · intro h
    induction h with
    | prim h hp => exact .prim h hp
    | method h => exact .method h
    | time h hl => exact .time h hl
    | uuid h => exact .uuid h
    | bytes h => exact .bytes h
    | fixedBytes h => exact .fixedBytes h
    | slice h hb ha _ ih => exact .slice rfl h hb ha ih
    | array h hb he => exact .array h hb he
    | map h hv => exact .map ⟨rfl, rfl⟩ h hv

/-- elements of named slices and arrays -/
theorem rv_elem {l : Str} {t : TExpr} : RV Γ false false l t ↔ Readable Γ true l t := by
  constructor
  · intro h
    cases h with
    | prim h hp => exact .prim h hp
    | method h => exact .method h
    | time h hl => exact .time h hl
    | uuid h => exact .uuid h
    | bytes h => exact .bytes h
    | fixedBytes h => exact .fixedBytes h
    | slice hfs => cases hfs
    | array h hb he => exact .array h hb he
    | map hfs => cases hfs.1
  · intro h
    cases h with
    | prim h hp => exact .prim h hp
    | method h => exact .method h
    | time h hl => exact .time h hl
    | uuid h => exact .uuid h
    | bytes h => exact .bytes h
    | fixedBytes h => exact .fixedBytes h
    | array h hb he => exact .array h hb he

theorem primName_notIs {t u : TExpr} {p : Prim} (h : PrimName Γ t p) (hi : Is Γ t u) (h1 : ∀ q, u ≠ .prim q) (h2 : ∀ n, ¬ NameOf u n) :
    False := by
  have e1 := primName_final h
  rw [is_resolve hi h1 (fun m h => h2 m (h ▸ .named m)) (fun m h => h2 m (h ▸ .sel m))] at e1
  exact h1 p e1

theorem is_the_same {t u v : TExpr} (hu : Is Γ t u) (hv : Is Γ t v) (h1 : ∀ n, ¬ NameOf u n) (h2 : ∀ n, ¬ NameOf v n) : u = v := by
  rw [← is_resolves hu h1, ← is_resolves hv h2]

/-- types declared by another name -/
theorem rv_transit {l : Str} {t : TExpr} : RV Γ false true l t ↔ Readable Γ false l t ∧ ∀ v, ¬ Is Γ t (.map v) := by
  have nn : ∀ {u : TExpr}, (∀ n, u ≠ .named n) → (∀ n, u ≠ .sel n) → ∀ n, ¬ NameOf u n := by
    intro u h1 h2 n hn
    cases hn
    · exact h1 _ rfl
    · exact h2 _ rfl
  have no : ∀ {u v : TExpr}, Is Γ t u → (∀ n, u ≠ .named n) → (∀ n, u ≠ .sel n) → (∀ w, u ≠ .map w) → ¬ Is Γ t (.map v) := by
    intro u v h h1 h2 h3 h'
    exact h3 v (is_the_same h h' (nn h1 h2) (nn (by simp) (by simp)))
  constructor
  · intro h
    cases h with
    | prim h hp => exact ⟨.prim h hp, fun v hv => primName_notIs h hv (by simp) (nn (by simp) (by simp))⟩
    | method h =>
      refine ⟨.method h, fun v hv => ?_⟩
      exact not_calls_of_kind (is_resolve hv (by simp) (by simp) (by simp)) (by simp) (by simp) (by simp) _ h
    | time h hl => exact ⟨.time h hl, fun v => no h (by simp) (by simp) (by simp)⟩
    | uuid h => exact ⟨.uuid h, fun v => no h (by simp) (by simp) (by simp)⟩
    | bytes h => exact ⟨.bytes h, fun v => no h (by simp) (by simp) (by simp)⟩
    | fixedBytes h => exact ⟨.fixedBytes h, fun v => no h (by simp) (by simp) (by simp)⟩
    | slice hfs h hb ha he => exact ⟨.slice h hb ha (rv_true.1 he), fun v => no h (by simp) (by simp) (by simp)⟩
    | array h hb he => exact ⟨.array h hb he, fun v => no h (by simp) (by simp) (by simp)⟩
    | map hfs => cases hfs.1
  · rintro ⟨h, hm⟩
    cases h with
    | prim h hp => exact .prim h hp
    | method h => exact .method h
    | time h hl => exact .time h hl
    | uuid h => exact .uuid h
    | bytes h => exact .bytes h
    | fixedBytes h => exact .fixedBytes h
    | slice h hb ha he => exact .slice rfl h hb ha (rv_true.2 he)
    | array h hb he => exact .array h hb he
    | map h _ => exact absurd h (hm _)

/-! ### defaults -/

section
variable [Ext]

theorem basicLiteral_okay {p : Prim} {s : Str} :
    Okay (basicLiteral p s) ↔ ∃ v, PrimLiteral p s v := by
  constructor
  · rintro ⟨v, hv⟩
    exact ⟨v, basicLiteral_spec hv⟩
  · rintro ⟨v, h⟩
    cases h with
    | @int p text i hp h hr =>
      have h1 := goInt_iff.2 h
      have h2 := Prim.wrap_inRange hr
      cases p <;> simp [Prim.isInt] at hp <;> simp only [basicLiteral, h1, h2, if_true] <;> exact okay_ok _
    | string h =>
      simp only [basicLiteral, literalText_iff.2 h]
      exact okay_ok _
    | boolTrue => exact ⟨_, rfl⟩
    | boolFalse => exact ⟨_, rfl⟩
    | float64 h => simp only [basicLiteral, h]; exact okay_ok _
    | float32 h => simp only [basicLiteral, h]; exact okay_ok _

theorem ifDefault_okay {f : Fld} {b : Bool} :
    Okay (ifDefault f b) ↔ f.tags.dflt = [] ∨ Okay (literalFromType f.refx f.tags.dflt) := by
  unfold ifDefault
  split
  · rename_i h; simp [h]
  · rename_i h
    simp only [h, false_or]
    constructor
    · rintro ⟨v, hv⟩
      obtain ⟨w, hw, _⟩ := Out.bind_eq_ok.1 hv
      exact ⟨w, hw⟩
    · rintro ⟨w, hw⟩
      rw [hw]
      simp only [Out.ok_bind]
      split
      · exact okay_ok _
      · split <;> exact okay_ok _

theorem resolve_isPrim {t : TExpr} {p : Prim} : resolve Γ t = .prim p ↔ IsPrim Γ t p := by
  constructor
  · intro h
    rcases resolve_cases (Γ := Γ) t with ⟨q, h2, h3⟩ | ⟨_, hnp, _⟩
    · rw [h2] at h; cases h; exact h3
    · exact absurd h (hnp p)
  · intro h
    rcases resolve_cases (Γ := Γ) t with ⟨q, h2, h3⟩ | ⟨hno, _⟩
    · rw [h2]
      have e1 := denoted_prim.2 h
      have e2 := denoted_prim.2 h3
      rw [e1] at e2
      exact e2.symm
    · exact absurd h (hno p)

theorem resolve_star {t x : TExpr} : resolve Γ t = .star x ↔ Is Γ t (.star x) := by
  constructor
  · intro h
    rcases resolve_cases (Γ := Γ) t with ⟨q, h2, h3⟩ | ⟨_, _, ⟨n, _, h2⟩ | ⟨n, _, _, h2⟩ | ⟨n, _, _, _, _, h2⟩ | ⟨n, u, rfl, hd, h2⟩ | ⟨_, _, h2⟩⟩
    · rw [h2] at h; cases h
    · rw [h2] at h; cases h
    · rw [h2] at h; cases h
    · rw [h2] at h; cases h
    · rw [h2] at h; subst h; exact .named hd
    · rw [h2] at h; subst h; exact .self _
  · intro h
    refine is_resolves h ?_
    intro n hn
    cases hn

theorem default_okay {f : Fld} {b : Bool} (href : f.refx = resolve Γ f.expr) (h : ∀ x, f.refx = .star x → ∀ y, x ≠ .star y) :
    Okay (ifDefault f b) ↔ DefaultOK Γ f.expr f.tags.dflt := by
  rw [ifDefault_okay]
  constructor
  · rintro (h0 | ⟨v, hv⟩)
    · exact .none h0
    · cases hx : f.refx with
      | prim p =>
        rw [hx] at hv
        obtain ⟨w, hw⟩ := basicLiteral_okay.1 ⟨v, hv⟩
        exact .prim (.inl (resolve_isPrim.1 (href ▸ hx))) hw
      | star x =>
        rw [hx] at hv
        cases x with
        | prim p =>
          obtain ⟨w, hw⟩ := basicLiteral_okay.1 ⟨v, hv⟩
          exact .prim (.inr (resolve_star.1 (href ▸ hx))) hw
        | star y => exact absurd rfl (h _ hx y)
        | _ => simp [literalFromType] at hv
      | _ => rw [hx] at hv; simp [literalFromType] at hv
  · intro h
    cases h with
    | none h => exact .inl h
    | @prim p v ht h =>
      refine .inr ?_
      rcases ht with ht | ht
      · rw [href, resolve_isPrim.2 ht]
        exact basicLiteral_okay.2 ⟨v, h⟩
      · rw [href, resolve_star.2 ht]
        exact basicLiteral_okay.2 ⟨v, h⟩

/-! ### fields -/

omit [Ext] in
theorem readable_notStar {b : Bool} {l : Str} {t x : TExpr} (h : Readable Γ b l t) : ¬ Is Γ t (.star x) := by
  intro hs
  have e := is_resolve hs (by simp) (by simp) (by simp)
  cases h with
  | prim h => rw [primName_final h] at e; cases e
  | method h => rcases calls_final h with ⟨m, hm⟩ | ⟨m, hm⟩ | hm <;> (rw [hm] at e; cases e)
  | time h => rw [is_resolve h (by simp) (by simp) (by simp)] at e; cases e
  | uuid h => rw [is_resolve h (by simp) (by simp) (by simp)] at e; cases e
  | bytes h => rw [is_resolve h (by simp) (by simp) (by simp)] at e; cases e
  | fixedBytes h => rw [is_resolve h (by simp) (by simp) (by simp)] at e; cases e
  | slice h => rw [is_resolve h (by simp) (by simp) (by simp)] at e; cases e
  | array h => rw [is_resolve h (by simp) (by simp) (by simp)] at e; cases e
  | map h => rw [is_resolve h (by simp) (by simp) (by simp)] at e; cases e

omit [Ext] in
theorem primExtraction_notNested {b : Bool} {path : PathE} {p : Prim} {x : Extr} (h : primExtraction b path p = .ok x) :
    (∀ t, x ≠ .nestedFresh t) ∧ ∀ t, x ≠ .nestedInPlace t := by
  cases p <;> simp [primExtraction] at h <;> (try split at h) <;> subst h <;> simp

omit [Ext] in
/-- a template for what a named pointer type points to -/
theorem points_tv {f : Fld} {path : PathE} {x : TExpr} :
    (∃ k r, typedValue Γ k { f with refx := x } path = .ok r ∧ (∀ t, r.x ≠ .nestedFresh t) ∧ (∀ t, r.x ≠ .nestedInPlace t) ∧
      ((∃ p, x = .prim p) ∨ (∃ n, x = .named n) ∨ x = .time ∨ x = .uuid)) ↔ PointsOK Γ f.tags.layout x := by
  have hprim : ∀ {k p}, IsPrim Γ x p → typedValue Γ (k + 1) { f with refx := x } path = (do
      let y ← primExtraction f.dontCheckErr path p
      return ⟨y, false, false⟩) := by
    intro k p hp
    unfold typedValue
    simp only [denoted_prim.2 hp]
    rfl
  constructor
  · rintro ⟨k, r, hr, h1, h2, hx⟩
    cases k with
    | zero => simp [typedValue] at hr
    | succ k =>
      rcases hx with ⟨p, rfl⟩ | ⟨n, rfl⟩ | rfl | rfl
      · rw [hprim (.self p)] at hr
        obtain ⟨y, hy, _⟩ := Out.bind_eq_ok.1 hr
        exact .prim (primExtraction_okay.1 ⟨y, hy⟩)
      · by_cases hp : ∃ p, IsPrim Γ (.named n) p
        · obtain ⟨p, hp⟩ := hp
          rw [hprim hp] at hr
          obtain ⟨y, hy, _⟩ := Out.bind_eq_ok.1 hr
          cases hp with
          | named hd => exact .named hd (primExtraction_okay.1 ⟨y, hy⟩)
        · have : resolve2 Γ (.named n) = .named n := by
            unfold resolve2
            rw [if_neg]
            intro ho
            obtain ⟨p, hp'⟩ := isOrdinal_iff.1 ho
            exact hp ⟨p, denoted_prim.1 hp'⟩
          unfold typedValue at hr
          simp only [resolve2_def] at hr
          rw [this] at hr
          simp only [Out.ok.injEq] at hr
          subst hr
          simp only [nestedExtraction] at h1 h2
          split at h1
          · exact absurd rfl (h1 _)
          · rename_i hc
            rw [if_neg hc] at h2
            exact absurd rfl (h2 _)
      · unfold typedValue at hr
        obtain ⟨l, hl, _⟩ := Out.bind_eq_ok.1 hr
        exact .time (decodeLayout_okay.1 ⟨l, hl⟩)
      · exact .uuid
  · intro h
    cases h with
    | @prim p hp =>
      obtain ⟨y, hy⟩ := (primExtraction_okay (b := f.dontCheckErr) (path := path)).2 hp
      have hn := primExtraction_notNested hy
      exact ⟨1, _, (by rw [hprim (.self p), hy]; rfl), hn.1, hn.2, .inl ⟨_, rfl⟩⟩
    | @named n p h hp =>
      obtain ⟨y, hy⟩ := (primExtraction_okay (b := f.dontCheckErr) (path := path)).2 hp
      have hn := primExtraction_notNested hy
      exact ⟨1, _, (by rw [hprim (.named h), hy]; rfl), hn.1, hn.2, .inr (.inl ⟨_, rfl⟩)⟩
    | time hl =>
      obtain ⟨l, hl⟩ := decodeLayout_okay.2 hl
      refine ⟨1, ⟨.time f.tags.jsonName l, false, false⟩, ?_, by simp, by simp, .inr (.inr (.inl rfl))⟩
      unfold typedValue
      simp only [Env.denoted, TExpr.isOrdinal, Bool.false_eq_true, if_false, hl]
      rfl
    | uuid =>
      refine ⟨1, ⟨.uuid f.tags.jsonName, false, false⟩, ?_, by simp, by simp, .inr (.inr (.inr rfl))⟩
      unfold typedValue
      simp only [Env.denoted, TExpr.isOrdinal, Bool.false_eq_true, if_false]

omit [Ext] in
theorem tv_star {k : Nat} {f : Fld} {path : PathE} {x : TExpr} (href : f.refx = resolve Γ f.expr) (h : Is Γ f.expr (.star x)) :
    typedValue Γ (k + 1) f path = (do
      let r ← typedValue Γ k { f with refx := x } path
      return { r with filled := false, isStarType := true }) := by
  conv => lhs; unfold typedValue
  simp only [resolve2_def]
  rw [href, is_resolve h (by simp) (by simp) (by simp)]

omit [Ext] in
theorem storeOf_okay {f : Fld} {r : TVGen} (hr : r.isStarType = false) : Okay (storeOf f r) := by
  unfold storeOf
  rw [hr]
  simp only [Bool.false_eq_true, if_false]
  split
  · exact okay_ok _
  · split <;> exact okay_ok _

omit [Ext] in
theorem storeOf_star {f : Fld} {r : TVGen} (hr : r.isStarType = true) : Okay (storeOf f r) ↔
    ∃ x, f.refx = .star x ∧ ((∃ p, x = .prim p) ∨ (∃ n, x = .named n) ∨ x = .time ∨ x = .uuid) ∧ (∀ t, r.x ≠ .nestedFresh t) ∧
      ∀ t, r.x ≠ .nestedInPlace t := by
  unfold storeOf
  rw [hr]
  simp only [if_true]
  cases hx : f.refx with
  | star x =>
    generalize r.x = y
    cases x <;> cases y <;> simp
  | _ => simp

theorem typedValue_grows (f : Fld) (path : PathE) : Grows fun k => typedValue Γ k f path := fun k => typedValue_mono Γ k f path

theorem typedValue_starType {k : Nat} {f : Fld} {path : PathE} {r : TVGen} (hr : typedValue Γ k f path = .ok r)
    (href : f.refx = resolve Γ f.expr) (hs : r.isStarType = true) :
    ∃ x k' r', Is Γ f.expr (.star x) ∧ typedValue Γ k' { f with refx := x } path = .ok r' ∧ r.x = r'.x := by
  by_cases h : ∃ x, Is Γ f.expr (.star x)
  · obtain ⟨x, hx⟩ := h
    cases k with
    | zero => simp [typedValue] at hr
    | succ k =>
      rw [tv_star href hx] at hr
      obtain ⟨r', hr', he⟩ := Out.bind_eq_ok.1 hr
      simp only [Out.pure_eq, Out.ok.injEq] at he
      exact ⟨x, k, r', hx, hr', by rw [← he]⟩
  · exfalso
    cases k with
    | zero => simp [typedValue] at hr
    | succ k =>
      have hk := kind_final Γ f.expr
      have hne : ∀ x, resolve2 Γ (resolve Γ f.expr) ≠ .star x := by
        intro x hx
        rw [hx] at hk
        cases hk with
        | call _ hT => rcases hT with ⟨_, hT⟩ | ⟨_, hT⟩ | hT <;> cases hT
        | is h' => exact h ⟨x, h'⟩
      unfold typedValue at hr
      simp only [resolve2_def] at hr
      rw [href] at hr
      split at hr
      · obtain ⟨y, _, he⟩ := Out.bind_eq_ok.1 hr
        simp only [Out.pure_eq, Out.ok.injEq] at he
        rw [← he] at hs; cases hs
      · simp only [Out.ok.injEq] at hr
        rw [← hr] at hs; cases hs
      · simp only [Out.ok.injEq] at hr
        rw [← hr] at hs; cases hs
      · rename_i x hx; exact hne x hx
      · obtain ⟨y, _, he⟩ := Out.bind_eq_ok.1 hr
        simp only [Out.pure_eq, Out.ok.injEq] at he
        rw [← he] at hs; cases hs
      · simp only [Out.ok.injEq] at hr
        rw [← hr] at hs; cases hs
      · simp only [Out.ok.injEq] at hr
        rw [← hr] at hs; cases hs
      · split at hr
        · simp only [Out.ok.injEq] at hr
          rw [← hr] at hs; cases hs
        · split at hr
          · cases hr
          · split at hr
            · cases hr
            · obtain ⟨y, _, he⟩ := Out.bind_eq_ok.1 hr
              split at he
              · cases he
              · split at he
                · cases he
                · simp only [Out.pure_eq, Out.ok.injEq] at he
                  rw [← he] at hs; cases hs
      · split at hr
        · simp only [Out.ok.injEq] at hr
          rw [← hr] at hs; cases hs
        · split at hr
          · cases hr
          · obtain ⟨y, _, he⟩ := Out.bind_eq_ok.1 hr
            split at he
            · cases he
            · split at he <;> first
                | cases he; done
                | (simp only [Out.pure_eq, Out.ok.injEq] at he
                   rw [← he] at hs; cases hs)
      · split at hr
        · cases hr
        · obtain ⟨y, _, he⟩ := Out.bind_eq_ok.1 hr
          split at he
          · cases he
          · split at he <;> first
              | cases he; done
              | (simp only [Out.pure_eq, Out.ok.injEq] at he
                 rw [← he] at hs; cases hs)

theorem genFieldFill_iff (hna : NoAnonymous Γ) {fd : FieldDecl} (ha : fd.typ.anon = false) :
    Even (fun k => genFieldFill Γ k fd) ↔ ReadableField Γ fd := by
  by_cases hn : fd.tags.jsonName = str "-"
  · refine ⟨fun _ => .skipped hn, fun _ => ⟨0, ?_⟩⟩
    simp only [genFieldFill, hn, if_true]
    exact okay_ok _
  · have hrx : (Fld.prepare Γ true fd.typ fd.tags false false).refx = resolve Γ (Fld.prepare Γ true fd.typ fd.tags false false).expr := rfl
    have hex : (Fld.prepare Γ true fd.typ fd.tags false false).expr = pointee fd.typ := prepare_expr _ _ _ _ _ _
    have hst : (Fld.prepare Γ true fd.typ fd.tags false false).isStar = fd.typ.isPtr := prepare_star_isPtr _ _ _ _ _
    have hhf : (Fld.prepare Γ true fd.typ fd.tags false false).hasField = true := rfl
    have htg : (Fld.prepare Γ true fd.typ fd.tags false false).tags = fd.tags := rfl
    have hgen : ∀ k, Okay (genFieldFill Γ k fd) ↔ ∃ r, typedValue Γ k (Fld.prepare Γ true fd.typ fd.tags false false) (.const fd.tags.jsonName) = .ok r ∧
        Okay (storeOf (Fld.prepare Γ true fd.typ fd.tags false false) r) ∧
        Okay (ifDefault (Fld.prepare Γ true fd.typ fd.tags false false) r.isStarType) := by
      intro k
      simp only [genFieldFill, hn, if_false, okay_bind]
      constructor
      · rintro ⟨r, hr, st, hst, d, hd, _⟩
        exact ⟨r, hr, ⟨st, hst⟩, ⟨d, hd⟩⟩
      · rintro ⟨r, hr, ⟨st, hst⟩, ⟨d, hd⟩⟩
        exact ⟨r, hr, st, hst, d, hd, okay_ok _⟩
    generalize Fld.prepare Γ true fd.typ fd.tags false false = f at *
    constructor
    · rintro ⟨k, hk⟩
      obtain ⟨r, hr, hs, hd⟩ := (hgen k).1 hk
      cases hb : r.isStarType with
      | false =>
        have h1 := tv_rv hna hr hrx (by rw [hex]; exact anon_of_pointee ha) hb
        rw [hex, hhf, hst, htg] at h1
        have h2 := rv_true.1 h1
        refine .plain h2 ?_
        have := (default_okay (Γ := Γ) hrx (fun x hx => absurd (resolve_star.1 (hrx ▸ hx)) (by rw [hex]; exact readable_notStar h2))).1 hd
        rw [hex, htg] at this
        exact this
      | true =>
        obtain ⟨x, k', r', hx, hr', he⟩ := typedValue_starType hr hrx hb
        obtain ⟨y, hy, hk, h1, h2⟩ := (storeOf_star hb).1 hs
        have hxy : x = y := by
          have := resolve_star.2 hx
          rw [← hrx, hy] at this
          cases this; rfl
        subst hxy
        rw [he] at h1 h2
        have hp := points_tv.1 ⟨k', r', hr', h1, h2, hk⟩
        rw [htg] at hp
        have hd' := (default_okay (Γ := Γ) hrx (fun z hz y hy => by
          rw [hrx, resolve_star.2 hx] at hz
          cases hz
          subst hy
          cases hp)).1 hd
        rw [hex] at hx hd'
        rw [htg] at hd'
        exact .namedPtr hx hp hd'
    · intro h
      cases h with
      | skipped h => exact absurd h hn
      | plain h hd =>
        obtain ⟨k, r, hr, hs⟩ := rv_tv (rv_true.2 h) f (.const fd.tags.jsonName) hhf hst (by rw [htg]) hex hrx
        refine ⟨k, (hgen k).2 ⟨r, hr, storeOf_okay hs, ?_⟩⟩
        rw [default_okay (Γ := Γ) hrx (fun x hx => absurd (resolve_star.1 (hrx ▸ hx)) (by rw [hex]; exact readable_notStar h)), hex, htg]
        exact hd
      | @namedPtr x h hx hd =>
        have hx' := hx
        rw [← htg] at hx'
        obtain ⟨k, r, hr, h1, h2, hk⟩ := (points_tv (path := .const fd.tags.jsonName)).2 hx'
        refine ⟨k + 1, (hgen (k + 1)).2 ⟨{ r with filled := false, isStarType := true }, ?_, ?_, ?_⟩⟩
        · rw [tv_star hrx (by rw [hex]; exact h), hr]; rfl
        · refine (storeOf_star rfl).2 ⟨x, ?_, hk, h1, h2⟩
          rw [hrx, hex]
          exact resolve_star.2 h
        · rw [default_okay (Γ := Γ) hrx (fun z hz y hy => by
            rw [hrx, hex, resolve_star.2 h] at hz
            cases hz
            subst hy
            cases hx), hex, htg]
          exact hd

/-! ### declarations -/

omit [Ext] in
/-- templates of values of maps -/
theorem mapValue_iff (hna : NoAnonymous Γ) {v : TExpr} (ha : v.anon = false) {tags : Tags} {path : PathE} :
    (∃ k r, typedValue Γ k (Fld.prepare Γ false v tags false true) path = .ok r ∧ r.isStarType = false ∧ r.x.simple = true) ↔
      MapValue Γ v := by
  constructor
  · rintro ⟨k, r, hr, hs, hx⟩
    have := tv_rv hna hr (prepare_resolve _ _ _ _ _ _) (by rw [prepare_expr]; exact anon_of_pointee ha) hs
    have hrx : (Fld.prepare Γ false v tags false true).refx = resolve Γ (Fld.prepare Γ false v tags false true).expr := rfl
    cases k with
    | zero => simp [typedValue] at hr
    | succ k =>
      have hex : (Fld.prepare Γ false v tags false true).expr = pointee v := prepare_expr _ _ _ _ _ _
      cases this with
      | prim h hp => exact .prim (by rw [← hex]; exact h) hp
      | method h => exact .method (by rw [← hex]; exact h)
      | time h _ =>
        rw [tv_time hrx h] at hr
        obtain ⟨_, _, hr⟩ := Out.bind_eq_ok.1 hr
        simp only [Out.pure_eq, Out.ok.injEq] at hr
        subst hr
        simp [Extr.simple] at hx
      | uuid h =>
        rw [tv_uuid hrx h] at hr
        simp only [Out.ok.injEq] at hr
        subst hr
        simp [Extr.simple] at hx
      | bytes h =>
        rw [tv_bytes hrx h] at hr
        simp only [Out.ok.injEq] at hr
        subst hr
        simp [Extr.simple] at hx
      | fixedBytes h =>
        rw [tv_fixed hrx h] at hr
        simp only [Out.ok.injEq] at hr
        subst hr
        simp [Extr.simple] at hx
      | slice _ h hb _ _ =>
        obtain ⟨_, _, ⟨a, b, c, d, e, g, hx'⟩, _⟩ := tv_slice hrx h hb hr
        rw [hx'] at hx; simp [Extr.simple] at hx
      | array h hb _ =>
        obtain ⟨_, ⟨a, b, c, d, e, g, hx'⟩, _⟩ := tv_array hrx h hb hr
        rw [hx'] at hx; simp [Extr.simple] at hx
      | map _ h _ =>
        obtain ⟨_, _, ⟨a, b, c, d, hx'⟩, _⟩ := tv_map hrx h hr
        rw [hx'] at hx; simp [Extr.simple] at hx
  · intro h
    obtain ⟨r, hr⟩ := mapValue_tv (tags := tags) (path := path) h
    exact ⟨1, r, hr⟩

omit [Ext] in
theorem primName_nestedFresh {k : Nat} {f : Fld} {path : PathE} {r : TVGen} (hr : typedValue Γ k f path = .ok r)
    (href : f.refx = resolve Γ f.expr) {p : Prim} (h : PrimName Γ f.expr p) (t : TExpr) : r.x ≠ .nestedFresh t := by
  cases k with
  | zero => simp [typedValue] at hr
  | succ k =>
    rw [tv_prim href h] at hr
    obtain ⟨x, hx, he⟩ := Out.bind_eq_ok.1 hr
    simp only [Out.pure_eq, Out.ok.injEq] at he
    rw [← he]
    exact (primExtraction_notNested hx).1 t

/-- what the end of the map case checks -/
def mapTail (el : Fld) (x : Extr) : Out FillIR :=
  if el.isStar then
    match el.expr with
    | .prim .int | .prim .int64 | .prim .uint | .prim .uint64 | .prim .float64
    | .prim .bool => return .map true el.expr x
    | .prim _ => .unsupp
    | _ => match x with
      | .nestedFresh _ => return .map true el.expr x
      | _ => .unsupp
  else return .map false el.expr x

theorem genFill_map (k : Nat) (v : TExpr) : Okay (genFill Γ k (.alias (.map v))) ↔
    ∃ r, typedValue Γ k (Fld.prepare Γ false v {} false true) .index = .ok r ∧ r.isStarType = false ∧ r.x.simple = true ∧
      Okay (mapTail (Fld.prepare Γ false v {} false true) r.x) := by
  simp only [genFill, okay_bind]
  refine exists_congr fun r => and_congr_right fun _ => ?_
  cases r.isStarType with
  | true => simp
  | false =>
    simp only [Bool.false_eq_true, if_false, true_and]
    generalize r.x = x
    cases x <;> simp [Extr.simple] <;> exact Iff.rfl

theorem mapTail_plain {v : TExpr} (h : v.isPtr = false) (x : Extr) : Okay (mapTail (Fld.prepare Γ false v {} false true) x) := by
  have : (Fld.prepare Γ false v {} false true).isStar = false := by rw [prepare_star_isPtr, h]
  unfold mapTail
  rw [this]
  exact okay_ok _

theorem genFill_map_iff (hna : NoAnonymous Γ) {v : TExpr} (ha : v.anon = false) :
    Even (fun k => genFill Γ k (.alias (.map v))) ↔ ReadableDecl Γ (.alias (.map v)) := by
  have hrx : (Fld.prepare Γ false v {} false true).refx = resolve Γ (Fld.prepare Γ false v {} false true).expr := rfl
  have hex : (Fld.prepare Γ false v {} false true).expr = pointee v := prepare_expr _ _ _ _ _ _
  constructor
  · rintro ⟨k, hk⟩
    obtain ⟨r, hr, hs, hx, ht⟩ := (genFill_map k v).1 hk
    have hm := (mapValue_iff hna ha).1 ⟨k, r, hr, hs, hx⟩
    cases hp : v.isPtr with
    | false => exact .map hp hm
    | true =>
      obtain ⟨y, rfl⟩ : ∃ y, v = .star y := ⟨_, isPtr_true hp⟩
      refine .mapPtr ?_
      have hst : (Fld.prepare Γ false (.star y) {} false true).isStar = true := rfl
      have hey : (Fld.prepare Γ false (.star y) {} false true).expr = y := rfl
      cases hm with
      | method h => exact .inr ⟨_, h⟩
      | @prim p h _ =>
        change PrimName Γ y p at h
        have hnf := primName_nestedFresh hr hrx (by rw [hex]; exact h)
        unfold mapTail at ht
        rw [hst, hey] at ht
        simp only [if_true] at ht
        left
        split at ht <;> first
          | (simp; done)
          | (simp at ht; done)
          | (split at ht
             · rename_i hx; exact absurd hx (hnf _)
             · simp at ht)
  · intro h
    cases h with
    | map hp h =>
      obtain ⟨k, r, hr, hs, hx⟩ := (mapValue_iff (tags := {}) (path := .index) hna ha).2 h
      exact ⟨k, (genFill_map k v).2 ⟨r, hr, hs, hx, mapTail_plain hp _⟩⟩
    | @mapPtr y h =>
      have hst : (Fld.prepare Γ false (.star y) {} false true).isStar = true := rfl
      have hey : (Fld.prepare Γ false (.star y) {} false true).expr = y := rfl
      rcases h with h | ⟨n, h⟩
      · have hm : MapValue Γ (.star y) := by
          simp only [List.mem_cons, List.mem_singleton, List.not_mem_nil, or_false] at h
          rcases h with rfl | rfl | rfl | rfl | rfl | rfl <;> exact .prim (.base (.self _)) (by simp [Prim.hasJSON])
        obtain ⟨k, r, hr, hs, hx⟩ := (mapValue_iff (tags := {}) (path := .index) hna ha).2 hm
        refine ⟨k, (genFill_map k _).2 ⟨r, hr, hs, hx, ?_⟩⟩
        unfold mapTail
        rw [hst, hey]
        simp only [if_true]
        simp only [List.mem_cons, List.mem_singleton, List.not_mem_nil, or_false] at h
        rcases h with rfl | rfl | rfl | rfl | rfl | rfl <;> exact okay_ok _
      · have hr := tv_call (k := 0) (path := .index) hrx (by rw [hex]; exact h)
        refine ⟨1, (genFill_map 1 _).2 ⟨_, hr, rfl, ?_, ?_⟩⟩
        · unfold nestedExtraction
          split <;> rfl
        · unfold mapTail
          rw [hst, hey]
          simp only [if_true, nestedExtraction, Bool.or_true]
          cases h <;> simp [Fld.prepare]
    | transit ht => rcases ht with ⟨_, ht⟩ | ⟨_, ht⟩ | ht | ht <;> cases ht

omit [Ext] in
/-- elements of named slices and arrays are not themselves extracted as a list or a map -/
theorem elem_tv {k : Nat} {f : Fld} {path : PathE} {r : TVGen} {l : Str} (hr : typedValue Γ k f path = .ok r)
    (href : f.refx = resolve Γ f.expr) (h : RV Γ false false l f.expr) :
    (∀ a b c d e g, r.x ≠ .slice a b c d e g) ∧ ∀ a b c d, r.x ≠ .map a b c d := by
  cases k with
  | zero => simp [typedValue] at hr
  | succ k =>
    cases h with
    | @prim _ _ _ _ p h _ =>
      rw [tv_prim href h] at hr
      obtain ⟨x, hx, he⟩ := Out.bind_eq_ok.1 hr
      simp only [Out.pure_eq, Out.ok.injEq] at he
      rw [← he]
      cases p <;> simp [primExtraction] at hx <;> (try split at hx) <;> subst hx <;> simp
    | method h =>
      rw [tv_call href h] at hr
      simp only [Out.ok.injEq] at hr
      rw [← hr]
      unfold nestedExtraction
      split <;> simp
    | time h _ =>
      rw [tv_time href h] at hr
      obtain ⟨x, hx, he⟩ := Out.bind_eq_ok.1 hr
      simp only [Out.pure_eq, Out.ok.injEq] at he
      rw [← he]; simp
    | uuid h =>
      rw [tv_uuid href h] at hr
      simp only [Out.ok.injEq] at hr
      rw [← hr]; simp
    | bytes h =>
      rw [tv_bytes href h] at hr
      simp only [Out.ok.injEq] at hr
      rw [← hr]; simp
    | fixedBytes h =>
      rw [tv_fixed href h] at hr
      simp only [Out.ok.injEq] at hr
      rw [← hr]; simp
    | slice hfs => cases hfs
    | array h hb he =>
      obtain ⟨_, ⟨a, b, c, d, e, g, hx⟩, _⟩ := tv_array href h hb hr
      rw [hx]; simp
    | map hfs => cases hfs.1

theorem genFill_list_iff (hna : NoAnonymous Γ) {e : TExpr} (ha : e.anon = false) (hb : e ≠ .prim .byte) (mk : Extr → FillIR) :
    (∃ k, Okay (if (Fld.prepare Γ false e {} false true).isStar then Out.unsupp else do
      let r ← typedValue Γ k (Fld.prepare Γ false e {} false true) .index
      if r.isStarType then Out.unsupp
      else match r.x with
        | .slice _ _ _ _ _ _ | .map _ _ _ _ => Out.unsupp
        | x => return mk x)) ↔ Readable Γ true [] e := by
  have hrx : (Fld.prepare Γ false e {} false true).refx = resolve Γ (Fld.prepare Γ false e {} false true).expr := rfl
  have hex : (Fld.prepare Γ false e {} false true).expr = pointee e := prepare_expr _ _ _ _ _ _
  have hst : (Fld.prepare Γ false e {} false true).isStar = e.isPtr := prepare_star_isPtr _ _ _ _ _
  have hhf : (Fld.prepare Γ false e {} false true).hasField = false := rfl
  have htg : (Fld.prepare Γ false e {} false true).tags.layout = [] := rfl
  rw [← rv_elem]
  cases hp : e.isPtr with
  | true =>
    rw [hst, hp]
    simp only [if_true]
    obtain ⟨y, rfl⟩ : ∃ y, e = .star y := ⟨_, isPtr_true hp⟩
    constructor
    · rintro ⟨k, hk⟩; simp at hk
    · intro h
      exact absurd (.self _) (readable_notStar (rv_elem.1 h))
  | false =>
    have hpe : pointee e = e := by cases e <;> first | rfl | cases hp
    rw [hpe] at hex
    rw [hst, hp]
    simp only [Bool.false_eq_true, if_false, okay_bind]
    constructor
    · rintro ⟨k, r, hr, h⟩
      cases hs : r.isStarType with
      | true => rw [hs] at h; simp at h
      | false =>
        have := tv_rv hna hr hrx (by rw [hex]; exact ha) hs
        rw [hhf, hst, hp, htg, hex] at this
        exact this
    · intro h
      obtain ⟨k, r, hr, hs⟩ := rv_tv h (Fld.prepare Γ false e {} false true) .index hhf (by rw [hst, hp]) htg hex hrx
      refine ⟨k, r, hr, ?_⟩
      rw [hs]
      simp only [Bool.false_eq_true, if_false]
      have hx := elem_tv hr hrx (l := []) (by rw [hex]; exact h)
      split
      · rename_i hx'; exact absurd hx' (hx.1 _ _ _ _ _ _)
      · rename_i hx'; exact absurd hx' (hx.2 _ _ _ _)
      · exact okay_ok _

theorem genFill_other {t : TExpr} (ht : (∃ p, t = .prim p) ∨ (∃ n, NameOf t n) ∨ t = .time ∨ t = .uuid) (k : Nat) :
    genFill Γ k (.alias t) = (do
      let r ← typedValue Γ k (Fld.prepare Γ false t {} true false) (.const (str "(root)"))
      if r.isStarType then Out.unsupp
      else return .transit t r.x) := by
  rcases ht with ⟨p, rfl⟩ | ⟨n, ⟨⟩⟩ | rfl | rfl <;> rfl

theorem genFill_transit_iff (hna : NoAnonymous Γ) {t : TExpr} (ha : t.anon = false)
    (ht : (∃ p, t = .prim p) ∨ (∃ n, NameOf t n) ∨ t = .time ∨ t = .uuid) :
    Even (fun k => genFill Γ k (.alias t)) ↔ Readable Γ false [] t ∧ ∀ v, ¬ Is Γ t (.map v) := by
  have hpe : pointee t = t := by rcases ht with ⟨p, rfl⟩ | ⟨n, ⟨⟩⟩ | rfl | rfl <;> rfl
  have hst : (Fld.prepare Γ false t {} true false).isStar = true := by rcases ht with ⟨p, rfl⟩ | ⟨n, ⟨⟩⟩ | rfl | rfl <;> rfl
  have hrx : (Fld.prepare Γ false t {} true false).refx = resolve Γ (Fld.prepare Γ false t {} true false).expr := rfl
  have hex : (Fld.prepare Γ false t {} true false).expr = t := by rw [prepare_expr, hpe]
  have hhf : (Fld.prepare Γ false t {} true false).hasField = false := rfl
  have htg : (Fld.prepare Γ false t {} true false).tags.layout = [] := rfl
  rw [← rv_transit]
  unfold Even
  simp only [genFill_other ht, okay_bind]
  constructor
  · rintro ⟨k, r, hr, h⟩
    cases hs : r.isStarType with
    | true => rw [hs] at h; simp at h
    | false =>
      have := tv_rv hna hr hrx (by rw [hex]; exact ha) hs
      rw [hhf, hst, htg, hex] at this
      exact this
  · intro h
    obtain ⟨k, r, hr, hs⟩ := rv_tv h (Fld.prepare Γ false t {} true false) (.const (str "(root)")) hhf hst htg hex hrx
    refine ⟨k, r, hr, ?_⟩
    rw [hs]
    exact okay_ok _

/-- A decoder is generated exactly for the declarations listed in the specification. -/
theorem genFill_iff (hna : NoAnonymous Γ) {d : Decl} (ha : ∀ t ∈ d.types, t.anon = false) :
    Even (fun k => genFill Γ k d) ↔ ReadableDecl Γ d := by
  cases d with
  | struct strict fields =>
    have h1 : Even (fun k => genFill Γ k (.struct strict fields)) ↔ Even (fun k => genFields Γ k fields) := by
      refine even_congr fun k => ?_
      simp only [genFill, okay_bind]
      exact ⟨fun ⟨x, hx, _⟩ => ⟨x, hx⟩, fun ⟨x, hx⟩ => ⟨x, hx, okay_ok _⟩⟩
    rw [h1, even_list (f := fun k fd => genFieldFill Γ k fd) (F := fun k fds => genFields Γ k fds)
      (fun fd k => genFieldFill_mono Γ k fd) (fun _ => rfl) (fun _ _ _ => rfl)]
    constructor
    · intro h
      exact .struct fun fd hfd => (genFieldFill_iff hna (ha _ (List.mem_map_of_mem hfd))).1 (h fd hfd)
    · rintro (⟨h⟩)
      exact fun fd hfd => (genFieldFill_iff hna (ha _ (List.mem_map_of_mem hfd))).2 (h fd hfd)
  | «alias» t =>
    have hat : t.anon = false := ha t (by simp [Decl.types])
    have tr : ∀ {t : TExpr}, t.anon = false → ((∃ p, t = .prim p) ∨ (∃ n, NameOf t n) ∨ t = .time ∨ t = .uuid) →
        (Even (fun k => genFill Γ k (.alias t)) ↔ ReadableDecl Γ (.alias t)) := by
      intro t hat ht
      rw [genFill_transit_iff hna hat ht]
      constructor
      · rintro ⟨h, hm⟩
        exact .transit ht h hm
      · intro h
        cases h with
        | transit _ h hm => exact ⟨h, hm⟩
        | _ => rcases ht with ⟨_, ht⟩ | ⟨_, ht⟩ | ht | ht <;> cases ht
    cases t with
    | map v => exact genFill_map_iff hna (by simpa [TExpr.anon] using hat)
    | prim p => exact tr hat (.inl ⟨p, rfl⟩)
    | named n => exact tr hat (.inr (.inl ⟨n, .named n⟩))
    | sel n => exact tr hat (.inr (.inl ⟨n, .sel n⟩))
    | time => exact tr hat (.inr (.inr (.inl rfl)))
    | uuid => exact tr hat (.inr (.inr (.inr rfl)))
    | structT => simp [TExpr.anon] at hat
    | star u =>
      constructor
      · rintro ⟨k, hk⟩; simp [genFill] at hk
      · intro h
        cases h with
        | transit ht => rcases ht with ⟨_, ht⟩ | ⟨_, ht⟩ | ht | ht <;> cases ht
    | slice e =>
      have hae : e.anon = false := by simpa [TExpr.anon] using hat
      by_cases hb : e = .prim .byte
      · subst hb
        exact ⟨fun _ => .bytes, fun _ => ⟨0, okay_ok _⟩⟩
      · have hg : Even (fun k => genFill Γ k (.alias (.slice e))) ↔ Readable Γ true [] e := by
          rw [← genFill_list_iff hna hae hb (fun x => .list none e x)]
          simp only [Even, genFill, isByte_ne hb, Bool.false_eq_true, if_false]
          exact Iff.rfl
        rw [hg]
        constructor
        · intro h; exact .slice hb h
        · intro h
          cases h with
          | bytes => exact absurd rfl hb
          | slice _ h => exact h
          | transit ht => rcases ht with ⟨_, ht⟩ | ⟨_, ht⟩ | ht | ht <;> cases ht
    | array len e =>
      have hae : e.anon = false := by simpa [TExpr.anon] using hat
      by_cases hb : e = .prim .byte
      · subst hb
        exact ⟨fun _ => .fixedBytes len, fun _ => ⟨0, okay_ok _⟩⟩
      · have hg : Even (fun k => genFill Γ k (.alias (.array len e))) ↔ Readable Γ true [] e := by
          rw [← genFill_list_iff hna hae hb (fun x => .list (some len) e x)]
          simp only [Even, genFill, isByte_ne hb, Bool.false_eq_true, if_false]
          exact Iff.rfl
        rw [hg]
        constructor
        · intro h; exact .array hb h
        · intro h
          cases h with
          | fixedBytes => exact absurd rfl hb
          | array _ h => exact h
          | transit ht => rcases ht with ⟨_, ht⟩ | ⟨_, ht⟩ | ht | ht <;> cases ht

end

end VJ
