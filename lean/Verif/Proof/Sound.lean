import Verif.Proof.GoText
import Verif.Proof.Tokens
import Verif.Proof.Fields
import Verif.Proof.Codecs

/-!
# Emitted decoding code, when it succeeds, does what `Decodes` says
-/

set_option linter.unusedSectionVars false
set_option linter.unusedSimpArgs false

namespace VJ

/-! ### resolution of type names -/

/-- what the field factory resolves a type expression to -/
def resolve (Γ : Env) (e : TExpr) : TExpr :=
  if (Γ.denoted e).isOrdinal then Γ.denoted e
  else match e with
    | .named n => Γ.denotedIdent n (.named n)
    | t => t

/-- what `typedValue` resolves the result to -/
def resolve2 (Γ : Env) (t : TExpr) : TExpr := if (Γ.denoted t).isOrdinal then Γ.denoted t else t

theorem resolve2_def (Γ : Env) (t : TExpr) :
    (if (Γ.denoted t).isOrdinal = true then Γ.denoted t else t) = resolve2 Γ t := rfl

theorem prepare_resolve (Γ : Env) (b : Bool) (t : TExpr) (tags : Tags) (s d : Bool) :
    (Fld.prepare Γ b t tags s d).refx = resolve Γ (Fld.prepare Γ b t tags s d).expr := rfl

theorem prepare_expr (Γ : Env) (b : Bool) (t : TExpr) (tags : Tags) (s d : Bool) :
    (Fld.prepare Γ b t tags s d).expr = pointee t := by cases t <;> rfl

theorem prepare_isStar (Γ : Env) (b : Bool) (t : TExpr) (tags : Tags) (d : Bool) :
    ((Fld.prepare Γ b t tags false d).isStar = true ∧ t = .star (pointee t)) ∨
    ((Fld.prepare Γ b t tags false d).isStar = false ∧ t = pointee t ∧ ∀ u, t ≠ .star u) := by
  cases t <;> simp [Fld.prepare, pointee]

theorem isOrdinal_iff {t : TExpr} : t.isOrdinal = true ↔ ∃ p, t = .prim p := by
  cases t <;> simp [TExpr.isOrdinal]

theorem isByte_iff {t : TExpr} : t.isByte = true ↔ t = .prim .byte := by
  cases t with
  | prim p => cases p <;> simp [TExpr.isByte]
  | _ => simp [TExpr.isByte]

theorem denoted_prim {Γ : Env} {e : TExpr} {p : Prim} : Γ.denoted e = .prim p ↔ IsPrim Γ e p := by
  constructor
  · intro h
    cases e with
    | prim q => simp [Env.denoted] at h; subst h; exact .self _
    | named n =>
      simp only [Env.denoted, Env.denotedIdent] at h
      split at h
      · rename_i d hd
        cases d with
        | struct => simp [Decl.spec] at h
        | alias t => simp only [Decl.spec] at h; subst h; exact .named hd
      · cases h
    | sel n =>
      simp only [Env.denoted, Env.denotedIdent] at h
      split at h
      · rename_i d hd
        cases d with
        | struct => simp [Decl.spec] at h
        | alias t => simp only [Decl.spec] at h; subst h; exact .sel hd
      · cases h
    | _ => simp [Env.denoted] at h
  · intro h
    cases h with
    | self p => rfl
    | named h => simp [Env.denoted, Env.denotedIdent, h, Decl.spec]
    | sel h => simp [Env.denoted, Env.denotedIdent, h, Decl.spec]

/-- Every way a type expression can resolve. -/
theorem resolve_cases {Γ : Env} (e : TExpr) :
    (∃ p, resolve Γ e = .prim p ∧ IsPrim Γ e p) ∨
    ((∀ p, ¬ IsPrim Γ e p) ∧ (∀ p, resolve Γ e ≠ .prim p) ∧
      ((∃ n, e = .sel n ∧ resolve Γ e = .sel n) ∨
       (∃ n, e = .named n ∧ Γ.decl n = none ∧ resolve Γ e = .named n) ∨
       (∃ n st fs, e = .named n ∧ Γ.decl n = some (.struct st fs) ∧ resolve Γ e = .structT) ∨
       (∃ n u, e = .named n ∧ Γ.decl n = some (.alias u) ∧ resolve Γ e = u) ∨
       ((∀ n, e ≠ .named n) ∧ (∀ n, e ≠ .sel n) ∧ resolve Γ e = e))) := by
  by_cases hp : ∃ p, IsPrim Γ e p
  · obtain ⟨p, hp⟩ := hp
    have h := denoted_prim.2 hp
    exact Or.inl ⟨p, by simp [resolve, h, TExpr.isOrdinal], hp⟩
  · have hno : (Γ.denoted e).isOrdinal = false := by
      cases ho : (Γ.denoted e).isOrdinal with
      | false => rfl
      | true =>
        obtain ⟨p, h⟩ := isOrdinal_iff.1 ho
        exact absurd ⟨p, denoted_prim.1 h⟩ hp
    have hnp : ∀ p, ¬ IsPrim Γ e p := fun p h => hp ⟨p, h⟩
    have hr : resolve Γ e = match (generalizing := false) e with
        | .named n => Γ.denotedIdent n (.named n)
        | t => t := by
      unfold resolve; rw [if_neg (by rw [hno]; exact Bool.false_ne_true)]
    have hshape : (∃ n, e = .sel n ∧ resolve Γ e = .sel n) ∨
       (∃ n, e = .named n ∧ Γ.decl n = none ∧ resolve Γ e = .named n) ∨
       (∃ n st fs, e = .named n ∧ Γ.decl n = some (.struct st fs) ∧ resolve Γ e = .structT) ∨
       (∃ n u, e = .named n ∧ Γ.decl n = some (.alias u) ∧ resolve Γ e = u) ∨
       ((∀ n, e ≠ .named n) ∧ (∀ n, e ≠ .sel n) ∧ resolve Γ e = e) := by
      rw [hr]
      cases e with
      | sel n => exact Or.inl ⟨n, rfl, rfl⟩
      | named n =>
        right
        cases hd : Γ.decl n with
        | none => exact Or.inl ⟨n, rfl, hd, by simp [Env.denotedIdent, hd]⟩
        | some d =>
          right
          cases d with
          | struct st fs => exact Or.inl ⟨n, st, fs, rfl, hd, by simp [Env.denotedIdent, hd, Decl.spec]⟩
          | alias u => exact Or.inr (Or.inl ⟨n, u, rfl, hd, by simp [Env.denotedIdent, hd, Decl.spec]⟩)
      | _ => exact Or.inr (Or.inr (Or.inr (Or.inr ⟨by simp, by simp, rfl⟩)))
    refine Or.inr ⟨hnp, ?_, hshape⟩
    intro p hp
    rcases hshape with ⟨n, rfl, h⟩ | ⟨n, rfl, _, h⟩ | ⟨n, _, _, rfl, _, h⟩ | ⟨n, u, rfl, hd, h⟩ | ⟨_, _, h⟩
    · rw [h] at hp; cases hp
    · rw [h] at hp; cases hp
    · rw [h] at hp; cases hp
    · rw [h] at hp; subst hp; exact hnp p (.named hd)
    · rw [h] at hp; subst hp; exact hnp p (.self p)

/-- the kinds of type after resolution -/
inductive Kind (Γ : Env) (e : TExpr) : TExpr → Prop
  | prim {p : Prim} (h : PrimName Γ e p) : Kind Γ e (.prim p)
  | call {n : Nat} {T : TExpr} (h : Calls Γ e n) (hT : (∃ m, T = .named m) ∨ (∃ m, T = .sel m) ∨ T = .structT) : Kind Γ e T
  | structLit (h : e = .structT) : Kind Γ e .structT
  | is {T : TExpr} (h : Is Γ e T) (h1 : ∀ p, T ≠ .prim p) (h2 : ∀ m, T ≠ .named m) (h3 : ∀ m, T ≠ .sel m)
      (h4 : T ≠ .structT) : Kind Γ e T

theorem resolve2_prim {Γ : Env} {t : TExpr} {p : Prim} (h : resolve2 Γ t = .prim p) : IsPrim Γ t p := by
  unfold resolve2 at h
  split at h
  · exact denoted_prim.1 h
  · subst h; exact .self _

theorem resolve2_other {Γ : Env} {t : TExpr} (h : ∀ p, resolve2 Γ t ≠ .prim p) : resolve2 Γ t = t ∧ ∀ p, ¬ IsPrim Γ t p := by
  have hno : ∀ p, ¬ IsPrim Γ t p := by
    intro p hp
    have := denoted_prim.2 hp
    exact h p (by simp [resolve2, this, TExpr.isOrdinal])
  refine ⟨?_, hno⟩
  unfold resolve2
  split
  · rename_i ho
    obtain ⟨p, hp⟩ := isOrdinal_iff.1 ho
    exact absurd (denoted_prim.1 hp) (hno p)
  · rfl

theorem kind_final (Γ : Env) (e : TExpr) : Kind Γ e (resolve2 Γ (resolve Γ e)) := by
  by_cases hp : ∃ p, resolve2 Γ (resolve Γ e) = .prim p
  · obtain ⟨p, hp⟩ := hp
    rw [hp]
    have h1 := resolve2_prim hp
    rcases resolve_cases (Γ := Γ) e with ⟨q, h2, h3⟩ | ⟨_, hnp, h2⟩
    · rw [h2] at h1
      cases h1
      exact .prim (.base h3)
    · rcases h2 with ⟨n, rfl, h⟩ | ⟨n, rfl, hd, h⟩ | ⟨n, _, _, rfl, _, h⟩ | ⟨n, u, rfl, hd, h⟩ | ⟨_, _, h⟩
      · rw [h] at h1; exact .prim (.base h1)
      · rw [h] at h1; exact .prim (.base h1)
      · rw [h] at h1; cases h1
      · rw [h] at h1; exact .prim (.chain hd h1)
      · rw [h] at h1; exact .prim (.base h1)
  · have hp' : ∀ p, resolve2 Γ (resolve Γ e) ≠ .prim p := fun p h => hp ⟨p, h⟩
    obtain ⟨heq, hno⟩ := resolve2_other hp'
    rw [heq] at hp' ⊢
    rcases resolve_cases (Γ := Γ) e with ⟨q, h2, _⟩ | ⟨hnp, _, h2⟩
    · exact absurd h2 (hp' q)
    · rcases h2 with ⟨n, rfl, h⟩ | ⟨n, rfl, hd, h⟩ | ⟨n, st, fs, rfl, hd, h⟩ | ⟨n, u, rfl, hd, h⟩ | ⟨h5, h6, h⟩
      · rw [h]; exact .call (.sel hnp) (Or.inr (Or.inl ⟨n, rfl⟩))
      · rw [h]; exact .call (.foreign hd) (Or.inl ⟨n, rfl⟩)
      · rw [h]; exact .call (.struct hd) (Or.inr (Or.inr rfl))
      · rw [h] at hno hp' ⊢
        cases u with
        | prim p => exact absurd rfl (hp' p)
        | named m => exact .call (.name hd (.named m) hno) (Or.inl ⟨m, rfl⟩)
        | sel m => exact .call (.name hd (.sel m) hno) (Or.inr (Or.inl ⟨m, rfl⟩))
        | structT => exact .call (.structLit hd) (Or.inr (Or.inr rfl))
        | _ => exact .is (.named hd) (by simp) (by simp) (by simp) (by simp)
      · rw [h] at hp' ⊢
        cases e with
        | prim p => exact absurd rfl (hp' p)
        | named m => exact absurd rfl (h5 m)
        | sel m => exact absurd rfl (h6 m)
        | structT => exact .structLit rfl
        | _ => exact .is (.self _) (by simp) (by simp) (by simp) (by simp)

/-- names with their own method do not resolve to anything that is decoded in line -/
theorem calls_final {Γ : Env} {e : TExpr} {n : Nat} (h : Calls Γ e n) :
    (∃ m, resolve2 Γ (resolve Γ e) = .named m) ∨ (∃ m, resolve2 Γ (resolve Γ e) = .sel m) ∨
      resolve2 Γ (resolve Γ e) = .structT := by
  cases h with
  | struct h => right; right; simp [resolve2, resolve, Env.denoted, Env.denotedIdent, h, Decl.spec, TExpr.isOrdinal]
  | structLit h => right; right; simp [resolve2, resolve, Env.denoted, Env.denotedIdent, h, Decl.spec, TExpr.isOrdinal]
  | foreign h => left; exact ⟨n, by simp [resolve2, resolve, Env.denoted, Env.denotedIdent, h, TExpr.isOrdinal]⟩
  | name h hu hp =>
    rename_i m u
    have hr : resolve Γ (.named n) = u := by
      have : (Γ.denoted (.named n)).isOrdinal = false := by
        simp only [Env.denoted, Env.denotedIdent, h, Decl.spec]
        cases hu <;> rfl
      simp [resolve, this, Env.denotedIdent, h, Decl.spec]
    rw [hr]
    have hno : ∀ p, resolve2 Γ u ≠ .prim p := fun p h => hp p (resolve2_prim h)
    rw [(resolve2_other hno).1]
    cases hu with
    | named => exact Or.inl ⟨_, rfl⟩
    | sel => exact Or.inr (Or.inl ⟨_, rfl⟩)
  | sel hp =>
    right; left
    refine ⟨n, ?_⟩
    have h0 : (Γ.denoted (.sel n)).isOrdinal = false := by
      cases ho : (Γ.denoted (.sel n)).isOrdinal with
      | false => rfl
      | true =>
        obtain ⟨p, h⟩ := isOrdinal_iff.1 ho
        exact absurd (denoted_prim.1 h) (hp p)
    simp [resolve2, resolve, h0]

theorem not_calls_of_kind {Γ : Env} {e T : TExpr} (h : resolve2 Γ (resolve Γ e) = T)
    (h2 : ∀ m, T ≠ .named m) (h3 : ∀ m, T ≠ .sel m) (h4 : T ≠ .structT) : ∀ n, ¬ Calls Γ e n := by
  intro n hc
  rcases calls_final hc with ⟨m, hm⟩ | ⟨m, hm⟩ | hm
  · exact h2 m (h ▸ hm)
  · exact h3 m (h ▸ hm)
  · exact h4 (h ▸ hm)

/-! ### conversions -/

variable [Ext]

theorem convT_named {Γ : Env} {K n : Nat} {u : TExpr} (hd : Γ.decl n = some (.alias u)) {val w : GoVal}
    (h : (Γ.methods K n).conv val = .ok w) : ∃ K', K = K' + 1 ∧ convT (Γ.methods K') u val = .ok w := by
  cases K with
  | zero => simp [Env.methods, Methods.loop] at h
  | succ K => simp only [Env.methods, hd, declMethods] at h; exact ⟨K, rfl, h⟩

theorem convT_isPrim {Γ : Env} {K : Nat} {e : TExpr} {p : Prim} (h : IsPrim Γ e p) {val w : GoVal}
    (hc : convT (Γ.methods K) e val = .ok w) : w = p.conv val := by
  cases h with
  | self => simp only [convT, Out.ok.injEq] at hc; exact hc.symm
  | named hd => obtain ⟨K', _, h⟩ := convT_named hd hc; simp only [convT, Out.ok.injEq] at h; exact h.symm
  | sel hd => obtain ⟨K', _, h⟩ := convT_named hd hc; simp only [convT, Out.ok.injEq] at h; exact h.symm

theorem convT_primName {Γ : Env} {K : Nat} {e : TExpr} {p : Prim} (h : PrimName Γ e p) {val w : GoVal}
    (hc : convT (Γ.methods K) e val = .ok w) : w = p.conv val := by
  cases h with
  | base h => exact convT_isPrim h hc
  | chain hd h => obtain ⟨K', _, h'⟩ := convT_named hd hc; exact convT_isPrim h h'

theorem convT_is {Γ : Env} {K : Nat} {e T : TExpr} (h : Is Γ e T) (h1 : ∀ p, T ≠ .prim p) (h2 : ∀ m, T ≠ .named m)
    (h3 : ∀ m, T ≠ .sel m) {val w : GoVal} (hc : convT (Γ.methods K) e val = .ok w) : w = val := by
  have key : ∀ K, convT (Γ.methods K) T val = .ok w → w = val := by
    intro K hc
    cases T <;> simp_all [convT]
  cases h with
  | self => exact key _ hc
  | named hd => obtain ⟨K', _, h⟩ := convT_named hd hc; exact key _ h

/-! ### leaf templates -/

theorem primExtraction_sound {M : Nat → Methods} {dc : Bool} {path : PathE} {p : Prim} {x : Extr}
    (hx : primExtraction dc path p = .ok x) {i : Nat} {v : JV} {fld fld' val : GoVal}
    (h : runExtr M x i v fld = .ok (.done (.ok val) fld')) : PrimDec p v (p.conv val) ∧ fld' = fld := by
  have hint : ∀ {p : Prim}, p.isSigned = true → p.isInt = true → runExtr M .int i v fld = .ok (.done (.ok val) fld') →
      (∀ z, p.conv (.int z) = .int (p.wrap z)) → PrimDec p v (p.conv val) ∧ fld' = fld := by
    intro p hs hi h hcv
    simp only [runExtr, Out.ok.injEq, TV.done.injEq] at h
    obtain ⟨h1, rfl⟩ := h
    refine ⟨?_, rfl⟩
    cases v with
    | num raw =>
      simp only [JV.getInt] at h1
      cases hz : parseInt raw with
      | none => rw [hz] at h1; simp at h1
      | some z =>
        rw [hz] at h1
        simp only at h1
        split at h1
        · rename_i z' hz'
          split at hz'
          · rename_i hr
            simp only [Except.ok.injEq] at hz' h1
            subst hz'; subst h1
            rw [hcv]
            exact .signed hs (parseInt_iff.1 hz) (by omega) (by omega) (wrapsTo_wrap hi z)
          · cases hz'
        · cases h1
    | _ => simp [JV.getInt] at h1
  have huint : ∀ {p : Prim}, p.isUnsigned = true → p.isInt = true → runExtr M .uint i v fld = .ok (.done (.ok val) fld') →
      (∀ z, p.conv (.int z) = .int (p.wrap z)) → PrimDec p v (p.conv val) ∧ fld' = fld := by
    intro p hs hi h hcv
    simp only [runExtr, Out.ok.injEq, TV.done.injEq] at h
    obtain ⟨h1, rfl⟩ := h
    refine ⟨?_, rfl⟩
    cases v with
    | num raw =>
      simp only [JV.getUint] at h1
      cases hz : parseNat raw with
      | none => rw [hz] at h1; simp at h1
      | some z =>
        rw [hz] at h1
        simp only at h1
        split at h1
        · rename_i z' hz'
          split at hz'
          · rename_i hr
            simp only [Except.ok.injEq] at hz' h1
            subst hz'; subst h1
            rw [hcv]
            exact .unsigned hs (parseNat_iff.1 hz) (by omega) (wrapsTo_wrap hi z)
          · cases hz'
        · cases h1
    | _ => simp [JV.getUint] at h1
  have hfloat : runExtr M .float i v fld = .ok (.done (.ok val) fld') →
      ∃ raw f, v = .num raw ∧ val = .float f ∧ Ext.parseFloat raw = some f ∧ fld' = fld := by
    intro h
    simp only [runExtr, Out.ok.injEq, TV.done.injEq] at h
    obtain ⟨h1, rfl⟩ := h
    cases v with
    | num raw =>
      simp only [JV.getFloat] at h1
      cases hz : Ext.parseFloat raw with
      | none => rw [hz] at h1; simp at h1
      | some z => rw [hz] at h1; simp at h1; exact ⟨raw, z, rfl, h1.symm, hz, rfl⟩
    | _ => simp [JV.getFloat] at h1
  have hbool : runExtr M .bool i v fld = .ok (.done (.ok val) fld') → ∃ b, v = .bool b ∧ val = .bool b ∧ fld' = fld := by
    intro h
    simp only [runExtr, Out.ok.injEq, TV.done.injEq] at h
    obtain ⟨h1, rfl⟩ := h
    cases v with
    | bool b => simp [JV.getBool] at h1; exact ⟨b, rfl, h1.symm, rfl⟩
    | _ => simp [JV.getBool] at h1
  cases p <;> simp only [primExtraction, Out.ok.injEq] at hx <;> try (subst hx)
  case int => exact hint rfl rfl h (fun _ => rfl)
  case int8 => exact hint rfl rfl h (fun _ => rfl)
  case int16 => exact hint rfl rfl h (fun _ => rfl)
  case int32 => exact hint rfl rfl h (fun _ => rfl)
  case int64 => exact hint rfl rfl h (fun _ => rfl)
  case uint => exact huint rfl rfl h (fun _ => rfl)
  case uint8 => exact huint rfl rfl h (fun _ => rfl)
  case uint16 => exact huint rfl rfl h (fun _ => rfl)
  case uint32 => exact huint rfl rfl h (fun _ => rfl)
  case uint64 => exact huint rfl rfl h (fun _ => rfl)
  case float32 =>
    obtain ⟨raw, f, rfl, rfl, hf, rfl⟩ := hfloat h
    exact ⟨.float32 hf, rfl⟩
  case float64 =>
    obtain ⟨raw, f, rfl, rfl, hf, rfl⟩ := hfloat h
    exact ⟨.float64 hf, rfl⟩
  case bool =>
    obtain ⟨b, rfl, rfl, rfl⟩ := hbool h
    exact ⟨.bool b, rfl⟩
  case string =>
    cases dc
    · simp only [Bool.false_eq_true, if_false, runExtr] at h
      cases v with
      | str s => simp [JV.getStr] at h; obtain ⟨rfl, rfl⟩ := h; exact ⟨.string s, rfl⟩
      | _ => simp [JV.getStr] at h
    · simp only [if_true, runExtr] at h
      cases v with
      | str s => simp [JV.getStr] at h; obtain ⟨rfl, rfl⟩ := h; exact ⟨.string s, rfl⟩
      | _ => simp [JV.getStr] at h
  case byte => cases hx
  case rune => cases hx

theorem firstParse_spec {s : Str} {t : Time} : ∀ {ls : List Str}, firstParse s ls = some t →
    ∃ pre l post, ls = pre ++ l :: post ∧ (∀ l' ∈ pre, Ext.parseTime l' s = none) ∧ Ext.parseTime l s = some t
  | [], h => by simp [firstParse] at h
  | l :: ls, h => by
    simp only [firstParse] at h
    split at h
    · rename_i t' ht
      simp only [Option.some.injEq] at h
      subst h
      exact ⟨[], l, ls, rfl, by simp, ht⟩
    · rename_i hn
      obtain ⟨pre, l', post, h1, h2, h3⟩ := firstParse_spec h
      refine ⟨l :: pre, l', post, by rw [h1]; rfl, ?_, h3⟩
      intro x hx
      rcases List.mem_cons.1 hx with rfl | hx
      · exact hn
      · exact h2 x hx

omit [Ext] in
theorem prefix_take {l : Str} : l.take 5 = str "time." ↔ str "time." <+: l := by
  constructor
  · intro h; rw [← h]; exact List.take_prefix 5 l
  · rintro ⟨t, rfl⟩; rfl

theorem timeExtr_sound {M : Nat → Methods} {L json : Str} {lo : Option Str} (hl : decodeLayout L = .ok lo) {i : Nat} {v : JV}
    {fld fld' val : GoVal} (h : runExtr M (.time json lo) i v fld = .ok (.done (.ok val) fld')) :
    ∃ s t, v = .str s ∧ val = .time t ∧ ReadsTime L s t ∧ fld' = fld := by
  simp only [runExtr] at h
  cases v with
  | str s =>
    simp only [JV.getStr, Out.ok.injEq, TV.done.injEq] at h
    obtain ⟨h1, rfl⟩ := h
    split at h1
    · rename_i t hr
      simp only [Except.ok.injEq] at h1
      refine ⟨s, t, rfl, h1.symm, ?_, rfl⟩
      unfold decodeLayout at hl
      split at hl
      · rename_i hL
        subst hL
        simp only [Out.ok.injEq] at hl
        subst hl
        simp only [parseDateTime] at hr
        obtain ⟨pre, l, post, h2, h3, h4⟩ := firstParse_spec hr
        exact .default (by rw [← h2]; rfl) h3 h4
      · rename_i hne
        split at hl
        · rename_i hc
          split at hl
          · rename_i c hcc
            simp only [Out.ok.injEq] at hl
            subst hl
            have : L = str "time." ++ L.drop 5 := by
              rw [← hc.1]; exact (List.take_append_drop 5 L).symm
            rw [this]
            exact .const (timeConst_iff.1 hcc) hr
          · cases hl
        · rename_i hc
          split at hl
          · rename_i c hcc
            simp only [Out.ok.injEq] at hl
            subst hl
            exact .literal hne (fun hx => hc ⟨prefix_take.2 hx.1, hx.2⟩) (literalText_iff.1 hcc) hr
          · cases hl
    · cases h1
  | _ => simp [JV.getStr] at h

theorem uuidExtr_sound {M : Nat → Methods} {json : Str} {i : Nat} {v : JV}
    {fld fld' val : GoVal} (h : runExtr M (.uuid json) i v fld = .ok (.done (.ok val) fld')) :
    ∃ s b, v = .str s ∧ val = .uuid b ∧ ReadsUUID s b ∧ fld' = fld := by
  simp only [runExtr] at h
  cases v with
  | str s =>
    simp only [JV.getStr, Out.ok.injEq, TV.done.injEq] at h
    obtain ⟨h1, rfl⟩ := h
    cases hr : parseUUID s with
    | none => rw [hr] at h1; simp at h1
    | some b => rw [hr] at h1; simp at h1; exact ⟨s, b, rfl, h1.symm, parseUUID_iff.1 hr, rfl⟩
  | _ => simp [JV.getStr] at h

theorem bytesExtr_sound {M : Nat → Methods} {len : Option Nat} {i : Nat} {v : JV}
    {fld fld' val : GoVal} (h : runExtr M (.bytes len) i v fld = .ok (.done (.ok val) fld')) :
    fld' = fld ∧ ((v = .null ∧ val = bytesVar len) ∨
      ∃ s b, v = .str s ∧ Base64Text s b ∧
        match len with
        | none => val = .bytes b
        | some n => b.length = n ∧ val = .barr b) := by
  simp only [runExtr] at h
  obtain ⟨⟨e, d⟩, h1, h2⟩ := Out.bind_eq_ok.1 h
  cases e with
  | some e => simp at h2
  | none =>
    simp only [Out.pure_eq, Out.ok.injEq, TV.done.injEq, Except.ok.injEq] at h2
    obtain ⟨rfl, rfl⟩ := h2
    refine ⟨rfl, ?_⟩
    cases v with
    | null => simp [bytesFill, JV.isNull] at h1; exact Or.inl ⟨rfl, h1.symm⟩
    | str s =>
      right
      simp only [bytesFill, JV.isNull, JV.getStr, Bool.false_eq_true, if_false] at h1
      cases len with
      | none =>
        simp only at h1
        split at h1
        · rename_i hok
          simp only [Out.ok.injEq, Prod.mk.injEq, true_and] at h1
          exact ⟨s, (b64Decode s).1, rfl, by rw [base64_decode, ← hok], h1.symm⟩
        · simp at h1
      | some n =>
        simp only [bytesVar] at h1
        split at h1
        · cases h1
        · split at h1
          · simp at h1
          · rename_i hok
            split at h1
            · simp at h1
            · rename_i hl
              simp only [Out.ok.injEq, Prod.mk.injEq, true_and] at h1
              have hl' : (b64Decode s).1.length = n := by simpa using hl
              refine ⟨s, (b64Decode s).1, rfl, by rw [base64_decode]; simp at hok; rw [← hok], hl', ?_⟩
              rw [← h1, hl']
              simp
    | _ => simp [bytesFill, JV.isNull, JV.getStr] at h1

/-! ### loops -/

theorem sliceLoop_fin {f : Nat → JV → GoVal → Out Cell} : ∀ {l : List JV} {i n : Nat} {cells cells' : List GoVal},
    sliceLoop f i l cells = .ok (.fin, n, cells') →
      n = i + l.length ∧ l.length ≤ cells.length ∧
      ∃ news : List GoVal, news.length = l.length ∧ cells' = news ++ cells.drop l.length ∧
        ∀ (j : Nat) (a : JV) (c w : GoVal), l[j]? = some a → cells[j]? = some c → news[j]? = some w →
          f (i + j) a c = .ok (.store w)
  | [], i, n, cells, cells', h => by
    simp only [sliceLoop, Out.ok.injEq, Prod.mk.injEq, true_and] at h
    obtain ⟨rfl, rfl⟩ := h
    exact ⟨by simp, by simp, [], by simp, by simp, by simp⟩
  | a :: l, i, n, [], cells', h => by simp [sliceLoop] at h
  | a :: l, i, n, c :: cells, cells', h => by
    simp only [sliceLoop] at h
    obtain ⟨cl, h1, h2⟩ := Out.bind_eq_ok.1 h
    cases cl with
    | store w =>
      obtain ⟨⟨s, n', cs'⟩, h3, h4⟩ := Out.bind_eq_ok.1 h2
      simp only [Out.pure_eq, Out.ok.injEq, Prod.mk.injEq] at h4
      obtain ⟨rfl, rfl, rfl⟩ := h4
      obtain ⟨h5, h6, news, h7, h8, h9⟩ := sliceLoop_fin h3
      refine ⟨by simp; omega, by simp; omega, w :: news, by simp [h7], by simp [h8], ?_⟩
      intro j a' c' w' ha hc hw
      cases j with
      | zero =>
        simp only [List.getElem?_cons_zero, Option.some.injEq] at ha hc hw
        subst ha; subst hc; subst hw
        exact h1
      | succ j =>
        simp only [List.getElem?_cons_succ] at ha hc hw
        have := h9 j a' c' w' ha hc hw
        rw [show i + (j + 1) = i + 1 + j by omega]
        exact this
    | ret e w => simp at h2
    | brk e w => simp at h2

omit [Ext] in
theorem setAll_cons (m : List (Str × GoVal)) (k : Str) (v : GoVal) (kvs : List (Str × GoVal)) :
    setAll m ((k, v) :: kvs) = setAll (mapSet k v m) kvs := rfl

theorem mapLoop_ok {M : Nat → Methods} {star : Bool} {val : TExpr} {x : JV → Out TV} :
    ∀ {kvs : List (Str × JV)} {m m' : List (Str × GoVal)}, mapLoop M star val x kvs m = .ok (none, m') →
      ∃ news : List GoVal, news.length = kvs.length ∧ m' = setAll m ((kvs.map (·.1)).zip news) ∧
        ∀ (j : Nat) (key : Str) (a : JV) (w : GoVal), kvs[j]? = some (key, a) → news[j]? = some w →
          (star = true ∧ a = .null ∧ w = .nil) ∨
          (¬ (star = true ∧ a = .null) ∧ ∃ w0 fld w1, x a = .ok (.done (.ok w0) fld) ∧ convT M val w0 = .ok w1 ∧
            w = if star then .ptr w1 else w1)
  | [], m, m', h => by
    simp only [mapLoop, Out.ok.injEq, Prod.mk.injEq, true_and] at h
    subst h
    exact ⟨[], rfl, rfl, by simp⟩
  | (key, v) :: rest, m, m', h => by
    simp only [mapLoop] at h
    split at h
    · rename_i hn
      obtain ⟨news, h1, h2, h3⟩ := mapLoop_ok h
      refine ⟨.nil :: news, by simp [h1], by simp only [List.map_cons, List.zip_cons_cons, setAll_cons]; exact h2, ?_⟩
      intro j k a w hk hw
      cases j with
      | zero =>
        simp only [List.getElem?_cons_zero, Option.some.injEq, Prod.mk.injEq] at hk hw
        obtain ⟨rfl, rfl⟩ := hk
        subst hw
        simp only [Bool.and_eq_true] at hn
        refine Or.inl ⟨hn.1, ?_, rfl⟩
        cases v <;> simp_all [JV.isNull]
      | succ j => simp only [List.getElem?_cons_succ] at hk hw; exact h3 j k a w hk hw
    · rename_i hn
      obtain ⟨tv, h1, h2⟩ := Out.bind_eq_ok.1 h
      cases tv with
      | ret e f => simp at h2
      | done r f =>
        cases r with
        | error e => simp at h2
        | ok w0 =>
          simp only at h2
          obtain ⟨w1, h3, h4⟩ := Out.bind_eq_ok.1 h2
          obtain ⟨news, h5, h6, h7⟩ := mapLoop_ok h4
          refine ⟨(if star then .ptr w1 else w1) :: news, by simp [h5],
            by simp only [List.map_cons, List.zip_cons_cons, setAll_cons]; exact h6, ?_⟩
          intro j k a w hk hw
          cases j with
          | zero =>
            simp only [List.getElem?_cons_zero, Option.some.injEq, Prod.mk.injEq] at hk hw
            obtain ⟨rfl, rfl⟩ := hk
            subst hw
            refine Or.inr ⟨?_, w0, f, w1, h1, h3, rfl⟩
            rintro ⟨hs, rfl⟩
            exact hn (by simp [hs, JV.isNull])
          | succ j => simp only [List.getElem?_cons_succ] at hk hw; exact h7 j k a w hk hw

theorem sliceCells_storage {len : Nat} {z fld : GoVal} {fresh : Bool} {cells : List GoVal}
    (h : sliceCells len z fld = .ok (fresh, cells)) : Storage fld len z cells := by
  cases fld with
  | nil => simp [sliceCells] at h; rw [← h.2]; exact .fromNil
  | slice es sp =>
    simp only [sliceCells] at h
    split at h
    · rename_i hl
      simp only [Out.ok.injEq, Prod.mk.injEq] at h
      rw [← h.2]; exact .grow hl
    · rename_i hl
      simp only [Out.ok.injEq, Prod.mk.injEq] at h
      rw [← h.2]; exact .reuse (by omega)
  | _ => simp [sliceCells] at h

/-! ### the main lemma -/

theorem primExtraction_declares {dc : Bool} {path : PathE} {p : Prim} {x : Extr}
    (hx : primExtraction dc path p = .ok x) : x.declaresErr = false := by
  cases p <;> cases dc <;> simp [primExtraction] at hx <;> subst hx <;> rfl

/-- an extraction template never declares `err` unless the type is a time, UUID or map -/
theorem declaresErr_loses {Γ : Env} {k : Nat} {f : Fld} {path : PathE} {r : TVGen} (hg : typedValue Γ k f path = .ok r)
    (href : f.refx = resolve Γ f.expr) (hns : r.isStarType = false) (hd : r.x.declaresErr = true) :
    Is Γ f.expr .time ∨ Is Γ f.expr .uuid ∨ ∃ val, Is Γ f.expr (.map val) := by
  cases k with
  | zero => simp [typedValue] at hg
  | succ k =>
    have hk := kind_final Γ f.expr
    rw [← href] at hk
    unfold typedValue at hg
    simp only [resolve2_def] at hg
    generalize resolve2 Γ f.refx = T at hk hg
    cases T with
    | prim p =>
      obtain ⟨x, hx, hr⟩ := Out.bind_eq_ok.1 hg
      simp only [Out.pure_eq, Out.ok.injEq] at hr
      subst hr
      rw [primExtraction_declares hx] at hd
      cases hd
    | named m =>
      simp only [Out.ok.injEq] at hg; subst hg
      simp only [nestedExtraction] at hd
      split at hd <;> simp [Extr.declaresErr] at hd
    | sel m =>
      simp only [Out.ok.injEq] at hg; subst hg
      simp only [nestedExtraction] at hd
      split at hd <;> simp [Extr.declaresErr] at hd
    | structT =>
      simp only [Out.ok.injEq] at hg; subst hg
      simp only [nestedExtraction] at hd
      split at hd <;> simp [Extr.declaresErr] at hd
    | star u =>
      obtain ⟨r', _, hr⟩ := Out.bind_eq_ok.1 hg
      simp only [Out.pure_eq, Out.ok.injEq] at hr
      subst hr
      simp at hns
    | time =>
      left
      cases hk with
      | is h => exact h
      | call h hT => simp at hT
    | uuid =>
      right; left
      cases hk with
      | is h => exact h
      | call h hT => simp at hT
    | map val =>
      right; right
      cases hk with
      | is h => exact ⟨val, h⟩
      | call h hT => simp at hT
    | slice elt =>
      exfalso
      simp only at hg
      split at hg
      · simp only [Out.ok.injEq] at hg; subst hg; simp [Extr.declaresErr] at hd
      · split at hg
        · cases hg
        · split at hg
          · cases hg
          · obtain ⟨r', _, hr⟩ := Out.bind_eq_ok.1 hg
            split at hr
            · cases hr
            · split at hr
              · cases hr
              · simp only [Out.pure_eq, Out.ok.injEq] at hr; subst hr; simp [Extr.declaresErr] at hd
    | array n elt =>
      exfalso
      simp only at hg
      split at hg
      · simp only [Out.ok.injEq] at hg; subst hg; simp [Extr.declaresErr] at hd
      · split at hg
        · cases hg
        · obtain ⟨r', _, hr⟩ := Out.bind_eq_ok.1 hg
          split at hr
          · cases hr
          · split at hr
            · cases hr
            · cases hr
            · cases hr
            · simp only [Out.pure_eq, Out.ok.injEq] at hr; subst hr; simp [Extr.declaresErr] at hd

/-- only in-place methods set `filled`, and never for pointers -/
theorem filled_spec {Γ : Env} {k : Nat} {f : Fld} {path : PathE} {r : TVGen} (hg : typedValue Γ k f path = .ok r)
    (hf : r.filled = true) : f.hasField = true ∧ f.isStar = false := by
  cases k with
  | zero => simp [typedValue] at hg
  | succ k =>
    unfold typedValue at hg
    simp only [resolve2_def] at hg
    generalize resolve2 Γ f.refx = T at hg
    have hnest : r = ⟨(nestedExtraction f).1, (nestedExtraction f).2, false⟩ → f.hasField = true ∧ f.isStar = false := by
      intro h
      subst h
      simp only [nestedExtraction] at hf
      split at hf
      · simp at hf
      · rename_i hc; simpa using hc
    cases T with
    | prim p =>
      obtain ⟨x, hx, hr⟩ := Out.bind_eq_ok.1 hg
      simp only [Out.pure_eq, Out.ok.injEq] at hr
      subst hr; simp at hf
    | named m => simp only [Out.ok.injEq] at hg; exact hnest hg.symm
    | sel m => simp only [Out.ok.injEq] at hg; exact hnest hg.symm
    | structT => simp only [Out.ok.injEq] at hg; exact hnest hg.symm
    | star u =>
      obtain ⟨r', _, hr⟩ := Out.bind_eq_ok.1 hg
      simp only [Out.pure_eq, Out.ok.injEq] at hr
      subst hr; simp at hf
    | time =>
      obtain ⟨r', _, hr⟩ := Out.bind_eq_ok.1 hg
      simp only [Out.pure_eq, Out.ok.injEq] at hr
      subst hr; simp at hf
    | uuid => simp only [Out.ok.injEq] at hg; subst hg; simp at hf
    | map val =>
      simp only at hg
      split at hg
      · cases hg
      · obtain ⟨r', _, hr⟩ := Out.bind_eq_ok.1 hg
        split at hr
        · cases hr
        · split at hr <;> first | (simp only [Out.pure_eq, Out.ok.injEq] at hr; subst hr; simp at hf; done) | cases hr
    | slice elt =>
      simp only at hg
      split at hg
      · simp only [Out.ok.injEq] at hg; subst hg; simp at hf
      · split at hg
        · cases hg
        · split at hg
          · cases hg
          · obtain ⟨r', _, hr⟩ := Out.bind_eq_ok.1 hg
            split at hr
            · cases hr
            · split at hr
              · cases hr
              · simp only [Out.pure_eq, Out.ok.injEq] at hr; subst hr; simp at hf
    | array n elt =>
      simp only at hg
      split at hg
      · simp only [Out.ok.injEq] at hg; subst hg; simp at hf
      · split at hg
        · cases hg
        · obtain ⟨r', _, hr⟩ := Out.bind_eq_ok.1 hg
          split at hr
          · cases hr
          · split at hr <;> first | (simp only [Out.pure_eq, Out.ok.injEq] at hr; subst hr; simp at hf; done) | cases hr

/-- slices (not of bytes) and maps: what is there before matters -/
def Stored (Γ : Env) (e : TExpr) : Prop :=
  (∃ elt, elt ≠ .prim .byte ∧ Is Γ e (.slice elt)) ∨ ∃ val, Is Γ e (.map val)

omit [Ext] in
theorem is_resolve {Γ : Env} {e T : TExpr} (h : Is Γ e T) (h1 : ∀ p, T ≠ .prim p) (h2 : ∀ m, T ≠ .named m)
    (h3 : ∀ m, T ≠ .sel m) : resolve2 Γ (resolve Γ e) = T := by
  have key : Γ.denoted T = T := by
    cases T <;> simp_all [Env.denoted]
  have hno : T.isOrdinal = false := by
    cases T <;> simp_all [TExpr.isOrdinal]
  have hr : resolve Γ e = T := by
    cases h with
    | self =>
      unfold resolve
      rw [key, hno]
      cases e <;> simp_all
    | named hd => simp [resolve, Env.denoted, Env.denotedIdent, hd, Decl.spec, hno]
  rw [hr, resolve2, key, hno]
  rfl

omit [Ext] in
theorem stored_spec {Γ : Env} {k : Nat} {f : Fld} {path : PathE} {r : TVGen} (hg : typedValue Γ k f path = .ok r)
    (href : f.refx = resolve Γ f.expr) (h : Stored Γ f.expr) :
    ((∃ a b c d e g, r.x = .slice a b c d e g) ∧ ¬ (f.hasField = true ∧ f.isStar = true)) ∨
    (f.hasField = true ∧ f.isStar = false) := by
  cases k with
  | zero => simp [typedValue] at hg
  | succ k =>
    unfold typedValue at hg
    simp only [resolve2_def] at hg
    rw [href] at hg
    rcases h with ⟨elt, hb, hi⟩ | ⟨val, hi⟩
    · rw [is_resolve hi (by simp) (by simp) (by simp)] at hg
      simp only at hg
      split at hg
      · rename_i hb'; exact absurd (isByte_iff.1 hb') hb
      · split at hg
        · cases hg
        · rename_i hns
          split at hg
          · cases hg
          · obtain ⟨r', _, hr⟩ := Out.bind_eq_ok.1 hg
            split at hr
            · cases hr
            · split at hr
              · cases hr
              · simp only [Out.pure_eq, Out.ok.injEq] at hr; subst hr
                exact Or.inl ⟨⟨_, _, _, _, _, _, rfl⟩, by simpa using hns⟩
    · rw [is_resolve hi (by simp) (by simp) (by simp)] at hg
      simp only at hg
      split at hg
      · cases hg
      · rename_i hns
        right; simpa using hns

/-- What a successful run of the template for `f` means: it filled the place, or it left a
value whose conversion to the type of the place is the result. -/
def ExtrSound (Γ : Env) (K : Nat) (f : Fld) (r : TVGen) : Prop :=
  ∀ (i : Nat) (v : JV) (fld val fld' : GoVal), runExtr (Γ.methods K) r.x i v fld = .ok (.done (.ok val) fld') →
    (r.filled = true → Decodes Γ f.tags.layout f.expr v fld fld') ∧
    (r.filled = false → ∀ w, convT (Γ.methods K) f.expr val = .ok w →
      (¬ Stored Γ f.expr → DecodesNew Γ f.tags.layout f.expr v w) ∧
      (((f.hasField = true ∧ f.isStar = false) ∨ ∀ n, ¬ Calls Γ f.expr n) → Decodes Γ f.tags.layout f.expr v fld w))

theorem calls_fill {Γ : Env} {e : TExpr} {n K : Nat} (hc : Calls Γ e n) {v : JV} {x w : GoVal}
    (h : fillT (Γ.methods K) e v x = .ok (none, w)) : Fills Γ n v x none w := by
  cases hc <;> exact ⟨K, h⟩

theorem calls_zero {Γ : Env} {e : TExpr} {n K : Nat} (hc : Calls Γ e n) {z : GoVal}
    (h : zeroT (Γ.methods K) e = .ok z) : ZeroIs Γ n z := by
  cases hc <;> exact ⟨K, h⟩

theorem calls_conv {Γ : Env} {e : TExpr} {n K : Nat} (hc : Calls Γ e n) {x w : GoVal}
    (h : convT (Γ.methods K) e x = .ok w) : ConvIs Γ n x w := by
  cases hc <;> exact ⟨K, h⟩

theorem nested_sound {Γ : Env} {K : Nat} {f : Fld} {n : Nat} (hc : Calls Γ f.expr n) :
    ExtrSound Γ K f ⟨(nestedExtraction f).1, (nestedExtraction f).2, false⟩ := by
  intro i v fld val fld' h
  unfold nestedExtraction at h ⊢
  split at h
  · rename_i hb
    rw [if_pos hb]
    simp only [runExtr] at h
    obtain ⟨z, hz, h⟩ := Out.bind_eq_ok.1 h
    obtain ⟨⟨e, w0⟩, hw, h⟩ := Out.bind_eq_ok.1 h
    cases e with
    | some e => simp at h
    | none =>
      simp only [Out.pure_eq, Out.ok.injEq, TV.done.injEq, Except.ok.injEq] at h
      obtain ⟨rfl, rfl⟩ := h
      refine ⟨by simp, fun _ w hconv =>
        ⟨fun _ => .call hc (calls_zero hc hz) (calls_fill hc hw) (calls_conv hc hconv), ?_⟩⟩
      rintro (⟨h1, h2⟩ | h1)
      · simp [h1, h2] at hb
      · exact absurd hc (h1 n)
  · rename_i hb
    rw [if_neg hb]
    simp only [runExtr] at h
    obtain ⟨⟨e, w0⟩, hw, h⟩ := Out.bind_eq_ok.1 h
    cases e with
    | some e => simp at h
    | none =>
      simp only [Out.pure_eq, Out.ok.injEq, TV.done.injEq, Except.ok.injEq] at h
      obtain ⟨rfl, rfl⟩ := h
      exact ⟨fun _ => .call hc (calls_fill hc hw), by simp⟩

/-- soundness for a value template whose result does not depend on the place -/
theorem extrSound_of {Γ : Env} {K : Nat} {f : Fld} {r : TVGen} (hnf : r.filled = false) (hnc : ∀ n, ¬ Calls Γ f.expr n)
    (h : ∀ (i : Nat) (v : JV) (fld val fld' w old : GoVal), runExtr (Γ.methods K) r.x i v fld = .ok (.done (.ok val) fld') →
      convT (Γ.methods K) f.expr val = .ok w → Decodes Γ f.tags.layout f.expr v old w) : ExtrSound Γ K f r := by
  intro i v fld val fld' hr
  refine ⟨by simp [hnf], fun _ w hw => ?_⟩
  exact ⟨fun _ => .other hnc fun old => h i v fld val fld' w old hr hw, fun _ => h i v fld val fld' w fld hr hw⟩

/-- soundness for a template whose result depends on the place -/
theorem extrSound_stored {Γ : Env} {K : Nat} {f : Fld} {r : TVGen} (hnf : r.filled = false) (hs : Stored Γ f.expr)
    (h : ∀ (i : Nat) (v : JV) (fld val fld' w : GoVal), runExtr (Γ.methods K) r.x i v fld = .ok (.done (.ok val) fld') →
      convT (Γ.methods K) f.expr val = .ok w → Decodes Γ f.tags.layout f.expr v fld w) : ExtrSound Γ K f r := by
  intro i v fld val fld' hr
  refine ⟨by simp [hnf], fun _ w hw => ?_⟩
  exact ⟨fun hn => absurd hs hn, fun _ => h i v fld val fld' w hr hw⟩

theorem elemRound_store {M : Nat → Methods} {nullable brk : Bool} {st : ElemStore} {x : Nat → JV → GoVal → Out TV}
    {i : Nat} {a : JV} {c w : GoVal} (h : elemRound M nullable brk st x i a c = .ok (.store w)) :
    (nullable = true ∧ a = .null ∧ w = .nil) ∨
    (¬ (nullable = true ∧ a = .null) ∧ ∃ val c', x i a c = .ok (.done (.ok val) c') ∧ storeElem M st val c' = .ok w) := by
  unfold elemRound at h
  split at h
  · rename_i hn
    simp only [Out.ok.injEq, Cell.store.injEq] at h
    simp only [Bool.and_eq_true] at hn
    refine Or.inl ⟨hn.1, ?_, h.symm⟩
    cases a <;> simp_all [JV.isNull]
  · rename_i hn
    right
    refine ⟨by rintro ⟨h1, rfl⟩; exact hn (by simp [h1, JV.isNull]), ?_⟩
    obtain ⟨tv, h1, h2⟩ := Out.bind_eq_ok.1 h
    cases tv with
    | ret e c' => simp at h2
    | done r c' =>
      cases r with
      | error e =>
        simp only at h2
        split at h2
        · simp at h2
        · cases h2
      | ok val =>
        simp only at h2
        obtain ⟨w', h3, h4⟩ := Out.bind_eq_ok.1 h2
        simp only [Out.pure_eq, Out.ok.injEq, Cell.store.injEq] at h4
        subst h4
        exact ⟨val, c', h1, h3⟩

theorem getElem?_of_lt' {α : Type} {l : List α} {i : Nat} (h : i < l.length) : ∃ a, l[i]? = some a :=
  ⟨l[i], List.getElem?_eq_getElem h⟩

theorem extr_sound {Γ : Env} {K : Nat} : ∀ {k : Nat} {f : Fld} {path : PathE} {r : TVGen},
    typedValue Γ k f path = .ok r → f.refx = resolve Γ f.expr → KeepsErrors Γ f.expr → r.isStarType = false →
    ExtrSound Γ K f r := by
  intro k
  induction k with
  | zero => intro f path r hg; simp [typedValue] at hg
  | succ k ih =>
    intro f path r hg href hke hns
    have hk := kind_final Γ f.expr
    have hnc := @not_calls_of_kind Γ f.expr (resolve2 Γ f.refx) (by rw [href])
    rw [← href] at hk
    unfold typedValue at hg
    simp only [resolve2_def] at hg
    generalize resolve2 Γ f.refx = T at hk hg hnc
    cases T with
    | prim p =>
      obtain ⟨x, hx, hr⟩ := Out.bind_eq_ok.1 hg
      simp only [Out.pure_eq, Out.ok.injEq] at hr
      subst hr
      have hp : PrimName Γ f.expr p := by
        cases hk with
        | prim h => exact h
        | call h hT => simp at hT
        | is _ h1 => exact absurd rfl (h1 p)
      refine extrSound_of rfl (hnc (by simp) (by simp) (by simp)) ?_
      intro i v fld val fld' w old hrun hw
      rw [convT_primName hp hw]
      exact .prim hp (primExtraction_sound hx hrun).1
    | named m =>
      simp only [Out.ok.injEq] at hg; subst hg
      cases hk with
      | call h hT => exact nested_sound h
      | is _ _ h2 => exact absurd rfl (h2 m)
    | sel m =>
      simp only [Out.ok.injEq] at hg; subst hg
      cases hk with
      | call h hT => exact nested_sound h
      | is _ _ _ h3 => exact absurd rfl (h3 m)
    | structT =>
      simp only [Out.ok.injEq] at hg; subst hg
      cases hk with
      | call h hT => exact nested_sound h
      | structLit h =>
        intro i v fld val fld' hrun
        unfold nestedExtraction at hrun
        split at hrun
        · simp only [runExtr] at hrun
          obtain ⟨z, hz, _⟩ := Out.bind_eq_ok.1 hrun
          rw [h] at hz; cases hz
        · simp only [runExtr] at hrun
          obtain ⟨z, hz, _⟩ := Out.bind_eq_ok.1 hrun
          rw [h] at hz; cases hz
      | is _ _ _ _ h4 => exact absurd rfl h4
    | star u =>
      obtain ⟨r', _, hr⟩ := Out.bind_eq_ok.1 hg
      simp only [Out.pure_eq, Out.ok.injEq] at hr
      subst hr
      simp at hns
    | time =>
      have hi : Is Γ f.expr .time := by
        cases hk with
        | is h => exact h
        | call h hT => simp at hT
      obtain ⟨lo, hl, hr⟩ := Out.bind_eq_ok.1 hg
      simp only [Out.pure_eq, Out.ok.injEq] at hr
      subst hr
      refine extrSound_of rfl (hnc (by simp) (by simp) (by simp)) ?_
      intro i v fld val fld' w old hrun hw
      obtain ⟨s, t, rfl, rfl, ht, rfl⟩ := timeExtr_sound hl hrun
      rw [convT_is hi (by simp) (by simp) (by simp) hw]
      exact .time hi ht
    | uuid =>
      have hi : Is Γ f.expr .uuid := by
        cases hk with
        | is h => exact h
        | call h hT => simp at hT
      simp only [Out.ok.injEq] at hg; subst hg
      refine extrSound_of rfl (hnc (by simp) (by simp) (by simp)) ?_
      intro i v fld val fld' w old hrun hw
      obtain ⟨s, b, rfl, rfl, hb, rfl⟩ := uuidExtr_sound hrun
      rw [convT_is hi (by simp) (by simp) (by simp) hw]
      exact .uuid hi hb
    | map mv =>
      have hi : Is Γ f.expr (.map mv) := by
        cases hk with
        | is h => exact h
        | call h hT => simp at hT
      obtain ⟨_, hrec⟩ := hke
      simp only at hg
      split at hg
      · cases hg
      · obtain ⟨r', hr', hr⟩ := Out.bind_eq_ok.1 hg
        split at hr
        · cases hr
        · rename_i hns'
          have hns'' : r'.isStarType = false := by simpa using hns'
          have hel := prepare_expr Γ false mv f.tags false true
          have hstar := prepare_isStar Γ false mv f.tags true
          have htags : (Fld.prepare Γ false mv f.tags false true).tags = f.tags := rfl
          have hhf : (Fld.prepare Γ false mv f.tags false true).hasField = false := rfl
          have hrefx := prepare_resolve Γ false mv f.tags false true
          generalize Fld.prepare Γ false mv f.tags false true = el at hr' hr hel hstar htags hhf hrefx
          have hS : ExtrSound Γ K el r' := ih hr' hrefx (hel ▸ hrec mv (Or.inr (Or.inr hi))) hns''
          have hnf : r'.filled = false := by
            cases hfl : r'.filled with
            | false => rfl
            | true => have := (filled_spec hr' hfl).1; rw [hhf] at this; cases this
          have key : r = ⟨.map f.tags.jsonName el.isStar el.expr r'.x, false, false⟩ := by
            split at hr <;> first | (simp only [Out.pure_eq, Out.ok.injEq] at hr; exact hr.symm) | cases hr
          have hnst : ¬ Stored Γ el.expr := by
            intro hsd
            rcases stored_spec hr' hrefx hsd with ⟨⟨a, b, c, d, e, g, hxx⟩, _⟩ | ⟨h, _⟩
            · rw [hxx] at hr; cases hr
            · rw [hhf] at h; cases h
          subst key
          refine extrSound_stored rfl (Or.inr ⟨mv, hi⟩) ?_
          intro i v fld val fld' w hrun hw
          rw [convT_is hi (by simp) (by simp) (by simp) hw]
          simp only [runExtr] at hrun
          cases v with
          | obj kvs =>
            simp only [JV.getObj] at hrun
            obtain ⟨⟨m0, b⟩, hm0, hrun⟩ := Out.bind_eq_ok.1 hrun
            obtain ⟨⟨e, m⟩, hm, hrun⟩ := Out.bind_eq_ok.1 hrun
            cases e with
            | some e => simp at hrun
            | none =>
              simp only [Out.pure_eq, Out.ok.injEq, TV.done.injEq, Except.ok.injEq] at hrun
              obtain ⟨rfl, _⟩ := hrun
              obtain ⟨news, hlen, rfl, hnews⟩ := mapLoop_ok hm
              have hold : (fld = .nil ∧ m0 = []) ∨ fld = .map m0 := by
                cases fld with
                | nil => simp at hm0; exact Or.inl ⟨rfl, hm0.1⟩
                | map m => simp at hm0; exact Or.inr (by rw [hm0.1])
                | _ => simp at hm0
              refine .map hi hold hlen ?_ ?_
              · rintro j key w' ⟨u, rfl⟩ hkv hw'
                have hs : el.isStar = true := by
                  rcases hstar with ⟨h, _⟩ | ⟨_, _, h⟩
                  · exact h
                  · exact absurd rfl (h u)
                rcases hnews j key .null w' hkv hw' with ⟨_, _, h⟩ | ⟨h, _⟩
                · exact h
                · exact absurd ⟨hs, rfl⟩ h
              · intro j key a w' hkv hw' hnn
                rcases hnews j key a w' hkv hw' with ⟨hs, rfl, _⟩ | ⟨_, w0, fl, w1, h1, h2, h3⟩
                · rcases hstar with ⟨_, h⟩ | ⟨h, _⟩
                  · exact absurd rfl (hnn ⟨_, h⟩)
                  · rw [h] at hs; cases hs
                · have hd := ((hS 0 a .nil w0 fl h1).2 hnf w1 h2).1 hnst
                  rw [htags, hel] at hd
                  rcases hstar with ⟨hs, h⟩ | ⟨hs, h, _⟩
                  · rw [hs] at h3
                    simp only [if_true] at h3
                    subst h3
                    rw [h]
                    refine .other ?_ fun _ => .ptr hd
                    intro n hc; cases hc
                  · rw [hs] at h3
                    simp only [Bool.false_eq_true, if_false] at h3
                    subst h3
                    rw [h]; exact hd
          | _ => simp [JV.getObj] at hrun
    | slice elt =>
      have hi : Is Γ f.expr (.slice elt) := by
        cases hk with
        | is h => exact h
        | call h hT => simp at hT
      obtain ⟨hl, hrec⟩ := hke
      simp only at hg
      split at hg
      · rename_i hb
        obtain rfl := isByte_iff.1 hb
        simp only [Out.ok.injEq] at hg; subst hg
        refine extrSound_of rfl (hnc (by simp) (by simp) (by simp)) ?_
        intro i v fld val fld' w old hrun hw
        rw [convT_is hi (by simp) (by simp) (by simp) hw]
        obtain ⟨_, ⟨rfl, rfl⟩ | ⟨s, b, rfl, h1, h2⟩⟩ := bytesExtr_sound hrun
        · exact .bytesNull hi
        · simp only at h2; rw [h2]; exact .bytes hi h1
      · rename_i hb
        split at hg
        · cases hg
        · split at hg
          · cases hg
          · obtain ⟨r', hr', hr⟩ := Out.bind_eq_ok.1 hg
            split at hr
            · cases hr
            · rename_i hns'
              have hns'' : r'.isStarType = false := by simpa using hns'
              have hel := prepare_expr Γ true elt {} false false
              have hstar := prepare_isStar Γ true elt {} false
              have htags : (Fld.prepare Γ true elt {} false false).tags = {} := rfl
              have hhf : (Fld.prepare Γ true elt {} false false).hasField = true := rfl
              have hnu : (Fld.prepare Γ true elt {} false false).isNullable = elt.nullLike := by cases elt <;> rfl
              have hrefx := prepare_resolve Γ true elt {} false false
              generalize Fld.prepare Γ true elt {} false false = el at hr' hr hel hstar htags hhf hrefx hnu
              have hS : ExtrSound Γ K el r' := ih hr' hrefx (hel ▸ hrec elt (Or.inl hi)) hns''
              have hdecl : r'.x.declaresErr = false := by
                cases hd : r'.x.declaresErr with
                | false => rfl
                | true =>
                  have := declaresErr_loses hr' hrefx hns'' hd
                  rw [hel] at this
                  exact absurd this (hl elt (Or.inl hi))
              have key : r = ⟨.slice f.tags.jsonName elt el.isNullable r'.x (el.expr != .prim .string)
                  (if el.isStar then .ref el.expr else if r'.filled then .filled else .val el.expr), false, false⟩ := by
                split at hr
                · cases hr
                · simp only [Out.pure_eq, Out.ok.injEq] at hr; exact hr.symm
              subst key
              have hbe : elt ≠ .prim .byte := by rintro rfl; exact hb rfl
              refine extrSound_stored rfl (Or.inl ⟨elt, hbe, hi⟩) ?_
              intro i v fld val fld' w hrun hw
              rw [convT_is hi (by simp) (by simp) (by simp) hw]
              simp only [runExtr] at hrun
              cases v with
              | arr l =>
                simp only [JV.getArr] at hrun
                obtain ⟨z, hz, hrun⟩ := Out.bind_eq_ok.1 hrun
                obtain ⟨⟨fresh, cells⟩, hcells, hrun⟩ := Out.bind_eq_ok.1 hrun
                simp only at hrun
                obtain ⟨⟨stop, n, cells'⟩, hloop, hrun⟩ := Out.bind_eq_ok.1 hrun
                cases stop with
                | ret e => simp at hrun
                | brk e => simp [hdecl] at hrun
                | fin =>
                  simp only [Out.pure_eq, Out.ok.injEq, TV.done.injEq, Except.ok.injEq] at hrun
                  obtain ⟨rfl, _⟩ := hrun
                  obtain ⟨hn, hle, news, hnl, rfl, hnews⟩ := sliceLoop_fin hloop
                  have hmk : mkSlice n (news ++ cells.drop l.length) = .slice news (cells.drop l.length) := by
                    have : n = news.length := by omega
                    subst this
                    simp [mkSlice]
                  rw [hmk]
                  refine .slice hi hbe ⟨K, hz⟩ (sliceCells_storage hcells) hnl ?_ ?_
                  · intro j w' hnull hj hw'
                    have hjl : j < l.length := (List.getElem?_eq_some_iff.1 hj).1
                    obtain ⟨c, hc⟩ := getElem?_of_lt' (l := cells) (i := j) (by omega)
                    rcases elemRound_store (hnews j .null c w' hj hc hw') with ⟨_, _, h⟩ | ⟨h, _⟩
                    · exact h
                    · exact absurd ⟨hnu.trans hnull, rfl⟩ h
                  · intro j a c w' hj hc hw' hnn
                    rcases elemRound_store (hnews j a c w' hj hc hw') with ⟨h1, rfl, _⟩ | ⟨_, val, c', h1, h2⟩
                    · exact absurd rfl (hnn (hnu ▸ h1))
                    · have hd := hS (0 + j) a c val c' h1
                      rw [htags, hel] at hd
                      rcases hstar with ⟨hs, h⟩ | ⟨hs, h, _⟩
                      · have hnf : r'.filled = false := by
                          cases hfl : r'.filled with
                          | false => rfl
                          | true => have := (filled_spec hr' hfl).2; rw [hs] at this; cases this
                        rw [hs] at h2
                        simp only [if_true, storeElem] at h2
                        obtain ⟨w1, h3, h4⟩ := Out.bind_eq_ok.1 h2
                        simp only [Out.pure_eq, Out.ok.injEq] at h4
                        subst h4
                        rw [h]
                        refine .ptr ((hd.2 hnf w1 (hel ▸ h3)).1 ?_)
                        intro hsd
                        rw [← hel] at hsd
                        rcases stored_spec hr' hrefx hsd with ⟨_, h⟩ | ⟨_, h⟩
                        · exact h ⟨hhf, hs⟩
                        · rw [hs] at h; cases h
                      · rw [hs] at h2
                        simp only [Bool.false_eq_true, if_false] at h2
                        cases hfl : r'.filled with
                        | true =>
                          rw [hfl] at h2
                          simp only [if_true, storeElem, Out.ok.injEq] at h2
                          subst h2
                          rw [h]
                          exact hd.1 hfl
                        | false =>
                          rw [hfl] at h2
                          simp only [Bool.false_eq_true, if_false, storeElem] at h2
                          rw [h]
                          exact (hd.2 hfl w' (hel ▸ h2)).2 (Or.inl ⟨hhf, hs⟩)
              | _ => simp [JV.getArr] at hrun
    | array n elt =>
      have hi : Is Γ f.expr (.array n elt) := by
        cases hk with
        | is h => exact h
        | call h hT => simp at hT
      obtain ⟨hl, hrec⟩ := hke
      simp only at hg
      split at hg
      · rename_i hb
        obtain rfl := isByte_iff.1 hb
        simp only [Out.ok.injEq] at hg; subst hg
        refine extrSound_of rfl (hnc (by simp) (by simp) (by simp)) ?_
        intro i v fld val fld' w old hrun hw
        rw [convT_is hi (by simp) (by simp) (by simp) hw]
        obtain ⟨_, ⟨rfl, rfl⟩ | ⟨s, b, rfl, h1, h2, h3⟩⟩ := bytesExtr_sound hrun
        · exact .fixedBytesNull hi
        · subst h3; exact .fixedBytes hi h1 h2
      · rename_i hb
        split at hg
        · cases hg
        · rename_i hnn0
          obtain ⟨r', hr', hr⟩ := Out.bind_eq_ok.1 hg
          split at hr
          · cases hr
          · rename_i hns'
            simp only [Bool.or_eq_true, not_or, Bool.not_eq_true] at hns'
            obtain ⟨hnf, hns''⟩ := hns'
            have hel := prepare_expr Γ true elt {} false false
            have hstar := prepare_isStar Γ true elt {} false
            have htags : (Fld.prepare Γ true elt {} false false).tags = {} := rfl
            have hhf : (Fld.prepare Γ true elt {} false false).hasField = true := rfl
            have hnu : (Fld.prepare Γ true elt {} false false).isNullable = elt.nullLike := by cases elt <;> rfl
            have hrefx := prepare_resolve Γ true elt {} false false
            generalize Fld.prepare Γ true elt {} false false = el at hr' hr hel hstar htags hhf hrefx hnu hnn0
            have hS : ExtrSound Γ K el r' := ih hr' hrefx (hel ▸ hrec elt (Or.inr (Or.inl ⟨n, hi⟩))) hns''
            have hdecl : r'.x.declaresErr = false := by
              cases hd : r'.x.declaresErr with
              | false => rfl
              | true =>
                have := declaresErr_loses hr' hrefx hns'' hd
                rw [hel] at this
                exact absurd this (hl elt (Or.inr ⟨n, hi⟩))
            have key : r = ⟨.array f.tags.jsonName n elt r'.x (el.expr != .prim .string) (.val el.expr), false, false⟩ := by
              split at hr <;> first | (simp only [Out.pure_eq, Out.ok.injEq] at hr; exact hr.symm) | cases hr
            subst key
            have hbe : elt ≠ .prim .byte := by rintro rfl; exact hb rfl
            have hs : el.isStar = false ∧ elt = pointee elt := by
              rcases hstar with ⟨_, h⟩ | ⟨h, h', _⟩
              · rw [hnu, h] at hnn0; simp [TExpr.nullLike] at hnn0
              · exact ⟨h, h'⟩
            refine extrSound_of rfl (hnc (by simp) (by simp) (by simp)) ?_
            intro i v fld val fld' w old hrun hw
            rw [convT_is hi (by simp) (by simp) (by simp) hw]
            simp only [runExtr] at hrun
            cases v with
            | arr l =>
              simp only [JV.getArr] at hrun
              split at hrun
              · simp at hrun
              · rename_i hll
                have hll' : l.length = n := by simpa using hll
                obtain ⟨z, hz, hrun⟩ := Out.bind_eq_ok.1 hrun
                obtain ⟨⟨stop, n', cells'⟩, hloop, hrun⟩ := Out.bind_eq_ok.1 hrun
                cases stop with
                | ret e => simp at hrun
                | brk e => simp [hdecl] at hrun
                | fin =>
                  simp only [Out.pure_eq, Out.ok.injEq, TV.done.injEq, Except.ok.injEq] at hrun
                  obtain ⟨rfl, _⟩ := hrun
                  obtain ⟨hn, hle, news, hnl, rfl, hnews⟩ := sliceLoop_fin hloop
                  rw [hll', List.drop_of_length_le (by simp), List.append_nil]
                  refine .array hi hbe ⟨K, hz⟩ hll' (by omega) ?_
                  intro j a w' hj hw'
                  have hjl : j < l.length := (List.getElem?_eq_some_iff.1 hj).1
                  have hc : (List.replicate n z)[j]? = some z := by
                    rw [List.getElem?_replicate, if_pos (by omega)]
                  rcases elemRound_store (hnews j a z w' hj hc hw') with ⟨h1, _⟩ | ⟨_, val, c', h1, h2⟩
                  · cases h1
                  · have hd := hS (0 + j) a z val c' h1
                    rw [htags, hel] at hd
                    rw [hs.2]
                    simp only [storeElem] at h2
                    exact (hd.2 hnf w' (hel ▸ h2)).2 (Or.inl ⟨hhf, hs.1⟩)
            | _ => simp [JV.getArr] at hrun

end VJ
