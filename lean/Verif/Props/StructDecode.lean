import Verif.Proof.GoText
import Verif.Proof.Missing
import Verif.Spec.Fields
import Verif.Proof.Num
import Verif.Props.Determinism

/-!
# C01–C06, C18, C32 (reading): decoding into a struct
-/

set_option linter.unusedSimpArgs false

namespace VJ

section
variable [Ext]

/-! ## C01, C02 -/

/-- **C01/C02** A struct decode of a document that is not acceptable fails, says why, and
leaves the receiver alone. -/
theorem C01_rejected {Γ : Env} {n : Nat} {strict : Bool} {fields : List FieldDecl}
    (hd : Γ.decl n = some (.struct strict fields)) {v : JV} {s s' : GoVal} {e : Option Err}
    (hv : ¬ Acceptable (jsonNames fields) strict v) (h : Fills Γ n v s e s') :
    s' = s ∧ ∃ err, e = some err ∧
      (((∀ kvs, v ≠ .obj kvs) ∧ err = ⟨none, .wrongType .object v.type⟩) ∨
      ∃ kvs, v = .obj kvs ∧
        ((∃ key ∈ jsonNames fields, occurrences key kvs ≥ 2 ∧ err = ⟨some key, .twice key⟩) ∨
        (strict = true ∧ ∃ kv ∈ kvs, kv.1 ∉ jsonNames fields ∧ err = ⟨none, .unexpected kv.1⟩))) := by
  obtain ⟨gs, gs', k, fs, rfl, rfl, _, h | h⟩ := fills_struct hd h
  · obtain ⟨_, he, rfl⟩ := h
    refine ⟨rfl, ?_⟩
    cases e with
    | none => exact absurd ((validate_iff _ _ _).1 he.symm) hv
    | some err => exact ⟨err, rfl, validate_error he.symm⟩
  · exact absurd h.1 hv

/-- **C01** The object-level check rejects nothing else: when the document is acceptable, the
outcome is that of the fields — success, or an error that one of the fields, decoded alone,
gives on this document. -/
theorem C01_accepted {Γ : Env} {n : Nat} {strict : Bool} {fields : List FieldDecl}
    (hd : Γ.decl n = some (.struct strict fields)) {single : Nat → Nat}
    (hs : ∀ (i : Nat) (fd : FieldDecl), fields[i]? = some fd → SingleField Γ (single i) fd)
    {v : JV} {s s' : GoVal} {err : Err}
    (hv : Acceptable (jsonNames fields) strict v) (h : Fills Γ n v s (some err) s') :
    ∃ i g g', i < fields.length ∧ Fills Γ (single i) v (.struct [g]) (some err) (.struct [g']) := by
  obtain ⟨gs, gs', k, fs, rfl, rfl, hg, h | h⟩ := fills_struct hd h
  · exact absurd hv h.1
  · obtain ⟨_, i, f, g, g', h1, _, _, h4, _⟩ := runFields_err h.2
    have hi : i < fields.length := by
      rw [← genFields_length hg]; exact (List.getElem?_eq_some_iff.1 h1).1
    obtain ⟨f', h5, h6⟩ := genFields_get hg (List.getElem?_eq_getElem hi)
    rw [h1] at h5
    obtain rfl := Option.some.inj h5
    exact ⟨i, g, g', hi, fills_single (hs i _ (List.getElem?_eq_getElem hi))
      (acceptable_single hv (List.getElem_mem hi)) h6 h4⟩

/-! ## C03, C04 -/

omit [Ext] in
theorem occurrences_perm {l l' : List (Str × JV)} (h : l.Perm l') (key : Str) :
    occurrences key l = occurrences key l' := (h.filter _).length_eq

omit [Ext] in
theorem lookup_perm {l l' : List (Str × JV)} (h : l.Perm l') :
    (l.map (·.1)).Nodup → ∀ key, JV.lookup key l = JV.lookup key l' := by
  induction h with
  | nil => intros; rfl
  | cons x _ ih =>
    intro hn key
    simp only [List.map_cons, List.nodup_cons] at hn
    obtain ⟨k, v⟩ := x
    simp only [JV.lookup, ih hn.2]
  | swap x y l =>
    intro hn key
    obtain ⟨k, v⟩ := x
    obtain ⟨k', v'⟩ := y
    simp only [List.map_cons, List.nodup_cons, List.mem_cons, not_or] at hn
    simp only [JV.lookup]
    by_cases h1 : k = key
    · by_cases h2 : k' = key
      · exact absurd (h2.trans h1.symm) hn.1.1
      · simp [h1, h2]
    · by_cases h2 : k' = key <;> simp [h1, h2]
  | trans h1 _ ih1 ih2 =>
    intro hn key
    rw [ih1 hn key]
    exact ih2 ((h1.map _).nodup_iff.1 hn) key

/-- **C03** Reordering the members of a document without repeated keys changes neither the
receiver nor whether the decode succeeds (nor whether it panics).  `S` is any set of struct
types that contains `n` and the structs embedded in its members. -/
theorem C03_member_order {Γ : Env} {S : Nat → Prop} (hS : ClosedUnderEmbedding Γ S) {n : Nat} (hn : S n)
    {kvs kvs' : List (Str × JV)} (hp : kvs.Perm kvs') (hnd : (kvs.map (·.1)).Nodup)
    {s : GoVal} {r r' : Out (Option Err × GoVal)}
    (h : FillsTo Γ n (.obj kvs) s r) (h' : FillsTo Γ n (.obj kvs') s r') : SameUpToError r r' := by
  have hag : AgreeOn (fun _ => True) (.obj kvs) (.obj kvs') :=
    ⟨kvs, kvs', rfl, rfl, fun key _ => ⟨occurrences_perm hp key, lookup_perm hp hnd key⟩⟩
  obtain ⟨l, k, h⟩ := h
  obtain ⟨l', k', h'⟩ := h'
  have a := ((methods_mono Γ (Nat.le_max_left k k') n).fill _ s).eq_of_ne (by rw [h]; exact l)
  have b := ((methods_mono Γ (Nat.le_max_right k k') n).fill _ s).eq_of_ne (by rw [h']; exact l')
  have := fill_agree hS (fun _ _ _ _ _ => Or.inl fun _ => trivial) hag (max k k') n s hn
  rw [a, b, h, h'] at this
  exact this

/-- **C04** For lenient types: documents that have the same members among the keys of the
type (and of the structs embedded in it) decode alike, whatever other members they have. -/
theorem C04_unknown_members {Γ : Env} {S : Nat → Prop} (hS : ClosedUnderEmbedding Γ S)
    (hlen : ∀ m, S m → ∀ strict fields, Γ.decl m = some (.struct strict fields) → strict = false)
    {K : Str → Prop}
    (hK : ∀ m, S m → ∀ strict fields, Γ.decl m = some (.struct strict fields) → ∀ fd ∈ fields, K fd.tags.jsonName)
    {n : Nat} (hn : S n) {kvs kvs' : List (Str × JV)}
    (hag : ∀ key, K key → kvs.filter (fun kv => kv.1 = key) = kvs'.filter (fun kv => kv.1 = key))
    {s : GoVal} {r r' : Out (Option Err × GoVal)}
    (h : FillsTo Γ n (.obj kvs) s r) (h' : FillsTo Γ n (.obj kvs') s r') : SameUpToError r r' := by
  have lookup_filter : ∀ (l : List (Str × JV)) (key : Str),
      JV.lookup key l = JV.lookup key (l.filter fun kv => kv.1 = key) := by
    intro l key
    induction l with
    | nil => rfl
    | cons x l ih =>
      obtain ⟨k, v⟩ := x
      by_cases hk : k = key
      · simp [JV.lookup, hk]
      · simp [JV.lookup, hk, ih]
  have hag' : AgreeOn K (.obj kvs) (.obj kvs') :=
    ⟨kvs, kvs', rfl, rfl, fun key hk => ⟨by unfold occurrences; rw [hag key hk],
      by rw [lookup_filter kvs, lookup_filter kvs', hag key hk]⟩⟩
  obtain ⟨l, k, h⟩ := h
  obtain ⟨l', k', h'⟩ := h'
  have a := ((methods_mono Γ (Nat.le_max_left k k') n).fill _ s).eq_of_ne (by rw [h]; exact l)
  have b := ((methods_mono Γ (Nat.le_max_right k k') n).fill _ s).eq_of_ne (by rw [h']; exact l')
  have := fill_agree hS (fun m hm strict fields hd => Or.inr ⟨hlen m hm strict fields hd, fun key hk => by
    simp only [jsonNames, List.mem_map] at hk
    obtain ⟨fd, hfd, rfl⟩ := hk
    exact hK m hm strict fields hd fd hfd⟩) hag' (max k k') n s hn
  rw [a, b, h, h'] at this
  exact this

/-! ## C05, C18 -/

/-- **C05** A successful struct decode leaves in every field what decoding that field alone
leaves in it. -/
theorem C05_fieldwise {Γ : Env} {n : Nat} {strict : Bool} {fields : List FieldDecl}
    (hd : Γ.decl n = some (.struct strict fields)) {v : JV} {s s' : GoVal} (h : Fills Γ n v s none s')
    {i : Nat} {fd : FieldDecl} (hi : fields[i]? = some fd) {m : Nat} (hm : SingleField Γ m fd) :
    ∃ gs gs' g g', s = .struct gs ∧ s' = .struct gs' ∧ gs[i]? = some g ∧ gs'[i]? = some g' ∧
      Fills Γ m v (.struct [g]) none (.struct [g']) := by
  obtain ⟨gs, gs', k, f, g, g', rfl, rfl, h1, h2, h3, h4, h5⟩ := fills_field hd h hi
  exact ⟨gs, gs', g, g', rfl, rfl, h1, h2,
    fills_single hm (acceptable_single h5 (List.mem_of_getElem? hi)) h3 h4⟩

/-- **C05** Two successful decodes — different documents, different receivers — that agree on
the member of a field and on its previous value agree on the field afterwards. -/
theorem C05_independent {Γ : Env} {n : Nat} {strict : Bool} {fields : List FieldDecl}
    (hd : Γ.decl n = some (.struct strict fields)) {v v' : JV} {gs gs' rs rs' : List GoVal}
    (h : Fills Γ n v (.struct gs) none (.struct rs)) (h' : Fills Γ n v' (.struct gs') none (.struct rs'))
    {i : Nat} {fd : FieldDecl} (hi : fields[i]? = some fd) (hname : fd.tags.jsonName ≠ [])
    (hget : v.get fd.tags.jsonName = v'.get fd.tags.jsonName) (hold : gs[i]? = gs'[i]?) : rs[i]? = rs'[i]? := by
  -- the same code is run at a common bound on nested calls
  obtain ⟨k1, h1⟩ := h
  obtain ⟨k2, h2⟩ := h'
  have hle1 : k1 ≤ max k1 k2 + 1 := Nat.le_succ_of_le (Nat.le_max_left _ _)
  have hle2 : k2 ≤ max k1 k2 + 1 := Nat.le_succ_of_le (Nat.le_max_right _ _)
  have a := ((methods_mono Γ hle1 n).fill _ _).eq_of_ok h1
  have b := ((methods_mono Γ hle2 n).fill _ _).eq_of_ok h2
  generalize max k1 k2 = k at a b
  rw [methods_struct hd] at a b
  obtain ⟨fs, hg, a⟩ := Out.bind_eq_ok.1 a
  obtain ⟨fs', hg', b⟩ := Out.bind_eq_ok.1 b
  rw [hg] at hg'
  obtain rfl := Out.ok.inj hg'
  have inv : ∀ {v : JV} {gs rs : List GoVal}, runFill (Γ.methods k) (.struct (jsonNames fields) strict fs) v (.struct gs)
      = .ok (none, .struct rs) → runFields (Γ.methods k) v fs gs = .ok (none, rs) := by
    intro v gs rs h
    simp only [runFill] at h
    split at h
    · simp at h
    · obtain ⟨⟨e, gs1⟩, h3, h4⟩ := Out.bind_eq_ok.1 h
      simp only [Out.pure_eq, Out.ok.injEq, Prod.mk.injEq, GoVal.struct.injEq] at h4
      rw [h3, h4.1, h4.2]
  obtain ⟨f, hf, hgen⟩ := genFields_get hg hi
  obtain ⟨_, _, ha⟩ := runFields_ok (inv a)
  obtain ⟨_, _, hb⟩ := runFields_ok (inv b)
  obtain ⟨g1, r1, p1, q1, s1⟩ := ha i f hf
  obtain ⟨g2, r2, p2, q2, s2⟩ := hb i f hf
  rw [p1, p2] at hold
  obtain rfl := Option.some.inj hold
  rw [q1, q2]
  cases f with
  | none =>
    simp only [stepField, Out.ok.injEq, Prod.mk.injEq, true_and] at s1 s2
    rw [← s1, ← s2]
  | some f =>
    have hj := (genFieldFill_some hgen).1
    simp only [stepField] at s1 s2
    rw [runField_congr (v' := v') (by rw [hj]; exact hname) (by rw [hj]; exact hget), s2] at s1
    simp only [Out.ok.injEq, Prod.mk.injEq, true_and] at s1
    rw [s1]

/-- **C18** When a struct decode fails after the object-level check, there is a field `i` such
that: the error is the one of decoding field `i` alone; the fields before hold what decoding
them alone gives, without error; the fields after are untouched. -/
theorem C18_failing_prefix {Γ : Env} {n : Nat} {strict : Bool} {fields : List FieldDecl}
    (hd : Γ.decl n = some (.struct strict fields)) {single : Nat → Nat}
    (hs : ∀ (i : Nat) (fd : FieldDecl), fields[i]? = some fd → SingleField Γ (single i) fd)
    {v : JV} (hv : Acceptable (jsonNames fields) strict v)
    {s s' : GoVal} {err : Err} (h : Fills Γ n v s (some err) s') :
    ∃ gs gs' i, s = .struct gs ∧ s' = .struct gs' ∧ i < fields.length ∧ gs'.length = gs.length ∧
      (∃ g g', gs[i]? = some g ∧ gs'[i]? = some g' ∧
        Fills Γ (single i) v (.struct [g]) (some err) (.struct [g'])) ∧
      (∀ j, j < i → ∃ g g', gs[j]? = some g ∧ gs'[j]? = some g' ∧
        Fills Γ (single j) v (.struct [g]) none (.struct [g'])) ∧
      (∀ j, i < j → gs'[j]? = gs[j]?) := by
  obtain ⟨gs, gs', k, fs, rfl, rfl, hg, h | h⟩ := fills_struct hd h
  · exact absurd hv h.1
  · obtain ⟨hl, i, f, g, g', h1, h2, h3, h4, h5, h6⟩ := runFields_err h.2
    have hi : i < fields.length := by
      rw [← genFields_length hg]; exact (List.getElem?_eq_some_iff.1 h1).1
    obtain ⟨f', h7, h8⟩ := genFields_get hg (List.getElem?_eq_getElem hi)
    rw [h1] at h7
    obtain rfl := Option.some.inj h7
    refine ⟨gs, gs', i, rfl, rfl, hi, hl, ⟨g, g', h2, h3, fills_single (hs i _ (List.getElem?_eq_getElem hi))
      (acceptable_single hv (List.getElem_mem hi)) h8 h4⟩, ?_, h5⟩
    intro j hj
    have hjl : j < fields.length := by omega
    obtain ⟨fj, h9, h10⟩ := genFields_get hg (List.getElem?_eq_getElem hjl)
    obtain ⟨a, b, ha, hb, hc⟩ := h6 j fj hj h9
    exact ⟨a, b, ha, hb, fills_single (hs j _ (List.getElem?_eq_getElem hjl))
      (acceptable_single hv (List.getElem_mem hjl)) h10 hc⟩

/-! ## C06 -/

/-- **C06** absent, no default, not required: the field keeps its value. -/
theorem C06_absent_keeps {Γ : Env} {n : Nat} {strict : Bool} {fields : List FieldDecl}
    (hd : Γ.decl n = some (.struct strict fields)) {v : JV} {gs gs' : List GoVal}
    (h : Fills Γ n v (.struct gs) none (.struct gs')) {i : Nat} {fd : FieldDecl} (hi : fields[i]? = some fd)
    (hname : fd.tags.jsonName ≠ []) (habs : v.get fd.tags.jsonName = none) (hdef : fd.tags.dflt = []) :
    gs'[i]? = gs[i]? := by
  obtain ⟨_, _, k, f, g, g', e1, e2, h1, h2, h3, h4, _⟩ := fills_field hd h hi
  cases e1; cases e2
  rw [h1, h2]
  cases f with
  | none => simp only [stepField, Out.ok.injEq, Prod.mk.injEq, true_and] at h4; rw [h4]
  | some f =>
    obtain ⟨hj, _, r, _, _, _, hdf, _⟩ := genFieldFill_some h3
    have htag : (Fld.prepare Γ true fd.typ fd.tags false false).tags = fd.tags := rfl
    simp only [ifDefault, htag, hdef, if_true, Out.ok.injEq] at hdf
    simp only [stepField, runField, hj, hname, if_false, habs] at h4
    rw [← hdf] at h4
    split at h4
    · simp only [Out.ok.injEq, Prod.mk.injEq, true_and] at h4; rw [h4]
    · simp at h4
    · rename_i h5; split at h5 <;> cases h5

/-- **C06** absent, required, no default: no decode succeeds. -/
theorem C06_required_fails {Γ : Env} {n : Nat} {strict : Bool} {fields : List FieldDecl}
    (hd : Γ.decl n = some (.struct strict fields)) {v : JV} {s s' : GoVal} {i : Nat} {fd : FieldDecl}
    (hi : fields[i]? = some fd) (hname : fd.tags.jsonName ≠ []) (hdash : fd.tags.jsonName ≠ str "-")
    (habs : v.get fd.tags.jsonName = none)
    (hdef : fd.tags.dflt = []) (hreq : fd.tags.required = true) : ¬ Fills Γ n v s none s' := by
  intro h
  obtain ⟨_, _, k, f, g, g', _, _, h1, h2, h3, h4, _⟩ := fills_field hd h hi
  cases f with
  | none => exact hdash (genFieldFill_none h3)
  | some f =>
    obtain ⟨hj, _, r, _, _, _, hdf, _⟩ := genFieldFill_some h3
    have htag : (Fld.prepare Γ true fd.typ fd.tags false false).tags = fd.tags := rfl
    simp only [ifDefault, htag, hdef, if_true, hreq, Out.ok.injEq] at hdf
    simp only [stepField, runField, hj, hname, if_false, habs, ← hdf] at h4
    simp at h4

/-- **C06** … and the error of that field names it. -/
theorem C06_required_error {Γ : Env} {m : Nat} {fd : FieldDecl} (hm : SingleField Γ m fd) {v : JV}
    (hv : Acceptable (jsonNames [fd]) false v) (hname : fd.tags.jsonName ≠ []) (hdash : fd.tags.jsonName ≠ str "-")
    (habs : v.get fd.tags.jsonName = none) (hdef : fd.tags.dflt = []) (hreq : fd.tags.required = true)
    {s s' : GoVal} {e : Option Err} (h : Fills Γ m v s e s') :
    e = some ⟨some fd.tags.jsonName, .required fd.tags.jsonName⟩ ∧ s' = s := by
  obtain ⟨gs, gs', k, fs, rfl, rfl, hg, h | h⟩ := fills_struct hm h
  · exact absurd hv h.1
  · obtain ⟨f, hf, hgen⟩ := genFields_get hg (i := 0) (fd := fd) rfl
    have hl := genFields_length hg
    match fs, hl with
    | [f0], _ =>
      simp only [List.getElem?_cons_zero, Option.some.injEq] at hf
      subst hf
      cases f0 with
      | none => exact absurd (genFieldFill_none hgen) hdash
      | some f =>
        obtain ⟨hj, _, r, _, _, _, hdf, _⟩ := genFieldFill_some hgen
        have htag : (Fld.prepare Γ true fd.typ fd.tags false false).tags = fd.tags := rfl
        simp only [ifDefault, htag, hdef, if_true, hreq, Out.ok.injEq] at hdf
        have h2 := h.2
        cases gs with
        | nil => simp [runFields] at h2
        | cons g gs =>
          have hrf : runField (Γ.methods k) f v g
              = .ok (some ⟨some fd.tags.jsonName, .required fd.tags.jsonName⟩, g) := by
            unfold runField
            simp only [hj, hname, if_false, habs, ← hdf]
            rfl
          simp only [runFields, hrf, Out.ok_bind, Out.pure_eq, Out.ok.injEq, Prod.mk.injEq] at h2
          exact ⟨h2.1.symm, by rw [← h2.2]⟩

theorem basicLiteral_spec {p : Prim} {text : Str} {v : GoVal} (h : basicLiteral p text = .ok v) :
    PrimLiteral p text v := by
  cases p <;> simp only [basicLiteral] at h
  case bool =>
    split at h
    · rename_i ht; subst ht; cases h; exact .boolTrue
    · split at h
      · rename_i ht; subst ht; cases h; exact .boolFalse
      · cases h
  case string =>
    split at h
    · rename_i ht; cases h; exact .string (literalText_iff.1 ht)
    · cases h
  case float32 => split at h <;> cases h; exact .float32 (by assumption)
  case float64 => split at h <;> cases h; exact .float64 (by assumption)
  case byte => cases h
  case rune => cases h
  all_goals
    split at h
    · split at h
      · rename_i hw; cases h; exact .int rfl (goInt_iff.1 (by assumption)) (hw ▸ Prim.wrap_range _)
      · cases h
    · cases h

theorem literalFromType_prim {t : TExpr} {text : Str} {v : GoVal} (h : literalFromType t text = .ok v) :
    (∃ p, t = .prim p ∧ PrimLiteral p text v) ∨ ∃ x, t = .star x := by
  cases t with
  | prim p => exact Or.inl ⟨p, rfl, basicLiteral_spec h⟩
  | star x => exact Or.inr ⟨x, rfl⟩
  | _ => simp [literalFromType] at h

omit [Ext] in
/-- what the field factory resolves a field type to -/
theorem prepare_refx_prim {Γ : Env} {b : Bool} {t : TExpr} {tags : Tags} {p : Prim}
    (h : (Fld.prepare Γ b t tags false false).refx = .prim p) :
    IsPrim Γ (Fld.prepare Γ b t tags false false).expr p := by
  have hr : (Fld.prepare Γ b t tags false false).refx =
      (if (Γ.denoted (Fld.prepare Γ b t tags false false).expr).isOrdinal then Γ.denoted (Fld.prepare Γ b t tags false false).expr
      else match (Fld.prepare Γ b t tags false false).expr with
        | .named n => Γ.denotedIdent n (.named n)
        | t => t) := rfl
  rw [hr] at h
  generalize (Fld.prepare Γ b t tags false false).expr = x at h
  have hden : Γ.denoted x = .prim p := by
    split at h
    · exact h
    · rename_i ho
      cases x <;> simp_all [Env.denoted, TExpr.isOrdinal]
  cases x with
  | prim q => simp [Env.denoted] at hden; subst hden; exact .self _
  | named n =>
    simp only [Env.denoted, Env.denotedIdent] at hden
    split at hden
    · rename_i d hd
      cases d with
      | struct => simp [Decl.spec] at hden
      | alias t => simp only [Decl.spec] at hden; subst hden; exact .named hd
    · cases hden
  | sel n =>
    simp only [Env.denoted, Env.denotedIdent] at hden
    split at hden
    · rename_i d hd
      cases d with
      | struct => simp [Decl.spec] at hden
      | alias t => simp only [Decl.spec] at hden; subst hden; exact .sel hd
    · cases hden
  | _ => simp [Env.denoted] at hden

omit [Ext] in
theorem prepare_refx_star {Γ : Env} {b : Bool} {t x : TExpr} {tags : Tags}
    (h : (Fld.prepare Γ b t tags false false).refx = .star x) :
    (Fld.prepare Γ b t tags false false).expr = .star x ∨
    ∃ n, (Fld.prepare Γ b t tags false false).expr = .named n ∧ Γ.decl n = some (.alias (.star x)) := by
  have hr : (Fld.prepare Γ b t tags false false).refx =
      (if (Γ.denoted (Fld.prepare Γ b t tags false false).expr).isOrdinal then Γ.denoted (Fld.prepare Γ b t tags false false).expr
      else match (Fld.prepare Γ b t tags false false).expr with
        | .named n => Γ.denotedIdent n (.named n)
        | t => t) := rfl
  rw [hr] at h
  generalize (Fld.prepare Γ b t tags false false).expr = e at h ⊢
  split at h
  · rename_i ho; rw [h] at ho; simp [TExpr.isOrdinal] at ho
  · cases e <;> simp_all [Env.denotedIdent]
    split at h
    · rename_i d hd
      cases d with
      | struct => simp [Decl.spec] at h
      | alias t => simp only [Decl.spec] at h; subst h; exact hd
    · cases h

omit [Ext] in
theorem prepare_typ (Γ : Env) (b : Bool) (t : TExpr) (tags : Tags) :
    ((Fld.prepare Γ b t tags false false).isStar = true ∧ t = .star (Fld.prepare Γ b t tags false false).expr) ∨
    ((Fld.prepare Γ b t tags false false).isStar = false ∧ t = (Fld.prepare Γ b t tags false false).expr) := by
  cases t <;> simp [Fld.prepare]

/-- the constant assigned by the else branch of a field is the one of its default tag -/
theorem ifDefault_spec {Γ : Env} {fd : FieldDecl} {b : Bool} {d : GoVal} {oa : Bool}
    (hstar : b = true → ∃ x, (Fld.prepare Γ true fd.typ fd.tags false false).refx = .star x ∧ ∀ y, x ≠ .star y)
    (hnstar : b = false → ∀ x, (Fld.prepare Γ true fd.typ fd.tags false false).refx ≠ .star x)
    (h : ifDefault (Fld.prepare Γ true fd.typ fd.tags false false) b = .ok (.value d oa)) :
    DefaultValue Γ fd.typ fd.tags.dflt d := by
  have htag : (Fld.prepare Γ true fd.typ fd.tags false false).tags = fd.tags := rfl
  have hp := prepare_typ Γ true fd.typ fd.tags
  have hrp := fun p => prepare_refx_prim (Γ := Γ) (b := true) (t := fd.typ) (tags := fd.tags) (p := p)
  have hrs := fun x => prepare_refx_star (Γ := Γ) (b := true) (t := fd.typ) (tags := fd.tags) (x := x)
  generalize hf : Fld.prepare Γ true fd.typ fd.tags false false = f at *
  unfold ifDefault at h
  rw [htag] at h
  split at h
  · split at h <;> simp at h
  · obtain ⟨v, h1, h2⟩ := Out.bind_eq_ok.1 h
    cases b with
    | true =>
      obtain ⟨x, hx, hxx⟩ := hstar rfl
      rw [hx] at h1
      simp only [literalFromType] at h1
      rcases literalFromType_prim h1 with ⟨p, rfl, hl⟩ | ⟨y, rfl⟩
      · have hbase : DefaultValue Γ f.expr fd.tags.dflt (.ptr v) := by
          rcases hrs _ hx with he | ⟨n, he, hd⟩
          · rw [he]; exact .ptr (.prim (.self p) hl)
          · rw [he]; exact .named hd (.ptr (.prim (.self p) hl))
        rcases hp with ⟨hs, ht⟩ | ⟨hs, ht⟩
        · simp [hs] at h2
          rw [ht, ← h2.1]; exact .ptr hbase
        · simp [hs] at h2
          rw [ht, ← h2.1]; exact hbase
      · exact absurd rfl (hxx y)
    | false =>
      rcases literalFromType_prim h1 with ⟨p, hpr, hl⟩ | ⟨y, hy⟩
      · have hbase : DefaultValue Γ f.expr fd.tags.dflt v := .prim (hrp p hpr) hl
        rcases hp with ⟨hs, ht⟩ | ⟨hs, ht⟩
        · simp [hs] at h2
          rw [ht, ← h2.1]; exact .ptr hbase
        · simp [hs] at h2
          rw [ht, ← h2.1]; exact hbase
      · exact absurd hy (hnstar rfl y)

omit [Ext] in
theorem typedValue_star {Γ : Env} {k : Nat} {f : Fld} {path : PathE} {r : TVGen} (h : typedValue Γ k f path = .ok r) :
    r.isStarType = false → ∀ x, f.refx ≠ .star x := by
  intro hr x hx
  cases k with
  | zero => simp [typedValue] at h
  | succ k =>
    unfold typedValue at h
    simp only [hx, Env.denoted, TExpr.isOrdinal, Bool.false_eq_true, if_false] at h
    obtain ⟨r', _, h2⟩ := Out.bind_eq_ok.1 h
    simp only [Out.pure_eq, Out.ok.injEq] at h2
    subst h2
    simp at hr

/-- **C06** absent, with a default: the field holds the value of its default tag. -/
theorem C06_default {Γ : Env} {n : Nat} {strict : Bool} {fields : List FieldDecl}
    (hd : Γ.decl n = some (.struct strict fields)) {v : JV} {gs gs' : List GoVal}
    (h : Fills Γ n v (.struct gs) none (.struct gs')) {i : Nat} {fd : FieldDecl} (hi : fields[i]? = some fd)
    (hname : fd.tags.jsonName ≠ []) (hdash : fd.tags.jsonName ≠ str "-")
    (habs : v.get fd.tags.jsonName = none) (hdef : fd.tags.dflt ≠ []) :
    ∃ d, gs'[i]? = some d ∧ DefaultValue Γ fd.typ fd.tags.dflt d := by
  obtain ⟨_, _, k, f, g, g', e1, e2, h1, h2, h3, h4, _⟩ := fills_field hd h hi
  cases e1; cases e2
  cases f with
  | none => exact absurd (genFieldFill_none h3) hdash
  | some f =>
    obtain ⟨hj, _, r, htv, _, hst, hdf, _⟩ := genFieldFill_some h3
    refine ⟨g', h2, ?_⟩
    simp only [stepField, runField, hj, hname, if_false, habs] at h4
    have htag : (Fld.prepare Γ true fd.typ fd.tags false false).tags = fd.tags := rfl
    cases hfd : f.dflt with
    | nothing =>
      rw [hfd] at hdf
      simp only [ifDefault, htag, hdef, if_false] at hdf
      obtain ⟨w, _, h5⟩ := Out.bind_eq_ok.1 hdf
      split at h5 <;> (try split at h5) <;> simp at h5
    | required => rw [hfd] at h4; simp at h4
    | value d oa =>
      rw [hfd] at h4 hdf
      simp at h4
      subst h4
      refine ifDefault_spec ?_ ?_ hdf
      · intro hb
        rw [hb] at hdf
        unfold storeOf at hst
        rw [hb] at hst
        simp only [if_true] at hst
        split at hst
        · rename_i x hx
          refine ⟨x, hx, ?_⟩
          rintro y rfl
          simp at hst
        · simp at hst
      · intro hb
        exact typedValue_star htv hb

/-- **C06** A member that is present (and not a `null` that counts as absent) is never
reported missing. -/
theorem C06_present_not_missing {Γ : Env} (hext : HandWrittenOK Γ) {m : Nat} {fd : FieldDecl} (hm : SingleField Γ m fd)
    {v w : JV} (hname : fd.tags.jsonName ≠ []) (hget : v.get fd.tags.jsonName = some w)
    (hnull : fd.typ.nullLike = true → w ≠ .null) {s s' : GoVal} {e : Err} (h : Fills Γ m v s (some e) s') :
    e ≠ ⟨some fd.tags.jsonName, .required fd.tags.jsonName⟩ := by
  have hext' : TableOK Γ.ext := by
    intro n v s e s' h x hc hp
    obtain ⟨p, c⟩ := e
    simp only at hc hp
    subst hc; subst hp
    exact hext n v s _ s' x h rfl
  obtain ⟨gs, gs', k, fs, rfl, rfl, hg, h | h⟩ := fills_struct hm h
  · intro he
    exact validate_notMissing h.2.1.symm _ (by rw [he])
  · obtain ⟨_, i, f, g, g', h1, h2, h3, h4, _⟩ := runFields_err h.2
    obtain ⟨fd', hmem, hgen⟩ := genFields_mem hg (List.mem_of_getElem? h1)
    simp only [List.mem_singleton] at hmem
    subst hmem
    obtain ⟨hj, _, r, _, _, _, _, hn, _⟩ := genFieldFill_some hgen
    rw [← hj]
    refine (runField_present (methods_missing hext' k) (w := w) (by rw [hj]; exact hname) (by rw [hj]; exact hget) ?_ h4).1
    rw [hn]
    have : (Fld.prepare Γ true fd'.typ fd'.tags false false).isNullable = fd'.typ.nullLike := by
      cases fd'.typ <;> rfl
    rw [this]
    cases hnl : fd'.typ.nullLike with
    | false => rfl
    | true =>
      have := hnull hnl
      cases w <;> first | rfl | exact absurd rfl this

/-! ## C07 -/

omit [Ext] in
theorem prepare_nullable (Γ : Env) (fd : FieldDecl) :
    (Fld.prepare Γ true fd.typ fd.tags false false).isNullable = fd.typ.nullLike := by
  cases fd.typ <;> rfl

/-- templates that refuse `null` -/
def Extr.rejectsNull : Extr → Bool
  | .int | .uint | .float | .bool | .strChecked _ | .strUnchecked | .time _ _ | .uuid _
  | .slice _ _ _ _ _ _ | .array _ _ _ _ _ _ | .map _ _ _ _ => true
  | _ => false

theorem runExtr_null {M : Nat → Methods} {x : Extr} (hx : x.rejectsNull = true) {i : Nat} {fld : GoVal} :
    (∃ e, runExtr M x i .null fld = .ok (.ret e fld)) ∨ ∃ e, runExtr M x i .null fld = .ok (.done (.error e) fld) := by
  cases x <;> simp [Extr.rejectsNull] at hx <;>
    simp [runExtr, JV.getInt, JV.getUint, JV.getFloat, JV.getBool, JV.getStr, JV.getArr, JV.getObj]

/-- **C07** `null` for a scalar, string, time, UUID, struct or named collection field is an
error. -/
theorem C07_null_rejected {Γ : Env} {n : Nat} {strict : Bool} {fields : List FieldDecl}
    (hd : Γ.decl n = some (.struct strict fields)) {v : JV} {s s' : GoVal} {i : Nat} {fd : FieldDecl}
    (hi : fields[i]? = some fd) (hname : fd.tags.jsonName ≠ []) (hdash : fd.tags.jsonName ≠ str "-")
    (hnull : v.get fd.tags.jsonName = some .null) (ht : NullRejecting Γ fd.typ) : ¬ Fills Γ n v s none s' := by
  intro h
  obtain ⟨_, _, k, f, g, g', _, _, h1, h2, h3, h4, _⟩ := fills_field hd h hi
  cases f with
  | none => exact hdash (genFieldFill_none h3)
  | some f =>
    obtain ⟨hj, _, r, htv, hx, _, _, hn, _⟩ := genFieldFill_some h3
    have hnl : f.nullable = false := by
      rw [hn, prepare_nullable]
      generalize fd.typ = ty at ht
      cases ht with
      | prim h => cases h <;> rfl
      | _ => rfl
    -- which template is emitted
    have hcase : f.x.rejectsNull = true ∨ ∃ m st fs, fd.typ = .named m ∧ Γ.decl m = some (.struct st fs) := by
      cases k with
      | zero => simp [typedValue] at htv
      | succ k =>
        rw [hx]
        generalize hty : fd.typ = ty at ht htv
        cases ht with
        | prim h =>
          left
          rename_i p
          have : (Fld.prepare Γ true ty fd.tags false false).refx = .prim p := by
            cases h <;> simp_all [Fld.prepare, Env.denoted, Env.denotedIdent, TExpr.isOrdinal, Decl.spec]
          unfold typedValue at htv
          simp only [this, Env.denoted, TExpr.isOrdinal, if_true] at htv
          obtain ⟨x, h5, h6⟩ := Out.bind_eq_ok.1 htv
          simp only [Out.pure_eq, Out.ok.injEq] at h6
          subst h6
          cases p <;> simp [primExtraction, Fld.prepare] at h5 <;> subst h5 <;> rfl
        | struct h => rename_i m st fs; exact Or.inr ⟨m, st, fs, rfl, h⟩
        | time =>
          left
          have : (Fld.prepare Γ true .time fd.tags false false).refx = .time := by
            simp_all [Fld.prepare, Env.denoted, Env.denotedIdent, TExpr.isOrdinal, Decl.spec]
          unfold typedValue at htv
          simp only [this, Env.denoted, TExpr.isOrdinal, Bool.false_eq_true, if_false] at htv
          obtain ⟨x, h5, h6⟩ := Out.bind_eq_ok.1 htv
          simp only [Out.pure_eq, Out.ok.injEq] at h6
          subst h6; rfl
        | namedTime h =>
          left
          rename_i m
          have : (Fld.prepare Γ true (.named m) fd.tags false false).refx = .time := by
            simp_all [Fld.prepare, Env.denoted, Env.denotedIdent, TExpr.isOrdinal, Decl.spec]
          unfold typedValue at htv
          simp only [this, Env.denoted, TExpr.isOrdinal, Bool.false_eq_true, if_false] at htv
          obtain ⟨x, h5, h6⟩ := Out.bind_eq_ok.1 htv
          simp only [Out.pure_eq, Out.ok.injEq] at h6
          subst h6; rfl
        | uuid =>
          left
          have : (Fld.prepare Γ true .uuid fd.tags false false).refx = .uuid := by
            simp_all [Fld.prepare, Env.denoted, Env.denotedIdent, TExpr.isOrdinal, Decl.spec]
          unfold typedValue at htv
          simp only [this, Env.denoted, TExpr.isOrdinal, Bool.false_eq_true, if_false, Out.ok.injEq] at htv
          subst htv; rfl
        | namedUuid h =>
          left
          rename_i m
          have : (Fld.prepare Γ true (.named m) fd.tags false false).refx = .uuid := by
            simp_all [Fld.prepare, Env.denoted, Env.denotedIdent, TExpr.isOrdinal, Decl.spec]
          unfold typedValue at htv
          simp only [this, Env.denoted, TExpr.isOrdinal, Bool.false_eq_true, if_false, Out.ok.injEq] at htv
          subst htv; rfl
        | namedSlice h hb =>
          left
          rename_i m t
          have h0 : (Fld.prepare Γ true (.named m) fd.tags false false).refx = .slice t := by
            simp_all [Fld.prepare, Env.denoted, Env.denotedIdent, TExpr.isOrdinal, Decl.spec]
          have h1 : t.isByte = false := by
            cases t with
            | prim p => cases p <;> first | rfl | exact absurd rfl hb
            | _ => rfl
          unfold typedValue at htv
          simp only [h0, Env.denoted, TExpr.isOrdinal, Bool.false_eq_true, if_false, h1] at htv
          split at htv
          · cases htv
          · split at htv
            · cases htv
            · obtain ⟨r', _, h5⟩ := Out.bind_eq_ok.1 htv
              split at h5
              · cases h5
              · split at h5
                · cases h5
                · simp only [Out.pure_eq, Out.ok.injEq] at h5
                  subst h5; rfl
        | namedArray h hb =>
          left
          rename_i m len t
          have h0 : (Fld.prepare Γ true (.named m) fd.tags false false).refx = .array len t := by
            simp_all [Fld.prepare, Env.denoted, Env.denotedIdent, TExpr.isOrdinal, Decl.spec]
          have h1 : t.isByte = false := by
            cases t with
            | prim p => cases p <;> first | rfl | exact absurd rfl hb
            | _ => rfl
          unfold typedValue at htv
          simp only [h0, Env.denoted, TExpr.isOrdinal, Bool.false_eq_true, if_false, h1] at htv
          split at htv
          · cases htv
          · obtain ⟨r', _, h5⟩ := Out.bind_eq_ok.1 htv
            split at h5
            · cases h5
            · split at h5
              · cases h5
              · cases h5
              · cases h5
              · simp only [Out.pure_eq, Out.ok.injEq] at h5
                subst h5; rfl
        | namedMap h =>
          left
          rename_i m t
          have h0 : (Fld.prepare Γ true (.named m) fd.tags false false).refx = .map t := by
            simp_all [Fld.prepare, Env.denoted, Env.denotedIdent, TExpr.isOrdinal, Decl.spec]
          unfold typedValue at htv
          simp only [h0, Env.denoted, TExpr.isOrdinal, Bool.false_eq_true, if_false] at htv
          split at htv
          · cases htv
          · obtain ⟨r', _, h5⟩ := Out.bind_eq_ok.1 htv
            split at h5
            · cases h5
            · split at h5 <;> first
                | (cases h5; done)
                | (simp only [Out.pure_eq, Out.ok.injEq] at h5; subst h5; rfl)
    rcases hcase with hc | ⟨m, st, fs, hty, hdm⟩
    · simp only [stepField, runField, hj, hname, if_false, hnull, hnl, Bool.false_and, Bool.false_eq_true] at h4
      rcases runExtr_null (M := Γ.methods k) (x := f.x) hc (i := 0) (fld := g) with ⟨e, he⟩ | ⟨e, he⟩ <;> rw [he] at h4 <;>
        simp at h4
      split at h4 <;> simp at h4
    · obtain ⟨hxx, hst, _, hck, hmx⟩ := genFieldFill_embedded hdm hty h3
      simp only [stepField, runField, hj, hname, if_false, hnull, hnl, Bool.false_and, Bool.false_eq_true, hxx,
        runExtr, fillT] at h4
      obtain ⟨tv, h5, h6⟩ := Out.bind_eq_ok.1 h4
      obtain ⟨⟨e, w⟩, h7, h8⟩ := Out.bind_eq_ok.1 h5
      have hrej := (C01_rejected hdm (v := .null) (by rintro ⟨_, h, _⟩; cases h) ⟨k, h7⟩).2
      obtain ⟨err, rfl, _⟩ := hrej
      simp only [Out.pure_eq, Out.ok.injEq] at h8
      subst h8
      simp [hck] at h6

/-- **C07** `null` for a field written with a literal slice, array or map type, or as a
pointer (to something that is not itself a pointer), leaves the field as it was if the decode
succeeds — also when the field has a default. -/
theorem C07_null_keeps {Γ : Env} {n : Nat} {strict : Bool} {fields : List FieldDecl}
    (hd : Γ.decl n = some (.struct strict fields)) {v : JV} {gs gs' : List GoVal}
    (h : Fills Γ n v (.struct gs) none (.struct gs')) {i : Nat} {fd : FieldDecl} (hi : fields[i]? = some fd)
    (hname : fd.tags.jsonName ≠ []) (hnull : v.get fd.tags.jsonName = some .null)
    (ht : fd.typ.nullLike = true) (hpp : ∀ t, fd.typ = .star t → ¬ IsPointer Γ t) : gs'[i]? = gs[i]? := by
  obtain ⟨_, _, k, f, g, g', e1, e2, h1, h2, h3, h4, _⟩ := fills_field hd h hi
  cases e1; cases e2
  rw [h1, h2]
  cases f with
  | none => simp only [stepField, Out.ok.injEq, Prod.mk.injEq, true_and] at h4; rw [h4]
  | some f =>
    obtain ⟨hj, _, r, htv, _, hst, hdf, hn, _⟩ := genFieldFill_some h3
    have hnl : f.nullable = true := by rw [hn, prepare_nullable]; exact ht
    simp only [stepField, runField, hj, hname, if_false, hnull, hnl, JV.isNull, Bool.and_self, if_true,
      Option.isSome_some, Bool.and_true] at h4
    cases hfd : f.dflt with
    | nothing => rw [hfd] at h4; simp at h4; rw [h4]
    | required => rw [hfd] at h4; simp at h4
    | value d oa =>
      rw [hfd] at h4 hdf
      simp only at h4
      have hrefx : ∀ x, (Fld.prepare Γ true fd.typ fd.tags false false).refx ≠ .star x := by
        intro x hx
        rcases prepare_refx_star hx with he | ⟨m, he, hm⟩
        · rcases prepare_typ Γ true fd.typ fd.tags with ⟨_, h⟩ | ⟨hs, h⟩
          · rw [he] at h; exact hpp _ h (.star _)
          · rw [he] at h
            rw [h] at hs
            simp [Fld.prepare] at hs
        · rcases prepare_typ Γ true fd.typ fd.tags with ⟨_, h⟩ | ⟨hs, h⟩
          · rw [he] at h; exact hpp _ h (.named hm)
          · rw [he] at h; rw [h] at ht; simp [TExpr.nullLike] at ht
      have hst' : r.isStarType = false := by
        cases hb : r.isStarType with
        | false => rfl
        | true =>
          unfold storeOf at hst
          rw [hb] at hst
          simp only [if_true] at hst
          cases hst
      have hoa : oa = true := by
        unfold ifDefault at hdf
        split at hdf
        · split at hdf <;> simp at hdf
        · obtain ⟨lv, h5, h6⟩ := Out.bind_eq_ok.1 hdf
          rw [hst'] at h6
          simp only [Bool.false_eq_true, if_false] at h6
          split at h6
          · simp at h6; exact h6.2
          · rename_i hns
            rcases literalFromType_prim h5 with ⟨p, hp, _⟩ | ⟨y, hy⟩
            · exfalso
              rcases prepare_typ Γ true fd.typ fd.tags with ⟨hs, _⟩ | ⟨_, h⟩
              · exact hns hs
              · have := prepare_refx_prim hp
                rw [← h] at this
                generalize fd.typ = ty at this ht
                cases this <;> simp [TExpr.nullLike] at ht
            · exact absurd hy (hrefx y)
      rw [hoa] at h4
      simp at h4
      rw [h4]

/-- **C07** … and if such a field is required (and has no default), `null` counts as missing. -/
theorem C07_null_required {Γ : Env} {n : Nat} {strict : Bool} {fields : List FieldDecl}
    (hd : Γ.decl n = some (.struct strict fields)) {v : JV} {s s' : GoVal} {i : Nat} {fd : FieldDecl}
    (hi : fields[i]? = some fd) (hname : fd.tags.jsonName ≠ []) (hdash : fd.tags.jsonName ≠ str "-")
    (hnull : v.get fd.tags.jsonName = some .null) (ht : fd.typ.nullLike = true)
    (hdef : fd.tags.dflt = []) (hreq : fd.tags.required = true) : ¬ Fills Γ n v s none s' := by
  intro h
  obtain ⟨_, _, k, f, g, g', _, _, h1, h2, h3, h4, _⟩ := fills_field hd h hi
  cases f with
  | none => exact hdash (genFieldFill_none h3)
  | some f =>
    obtain ⟨hj, _, r, _, _, _, hdf, hn, _⟩ := genFieldFill_some h3
    have hnl : f.nullable = true := by rw [hn, prepare_nullable]; exact ht
    have htag : (Fld.prepare Γ true fd.typ fd.tags false false).tags = fd.tags := rfl
    simp only [ifDefault, htag, hdef, if_true, hreq, Out.ok.injEq] at hdf
    simp only [stepField, runField, hj, hname, if_false, hnull, hnl, JV.isNull, Bool.and_self, if_true, ← hdf] at h4
    simp at h4

/-! ## C32, reading -/

/-- **C32** (reading half) A field with JSON name "-" keeps its value in every decode. -/
theorem C32_not_read_partial {Γ : Env} {n : Nat} {strict : Bool} {fields : List FieldDecl}
    (hd : Γ.decl n = some (.struct strict fields)) {v : JV} {gs gs' : List GoVal} {e : Option Err}
    (h : Fills Γ n v (.struct gs) e (.struct gs')) {i : Nat} {fd : FieldDecl} (hi : fields[i]? = some fd)
    (hdash : fd.tags.jsonName = str "-") : gs'[i]? = gs[i]? := by
  obtain ⟨_, _, k, fs, e1, e2, hg, h | h⟩ := fills_struct hd h <;> cases e1 <;> cases e2
  · rw [h.2.2]
  · obtain ⟨f, hf, hgen⟩ := genFields_get hg hi
    have hnone : f = none := by
      unfold genFieldFill at hgen
      simp only [hdash, if_true, Out.ok.injEq] at hgen
      exact hgen.symm
    subst hnone
    cases e with
    | none =>
      obtain ⟨_, _, h3⟩ := runFields_ok h.2
      obtain ⟨g, g', h4, h5, h6⟩ := h3 i none hf
      simp only [stepField, Out.ok.injEq, Prod.mk.injEq, true_and] at h6
      rw [h4, h5, h6]
    | some err =>
      obtain ⟨_, j, fj, g, g', h1, _, _, _, h5, h6⟩ := runFields_err h.2
      rcases Nat.lt_trichotomy i j with hlt | heq | hgt
      · obtain ⟨a, b, ha, hb, hc⟩ := h6 i none hlt hf
        simp only [stepField, Out.ok.injEq, Prod.mk.injEq, true_and] at hc
        rw [ha, hb, hc]
      · subst heq; rw [hf] at h1; simp at h1
      · exact h5 i hgt

end

/-! ## The hypotheses can be met: examples on the sample package -/

namespace Examples
open Sample
attribute [local instance] Sample.ext

/-- {"id":5,"name":"ann","id":6} -/
def twice : JV := .obj [(str "id", .num (str "5")), (str "name", .str (str "ann")), (str "id", .num (str "6"))]

set_option maxRecDepth 20000 in
/-- C01/C02: a duplicate key is rejected -/
example : ¬ Acceptable (jsonNames user) false twice ∧
    Fills Γ 0 twice used (some ⟨some (str "id"), .twice (str "id")⟩) used := by
  refine ⟨?_, 5, rfl⟩
  rintro ⟨kvs, h, h1, _⟩
  cases h
  exact absurd (h1 (str "id") (by simp [user, jsonNames, tagOpt])) (by decide)

/-- {"id":5,"name":1}: the second field fails -/
def badName : JV := .obj [(str "id", .num (str "5")), (str "name", .num (str "1"))]

theorem badName_acceptable : Acceptable (jsonNames user) true badName := by
  refine ⟨_, rfl, by decide, by decide⟩

/-- what is left in the receiver -/
def badNameLeft : GoVal := .struct [.int 5, .str (str "old"), .ptr (.str (str "n")), .slice [.str (str "q")] [.str (str "r")],
  .int 3, .str (str "s3cret")]

set_option maxRecDepth 20000 in
theorem badName_fills : Fills Γ 1 badName used (some ⟨some (str "name"), .wrongType .string .number⟩) badNameLeft := ⟨5, rfl⟩

/-- C01, C18: an acceptable document whose second field fails -/
example : Acceptable (jsonNames user) true badName ∧
    (∃ err s', Fills Γ 1 badName used (some err) s') ∧
    ∀ (i : Nat) (fd : FieldDecl), user[i]? = some fd → SingleField Γ (10 + i) fd :=
  ⟨badName_acceptable, ⟨_, _, badName_fills⟩, user_single⟩

/-- a document for Doc, with the members of Base and Doc mixed -/
def d1 : List (Str × JV) := [(str "rev", .num (str "3")), (str "when", .str (str "T5")), (str "owner", ann), (str "zz", .null)]
def d2 : List (Str × JV) := [(str "owner", ann), (str "rev", .num (str "3")), (str "zz", .null), (str "when", .str (str "T5"))]
def doc0 : GoVal := .struct [.struct [.int 0], used, .time .zero]
def doc1 : GoVal := .struct [.struct [.int 3], annDecoded, .time ⟨5, 0⟩]

set_option maxRecDepth 20000 in
theorem d1_fills : FillsTo Γ 3 (.obj d1) doc0 (.ok (none, doc1)) := ⟨by simp, 6, rfl⟩
set_option maxRecDepth 20000 in
theorem d2_fills : FillsTo Γ 3 (.obj d2) doc0 (.ok (none, doc1)) := ⟨by simp, 6, rfl⟩

/-- Doc and Base are closed under embedding -/
theorem doc_closed : ClosedUnderEmbedding Γ (fun n => n = 3 ∨ n = 2) := by
  rintro n (rfl | rfl)
  · refine ⟨false, doc, rfl, ?_⟩
    intro fd hfd hname
    simp only [doc, List.mem_cons, List.not_mem_nil, or_false] at hfd
    rcases hfd with rfl | rfl | rfl
    · exact ⟨2, rfl, Or.inr rfl⟩
    · simp [tag] at hname
    · simp [tag] at hname
  · refine ⟨false, base, rfl, ?_⟩
    intro fd hfd hname
    simp only [base, List.mem_cons, List.not_mem_nil, or_false] at hfd
    subst hfd
    simp [tag] at hname

/-- C03: two orders of a document for a type with an embedded struct -/
example : d1.Perm d2 ∧ (d1.map (·.1)).Nodup ∧ d1.map (·.1) ≠ d2.map (·.1) := by
  refine ⟨?_, by decide, by decide⟩
  have h1 : d1.Perm ((str "owner", ann) :: [(str "rev", .num (str "3")), (str "when", .str (str "T5")), (str "zz", .null)]) := by
    exact (List.Perm.cons _ (List.Perm.swap _ _ _)).trans (List.Perm.swap _ _ _)
  exact h1.trans (List.Perm.cons _ (List.Perm.cons _ (List.Perm.swap _ _ _)))

example : SameUpToError (.ok (none, doc1)) (.ok (none, doc1)) :=
  C03_member_order doc_closed (n := 3) (Or.inl rfl)
    (((List.Perm.cons _ (List.Perm.swap _ _ _)).trans (List.Perm.swap _ _ _)).trans
      (List.Perm.cons _ (List.Perm.cons _ (List.Perm.swap _ _ _)))) (by decide) d1_fills d2_fills

/-- the same document without the unknown member "zz" -/
def d3 : List (Str × JV) := [(str "rev", .num (str "3")), (str "when", .str (str "T5")), (str "owner", ann)]
set_option maxRecDepth 20000 in
theorem d3_fills : FillsTo Γ 3 (.obj d3) doc0 (.ok (none, doc1)) := ⟨by simp, 6, rfl⟩

/-- C04: an unknown member more or less -/
example : SameUpToError (.ok (none, doc1)) (.ok (none, doc1)) := by
  refine C04_unknown_members doc_closed ?_ (K := fun key => key ≠ str "zz") ?_ (n := 3) (Or.inl rfl) ?_ d1_fills d3_fills
  · rintro m (rfl | rfl) strict fields h <;> simp [Γ] at h <;> exact h.1
  · rintro m (rfl | rfl) strict fields h fd hfd <;> simp [Γ] at h
    · rw [← h.2] at hfd
      simp only [doc, List.mem_cons, List.not_mem_nil, or_false] at hfd
      rcases hfd with rfl | rfl | rfl <;> decide
    · rw [← h.2] at hfd
      simp only [base, List.mem_cons, List.not_mem_nil, or_false] at hfd
      subst hfd; decide
  · intro key hk
    simp [d1, d3, List.filter_cons, Ne.symm hk]

/-- C05, C06, C32: `ann` has no "level" (default 7), no "note", and "-" is not read -/
example : Fills Γ 0 ann used none annDecoded ∧ ann.get (str "level") = none ∧ ann.get (str "note") = none ∧
    user[4]? = some ⟨.prim .int, tagDef "level" "7"⟩ ∧ user[5]? = some ⟨.prim .string, tag "-"⟩ :=
  ⟨ann_fills, rfl, rfl, rfl, rfl⟩

/-- C05: the hypotheses of independence, on two different documents and receivers -/
def bob : JV := .obj [(str "level", .num (str "1")), (str "name", .str (str "ann")), (str "id", .num (str "9"))]
def fresh : GoVal := .struct [.int 0, .str [], .nil, .nil, .int 0, .str []]
set_option maxRecDepth 20000 in
example : ∃ gs', Fills Γ 0 bob fresh none (.struct gs') ∧ bob.get (str "name") = ann.get (str "name") :=
  ⟨_, ⟨5, rfl⟩, rfl⟩

set_option maxRecDepth 20000 in
/-- C06: the default is a Go literal: a leading zero makes it octal -/
example : GoInteger (str "010") 8 ∧ GoInteger (str "-7") (-7) ∧ GoInteger (str "0x1F") 31 ∧
    ∀ i, ¬ GoInteger (str "08") i :=
  ⟨goInt_iff.1 rfl, goInt_iff.1 rfl, goInt_iff.1 rfl, fun _ h => by
    have h' := goInt_iff.2 h
    have : goInt (str "08") = none := rfl
    rw [this] at h'
    cases h'⟩

/-- C06: a required member is absent -/
example : Fills Γ 10 (.obj []) (.struct [.int 3]) (some ⟨some (str "id"), .required (str "id")⟩) (.struct [.int 3]) ∧
    Acceptable (jsonNames [⟨.prim .int8, tagOpt "id" "required"⟩]) false (.obj []) :=
  ⟨⟨5, rfl⟩, ⟨[], rfl, by decide, by simp⟩⟩

/-- C06: hand-written methods of the sample package -/
theorem handWritten : HandWrittenOK Γ := by
  intro n v s e s' name h; simp [Γ, Methods.unsupp] at h

set_option maxRecDepth 20000 in
/-- C06: a required member that is present but wrong -/
example : ∃ e s', Fills Γ 10 (.obj [(str "id", .str [])]) (.struct [.int 3]) (some e) s' := ⟨_, _, 5, rfl⟩

set_option maxRecDepth 20000 in
/-- C07: null for a string is an error … -/
example : NullRejecting Γ (.prim .string) ∧
    ∃ e, Fills Γ 11 (.obj [(str "name", .null)]) (.struct [.str (str "x")]) (some e) (.struct [.str (str "x")]) :=
  ⟨.prim (.self _), _, 5, rfl⟩

set_option maxRecDepth 20000 in
/-- … and keeps a pointer … -/
example : Fills Γ 12 (.obj [(str "note", .null)]) (.struct [.ptr (.str (str "x"))]) none (.struct [.ptr (.str (str "x"))]) ∧
    ∀ t, TExpr.star (.prim .string) = .star t → ¬ IsPointer Γ t := by
  refine ⟨⟨5, rfl⟩, ?_⟩
  rintro t h
  cases h
  intro h; cases h

set_option maxRecDepth 20000 in
/-- **C07 is false** for a named byte slice: `null` clears the previous value (and is no
error). -/
theorem C07_null_clears_named_bytes :
    Fills Γ 5 (.obj [(str "blob", .null)]) (.struct [.bytes [1, 2]]) none (.struct [.nil]) := ⟨5, rfl⟩

end Examples

end VJ
