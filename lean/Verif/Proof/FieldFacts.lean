import Verif.Proof.NamedDecode
import Verif.Props.Determinism

/-!
# Reading off what happened to one field
-/

namespace VJ
set_option linter.unusedSectionVars false
set_option linter.unusedSimpArgs false

variable [Ext]

/-- after a successful decode a field holds what the decoding relation says -/
theorem field_result {Γ : Env} {n : Nat} {strict : Bool} {fields : List FieldDecl}
    (hd : Γ.decl n = some (.struct strict fields)) {v : JV} {gs gs' : List GoVal}
    (h : Fills Γ n v (.struct gs) none (.struct gs')) {i : Nat} {fd : FieldDecl} (hi : fields[i]? = some fd)
    (hke : KeepsErrors Γ (pointee fd.typ)) {new : GoVal} (hn : gs'[i]? = some new) :
    ∃ old, gs[i]? = some old ∧ FieldResult Γ fd v old new := by
  obtain ⟨gs1, gs1', k, f, g, g', e1, e2, hgs, hgs', hgen, hstep, hacc⟩ := fills_field hd h hi
  cases e1; cases e2
  rw [hn] at hgs'; cases hgs'
  exact ⟨g, hgs, (field_step_iff hgen).1 ⟨k, hstep⟩ hke⟩

/-- a field with a member in the document (and not `null` counting as absent) is decoded from it -/
theorem field_decoded {Γ : Env} {n : Nat} {strict : Bool} {fields : List FieldDecl}
    (hd : Γ.decl n = some (.struct strict fields)) {v : JV} {gs gs' : List GoVal}
    (h : Fills Γ n v (.struct gs) none (.struct gs')) {i : Nat} {fd : FieldDecl} (hi : fields[i]? = some fd)
    (hke : KeepsErrors Γ (pointee fd.typ)) {new : GoVal} (hn : gs'[i]? = some new)
    (hne : fd.tags.jsonName ≠ str "-") {w : JV} (hl : Looks fd.tags.jsonName v w)
    (hnn : fd.typ.nullLike = true → w ≠ .null) :
    ∃ old, gs[i]? = some old ∧ Decodes Γ fd.tags.layout fd.typ w old new ∧ NotTooLarge Γ fd.typ w := by
  obtain ⟨old, ho, hr⟩ := field_result hd h hi hke hn
  refine ⟨old, ho, ?_⟩
  have nomiss : ¬ Missing fd v := by
    rintro (⟨h0, h1⟩ | ⟨h0, h1⟩)
    · rcases hl with ⟨h, _⟩ | ⟨_, h⟩
      · exact h0 h
      · rw [h1] at h; cases h
    · have a := looks_iff.2 hl
      rw [looks_iff.2 h1] at a
      cases a
      exact hnn h0 rfl
  cases hr with
  | hidden h => exact absurd h hne
  | decoded _ hl' _ h1 h2 =>
    have a := looks_iff.2 hl
    rw [looks_iff.2 hl'] at a
    cases a
    exact ⟨h1, h2⟩
  | kept _ h => exact absurd h nomiss
  | default _ h => exact absurd h nomiss
  | nullKept _ hl' _ hp =>
    exfalso
    obtain ⟨u, hu, _⟩ := hp
    exact nomiss (Or.inr ⟨by rw [hu]; rfl, hl'⟩)

/-- and conversely, for a type with only this field -/
theorem single_decoded {Γ : Env} {m : Nat} {fd : FieldDecl} (hd : SingleField Γ m fd) (hdec : HasDecoder Γ m)
    (hne : fd.tags.jsonName ≠ str "-") {doc w : JV} (hacc : Acceptable [fd.tags.jsonName] false doc)
    (hl : Looks fd.tags.jsonName doc w) (hnn : fd.typ.nullLike = true → w ≠ .null) {old new : GoVal}
    (h : Decodes Γ fd.tags.layout fd.typ w old new) (hm : NotTooLarge Γ fd.typ w) :
    Fills Γ m doc (.struct [old]) none (.struct [new]) := by
  refine (struct_iff hd hdec).2 hacc rfl rfl ?_
  intro i fd' o n' h1 h2 h3
  match i with
  | 0 =>
    simp only [List.getElem?_cons_zero, Option.some.injEq] at h1 h2 h3
    subst h1; subst h2; subst h3
    exact .decoded hne hl hnn h hm
  | i + 1 => simp at h1

/-- types without elements keep errors -/
theorem keepsErrors_leaf {Γ : Env} {t : TExpr} (h : ∀ elt, ¬ HasElem Γ t elt) : KeepsErrors Γ t :=
  .mk (fun elt h1 => absurd (h1.elim Or.inl fun h2 => Or.inr (Or.inl h2)) (h elt)) (fun elt h1 => absurd h1 (h elt))

theorem isPrim_noElem {Γ : Env} {t : TExpr} {p : Prim} (h : IsPrim Γ t p) (elt : TExpr) : ¬ HasElem Γ t elt := by
  rintro (h' | ⟨n, h'⟩ | h')
  all_goals
    cases h' with
    | self => cases h
    | named hn =>
      cases h with
      | named hp => rw [hn] at hp; cases hp

theorem keepsErrors_prim {Γ : Env} {t : TExpr} {p : Prim} (h : IsPrim Γ t p) : KeepsErrors Γ t :=
  keepsErrors_leaf (isPrim_noElem h)

theorem isPrim_kind {Γ : Env} {t : TExpr} {p : Prim} (h : IsPrim Γ t p) : resolve2 Γ (resolve Γ t) = .prim p :=
  primName_final (.base h)

/-- decoding into a place of a predeclared type -/
theorem decodes_prim_inv {Γ : Env} {L : Str} {t : TExpr} {p : Prim} (ht : PrimName Γ t p) {v : JV} {old new : GoVal}
    (h : Decodes Γ L t v old new) : PrimDec p v new := by
  have hk := primName_final ht
  rcases decodes_kind h hk with ⟨p', h, h'⟩ | ⟨h, _⟩ | ⟨h, _⟩ | ⟨h, _⟩ | ⟨h, _⟩ | ⟨_, h, _⟩ | ⟨_, h, _⟩ |
    ⟨_, _, h, _⟩ | ⟨_, h, _⟩ | ⟨_, _, h, _⟩
  case inl => cases h; exact h'
  all_goals first | (simp at h; done) | cases h

theorem primName_noCalls {Γ : Env} {t : TExpr} {p : Prim} (ht : PrimName Γ t p) (n : Nat) : ¬ Calls Γ t n := by
  intro hc
  have := calls_final hc
  rw [primName_final ht] at this
  simp at this

theorem decodesNew_prim_inv {Γ : Env} {L : Str} {t : TExpr} {p : Prim} (ht : PrimName Γ t p) {v : JV} {w : GoVal}
    (h : DecodesNew Γ L t v w) : PrimDec p v w := by
  cases h with
  | call hc => exact absurd hc (primName_noCalls ht _)
  | other _ h => exact decodes_prim_inv ht (h .nil)

theorem decodes_star_inv {Γ : Env} {L : Str} {t : TExpr} {v : JV} {old new : GoVal} (h : Decodes Γ L (.star t) v old new) :
    ∃ w, new = .ptr w ∧ DecodesNew Γ L t v w :=
  decodes_ptr_inv h (is_resolve (.self _) (by simp) (by simp) (by simp))

theorem decodes_time_inv {Γ : Env} {L : Str} {t : TExpr} (ht : Is Γ t .time) {v : JV} {old new : GoVal}
    (h : Decodes Γ L t v old new) :
    ∃ s tm, v = .str s ∧ new = .time tm ∧ ReadsTime L s tm := by
  have hk := is_resolve ht (by simp) (by simp) (by simp)
  rcases decodes_kind h hk with ⟨_, h, _⟩ | ⟨_, h'⟩ | ⟨h, _⟩ | ⟨h, _⟩ | ⟨h, _⟩ | ⟨_, h, _⟩ | ⟨_, h, _⟩ | ⟨_, _, h, _⟩ | ⟨_, h, _⟩ | ⟨_, _, h, _⟩
  case inr.inl => exact h'
  all_goals first | (simp at h; done) | (cases h; done)

theorem decodes_uuid_inv {Γ : Env} {L : Str} {t : TExpr} (ht : Is Γ t .uuid) {v : JV} {old new : GoVal}
    (h : Decodes Γ L t v old new) :
    ∃ s b, v = .str s ∧ new = .uuid b ∧ ReadsUUID s b := by
  have hk := is_resolve ht (by simp) (by simp) (by simp)
  rcases decodes_kind h hk with ⟨_, h, _⟩ | ⟨h, _⟩ | ⟨_, h'⟩ | ⟨h, _⟩ | ⟨h, _⟩ | ⟨_, h, _⟩ | ⟨_, h, _⟩ | ⟨_, _, h, _⟩ | ⟨_, h, _⟩ | ⟨_, _, h, _⟩
  case inr.inr.inl => exact h'
  all_goals first | (simp at h; done) | (cases h; done)

theorem decodes_bytes_inv {Γ : Env} {L : Str} {t : TExpr} (ht : Is Γ t (.slice (.prim .byte))) {v : JV} {old new : GoVal}
    (h : Decodes Γ L t v old new) :
    (v = .null ∧ new = .nil) ∨ ∃ s b, v = .str s ∧ new = .bytes b ∧ Base64Text s b := by
  have hk := is_resolve ht (by simp) (by simp) (by simp)
  rcases decodes_kind h hk with ⟨_, h, _⟩ | ⟨h, _⟩ | ⟨h, _⟩ | ⟨h, _⟩ | ⟨_, h'⟩ | ⟨_, h, _⟩ | ⟨_, h, _⟩ | ⟨_, _, h, _⟩ | ⟨_, h, _⟩ | ⟨_, _, h, _⟩
  case inr.inr.inr.inr.inl => exact h'
  all_goals first | (simp at h; done) | (cases h; done) | (rename_i h2; simp at h; exact absurd h.symm h2.1)

theorem decodes_fixedBytes_inv {Γ : Env} {L : Str} {t : TExpr} {n : Nat} (ht : Is Γ t (.array n (.prim .byte))) {v : JV} {old new : GoVal}
    (h : Decodes Γ L t v old new) :
    (v = .null ∧ new = .barr (List.replicate n 0)) ∨ ∃ s b, v = .str s ∧ new = .barr b ∧ Base64Text s b ∧ b.length = n := by
  have hk := is_resolve ht (by simp) (by simp) (by simp)
  rcases decodes_kind h hk with ⟨_, h, _⟩ | ⟨h, _⟩ | ⟨h, _⟩ | ⟨h, _⟩ | ⟨h, _⟩ | ⟨_, h1, h'⟩ | ⟨_, h, _⟩ | ⟨_, _, h, _⟩ | ⟨_, h, _⟩ | ⟨_, _, h, _⟩
  case inr.inr.inr.inr.inr.inl => cases h1; exact h'
  all_goals first | (simp at h; done) | (cases h; done) | (rename_i h2; simp at h; exact absurd h.2.symm h2.1)

theorem decodes_slice_inv {Γ : Env} {L : Str} {t : TExpr} {elt : TExpr} (hb : elt ≠ .prim .byte) (ht : Is Γ t (.slice elt)) {v : JV} {old new : GoVal}
    (h : Decodes Γ L t v old new) :
    ∃ l z cells news, v = .arr l ∧ new = .slice news (cells.drop l.length) ∧ ZeroOf Γ elt z ∧
      Storage old l.length z cells ∧ news.length = l.length ∧
      (∀ (i : Nat) (w : GoVal), elt.nullLike = true → l[i]? = some .null → news[i]? = some w → w = .nil) ∧
      (∀ (i : Nat) (a : JV) (c w : GoVal), l[i]? = some a → cells[i]? = some c → news[i]? = some w →
        (elt.nullLike = true → a ≠ .null) → Decodes Γ [] elt a c w) := by
  have hk := is_resolve ht (by simp) (by simp) (by simp)
  rcases decodes_kind h hk with ⟨_, h, _⟩ | ⟨h, _⟩ | ⟨h, _⟩ | ⟨h, _⟩ | ⟨h, _⟩ | ⟨_, h, _⟩ | ⟨_, h1, _, h'⟩ | ⟨_, _, h, _⟩ | ⟨_, h, _⟩ | ⟨_, _, h, _⟩
  case inr.inr.inr.inr.inr.inr.inl => cases h1; exact h'
  all_goals first | (simp at h; done) | (cases h; done) | (simp at h; exact absurd h hb)

theorem decodes_array_inv {Γ : Env} {L : Str} {t : TExpr} {n : Nat} {elt : TExpr} (hb : elt ≠ .prim .byte) (ht : Is Γ t (.array n elt)) {v : JV} {old new : GoVal}
    (h : Decodes Γ L t v old new) :
    ∃ l z news, v = .arr l ∧ new = .arr news ∧ ZeroOf Γ elt z ∧ l.length = n ∧ news.length = n ∧
      (∀ (i : Nat) (a : JV) (w : GoVal), l[i]? = some a → news[i]? = some w → Decodes Γ [] elt a z w) := by
  have hk := is_resolve ht (by simp) (by simp) (by simp)
  rcases decodes_kind h hk with ⟨_, h, _⟩ | ⟨h, _⟩ | ⟨h, _⟩ | ⟨h, _⟩ | ⟨h, _⟩ | ⟨_, h, _⟩ | ⟨_, h, _⟩ | ⟨_, _, h1, _, h'⟩ | ⟨_, h, _⟩ | ⟨_, _, h, _⟩
  case inr.inr.inr.inr.inr.inr.inr.inl => cases h1; exact h'
  all_goals first | (simp at h; done) | (cases h; done) | (simp at h; exact absurd h.2 hb)

theorem decodes_map_inv {Γ : Env} {L : Str} {t : TExpr} {val : TExpr} (ht : Is Γ t (.map val)) {v : JV} {old new : GoVal}
    (h : Decodes Γ L t v old new) :
    ∃ (kvs : List (Str × JV)) (m0 : List (Str × GoVal)) (news : List GoVal), v = .obj kvs ∧
      new = .map (setAll m0 ((kvs.map (·.1)).zip news)) ∧ ((old = .nil ∧ m0 = []) ∨ old = .map m0) ∧
      news.length = kvs.length ∧
      (∀ (i : Nat) (key : Str) (w : GoVal), (∃ u, val = .star u) → kvs[i]? = some (key, .null) → news[i]? = some w → w = .nil) ∧
      (∀ (i : Nat) (key : Str) (a : JV) (w : GoVal), kvs[i]? = some (key, a) → news[i]? = some w →
        ((∃ u, val = .star u) → a ≠ .null) → DecodesNew Γ L val a w) := by
  have hk := is_resolve ht (by simp) (by simp) (by simp)
  rcases decodes_kind h hk with ⟨_, h, _⟩ | ⟨h, _⟩ | ⟨h, _⟩ | ⟨h, _⟩ | ⟨h, _⟩ | ⟨_, h, _⟩ | ⟨_, h, _⟩ | ⟨_, _, h, _⟩ | ⟨_, h1, h'⟩ | ⟨_, _, h, _⟩
  case inr.inr.inr.inr.inr.inr.inr.inr.inl => cases h1; exact h'
  all_goals first | (simp at h; done) | (cases h; done)

theorem decodes_call_inv {Γ : Env} {L : Str} {t : TExpr} {n : Nat} (hc : Calls Γ t n) {v : JV} {old new : GoVal}
    (h : Decodes Γ L t v old new) : Fills Γ n v old none new := by
  have hf := calls_final hc
  generalize hk : resolve2 Γ (resolve Γ t) = T at hf
  rcases decodes_kind h hk with ⟨_, rfl, _⟩ | ⟨rfl, _⟩ | ⟨rfl, _⟩ | ⟨_, m, hm, h⟩ | ⟨rfl, _⟩ | ⟨_, rfl, _⟩ | ⟨_, rfl, _⟩ |
    ⟨_, _, rfl, _⟩ | ⟨_, rfl, _⟩ | ⟨_, _, rfl, _⟩
  case inr.inr.inr.inl => rw [calls_unique hc hm]; exact h
  all_goals simp at hf

theorem decodesNew_call_inv {Γ : Env} {L : Str} {t : TExpr} {n : Nat} (hc : Calls Γ t n) {v : JV} {w : GoVal}
    (h : DecodesNew Γ L t v w) : ∃ z w0, ZeroIs Γ n z ∧ Fills Γ n v z none w0 ∧ ConvIs Γ n w0 w := by
  cases h with
  | call hc' hz hf hcv =>
    have := calls_unique hc hc'
    subst this
    exact ⟨_, _, hz, hf, hcv⟩
  | other h => exact absurd hc (h n)

theorem primName_noElem {Γ : Env} {t : TExpr} {p : Prim} (h : PrimName Γ t p) (elt : TExpr) : ¬ HasElem Γ t elt := by
  have hk := primName_final h
  rintro (h' | ⟨n, h'⟩ | h') <;> rw [is_resolve h' (by simp) (by simp) (by simp)] at hk <;> cases hk

theorem primName_keeps {Γ : Env} {t : TExpr} {p : Prim} (h : PrimName Γ t p) : KeepsErrors Γ t := keepsErrors_leaf (primName_noElem h)

theorem primName_pointee {Γ : Env} {t : TExpr} {p : Prim} (h : PrimName Γ t p) : pointee t = t := by
  cases h with
  | base h => cases h <;> rfl
  | chain h => rfl

theorem primName_notNullLike {Γ : Env} {t : TExpr} {p : Prim} (h : PrimName Γ t p) : t.nullLike = false := by
  cases h with
  | base h => cases h <;> rfl
  | chain h => rfl

theorem primName_noLoss {Γ : Env} {t : TExpr} {p : Prim} (h : PrimName Γ t p) : ¬ LosesErrors Γ t := by
  have hk := primName_final h
  unfold LosesErrors
  rw [primName_pointee h]
  rintro (h' | h' | ⟨n, h'⟩) <;> rw [is_resolve h' (by simp) (by simp) (by simp)] at hk <;> cases hk

theorem primName_notByte {Γ : Env} {t : TExpr} {p : Prim} (h : PrimName Γ t p) (hp : p.isInt = true) : t ≠ .prim .byte := by
  rintro rfl
  cases h with
  | base h => cases h; simp [Prim.isInt] at hp

theorem is_unique {Γ : Env} {t u u' : TExpr} (h : Is Γ t u) (h' : Is Γ t u') (hu : ∀ p, u ≠ .prim p) (hu2 : ∀ p, u ≠ .named p)
    (hu3 : ∀ p, u ≠ .sel p) (hv : ∀ p, u' ≠ .prim p) (hv2 : ∀ p, u' ≠ .named p) (hv3 : ∀ p, u' ≠ .sel p) : u = u' := by
  rw [← is_resolve h hu hu2 hu3, is_resolve h' hv hv2 hv3]

theorem hasElem_unique {Γ : Env} {t elt elt' : TExpr} (h : HasElem Γ t elt) (h' : HasElem Γ t elt') : elt = elt' := by
  rcases h with h | ⟨n, h⟩ | h <;> rcases h' with h' | ⟨n', h'⟩ | h' <;>
    first
      | (have := is_unique h h' (by simp) (by simp) (by simp) (by simp) (by simp) (by simp); simp at this; exact this.2)
      | (have := is_unique h h' (by simp) (by simp) (by simp) (by simp) (by simp) (by simp); simp at this; exact this)
      | (have := is_unique h h' (by simp) (by simp) (by simp) (by simp) (by simp) (by simp); simp at this; done)

theorem keepsErrors_elems {Γ : Env} {t elt : TExpr} (h : HasElem Γ t elt) (hl : ¬ LosesErrors Γ elt)
    (hk : KeepsErrors Γ (pointee elt)) : KeepsErrors Γ t :=
  .mk (fun elt' h' => by rw [← hasElem_unique h (h'.elim Or.inl fun h2 => Or.inr (Or.inl h2))]; exact hl)
    (fun elt' h' => by rw [← hasElem_unique h h']; exact hk)

theorem is_pointee {Γ : Env} {t u : TExpr} (h : Is Γ t u) (hu : ∀ v, u ≠ .star v) : pointee t = t := by
  cases h with
  | self => cases t <;> first | rfl | exact absurd rfl (hu _)
  | named => rfl

theorem primDec_unique {p : Prim} {v : JV} {w w' : GoVal} (h : PrimDec p v w) (h' : PrimDec p v w') : w = w' := by
  cases h with
  | @signed p raw z w hp h h1 h2 hw =>
    have hi : p.isInt = true := by cases p <;> simp_all [Prim.isSigned, Prim.isInt]
    cases h' with
    | signed _ h' _ _ hw' => rw [h.unique h'] at hw; rw [hw.unique hi hw']
    | unsigned hp' => cases p <;> simp_all [Prim.isSigned, Prim.isUnsigned]
    | _ => simp [Prim.isSigned] at hp
  | @unsigned p raw n w hp h h2 hw =>
    have hi : p.isInt = true := by cases p <;> simp_all [Prim.isUnsigned, Prim.isInt]
    cases h' with
    | signed hp' => cases p <;> simp_all [Prim.isSigned, Prim.isUnsigned]
    | unsigned _ h' _ hw' =>
      have := (IntToken.nonneg h).unique (.nonneg h')
      rw [this] at hw; rw [hw.unique hi hw']
    | _ => simp [Prim.isUnsigned] at hp
  | float64 h =>
    cases h' with
    | signed hp => simp [Prim.isSigned] at hp
    | unsigned hp => simp [Prim.isUnsigned] at hp
    | float64 h' => rw [h] at h'; cases h'; rfl
  | float32 h =>
    cases h' with
    | signed hp => simp [Prim.isSigned] at hp
    | unsigned hp => simp [Prim.isUnsigned] at hp
    | float32 h' => rw [h] at h'; cases h'; rfl
  | bool b => cases h'; rfl
  | string s => cases h'; rfl

theorem base64_unique {s : Str} {b b' : List UInt8} (h : Base64Text s b) (h' : Base64Text s b') : b = b' := by
  rw [base64_decode] at h h'; rw [h] at h'; cases h'; rfl

theorem zeroOf_unique {Γ : Env} {t : TExpr} {z z' : GoVal} (h : ZeroOf Γ t z) (h' : ZeroOf Γ t z') : z = z' := by
  obtain ⟨k, h⟩ := h
  obtain ⟨k', h'⟩ := h'
  have a := zeroT_lift (Nat.le_max_left k k') h
  rw [zeroT_lift (Nat.le_max_right k k') h'] at a
  cases a; rfl

theorem zeroIs_unique {Γ : Env} {n : Nat} {z z' : GoVal} (h : ZeroIs Γ n z) (h' : ZeroIs Γ n z') : z = z' :=
  zeroOf_unique (t := .named n) h h'

theorem convIs_unique {Γ : Env} {n : Nat} {x z z' : GoVal} (h : ConvIs Γ n x z) (h' : ConvIs Γ n x z') : z = z' := by
  obtain ⟨k, h⟩ := h
  obtain ⟨k', h'⟩ := h'
  have a := convT_lift (t := .named n) (Nat.le_max_left k k') h
  rw [convT_lift (t := .named n) (Nat.le_max_right k k') h'] at a
  cases a; rfl

theorem storage_unique {old z : GoVal} {len : Nat} {c c' : List GoVal} (h : Storage old len z c) (h' : Storage old len z c') :
    c = c' := by
  cases h <;> cases h' <;> first | rfl | omega

theorem storage_length {old z : GoVal} {len : Nat} {c : List GoVal} (h : Storage old len z c) : len ≤ c.length := by
  cases h with
  | fromNil => simp
  | grow h => simp
  | reuse h => simpa using h

theorem readsTime_unique {L s : Str} {t t' : Time} (h : ReadsTime L s t) (h' : ReadsTime L s t') : t = t' := by
  have hconst : ∀ {name l : Str}, LayoutConst name l → str "time." <+: (str "time." ++ name) ∧ '.' ∉ (str "time." ++ name).drop 5 :=
    fun hn => ⟨⟨_, rfl⟩, timeConst_noDot (timeConst_iff.2 hn)⟩
  generalize hL : L = L' at h'
  cases h with
  | default hl hpre h =>
    cases h' with
    | default hl' hpre' h' =>
      have a : firstParse s documentedLayouts = some t := by rw [hl]; exact firstParse_of h hpre
      have b : firstParse s documentedLayouts = some t' := by rw [hl']; exact firstParse_of h' hpre'
      rw [a] at b
      cases b; rfl
    | const => simp [str] at hL
    | literal hl' => exact absurd hL.symm hl'
  | const hn h =>
    cases h' with
    | default => simp [str] at hL
    | const hn' h' =>
      have := List.append_cancel_left hL
      subst this
      rw [← timeConst_iff] at hn hn'
      rw [hn] at hn'; cases hn'
      rw [h] at h'; cases h'; rfl
    | literal _ hn' => rw [← hL] at hn'; exact absurd (hconst hn) hn'
  | literal hl hn hq h =>
    cases h' with
    | default => exact absurd hL hl
    | const hn' h' => rw [hL] at hn; exact absurd (hconst hn') hn
    | literal _ _ hq' h' =>
      subst hL
      rw [readAsSource_unique hq hq', h'] at h
      cases h; rfl

theorem is_calls {Γ : Env} {t u : TExpr} (h : Is Γ t u) (hu : ∀ p, u ≠ .prim p) (hu2 : ∀ p, u ≠ .named p)
    (hu3 : ∀ p, u ≠ .sel p) (hs : u ≠ .structT) (n : Nat) : ¬ Calls Γ t n := by
  intro hc
  have := calls_final hc
  rw [is_resolve h hu hu2 hu3] at this
  rcases this with ⟨m, h⟩ | ⟨m, h⟩ | h
  · exact hu2 m h
  · exact hu3 m h
  · exact hs h

theorem list_ext_of {l l' : List GoVal} (h : l.length = l'.length)
    (h' : ∀ (i : Nat) (a b : GoVal), l[i]? = some a → l'[i]? = some b → a = b) : l = l' := by
  refine List.ext_getElem h fun i h1 h2 => h' i _ _ (List.getElem?_eq_getElem h1) (List.getElem?_eq_getElem h2)

/-- the decoding relation is a function of the document and the old value -/
theorem decodes_unique {Γ : Env} {L : Str} {t : TExpr} {v : JV} {old new new' : GoVal} (h : Decodes Γ L t v old new)
    (h' : Decodes Γ L t v old new') : new = new' := by
  revert new'
  refine @Decodes.rec _ Γ (fun L t v old new _ => ∀ {new'}, Decodes Γ L t v old new' → new = new')
    (fun L t v w _ => ∀ {w'}, DecodesNew Γ L t v w' → w = w') ?_ ?_ ?_ ?_ ?_ ?_ ?_ ?_ ?_ ?_ ?_ ?_ ?_ ?_ ?_ L t v old new h
  · intro L t p v old w ht h new' h'
    exact primDec_unique h (decodes_prim_inv ht h')
  · intro L t s tm old ht h new' h'
    obtain ⟨s, tm, h1, rfl, h2⟩ := decodes_time_inv ht h'
    cases h1; rw [readsTime_unique h h2]
  · intro L t s b old ht h new' h'
    obtain ⟨s, b, h1, rfl, h2⟩ := decodes_uuid_inv ht h'
    cases h1; rw [readsUUID_unique h h2]
  · intro L t n v old new hc h new' h'
    exact (fills_unique h (decodes_call_inv hc h')).2
  · intro L t s b old ht h new' h'
    rcases decodes_bytes_inv ht h' with ⟨h1, _⟩ | ⟨s, b, h1, rfl, h2⟩
    · cases h1
    · cases h1; rw [base64_unique h h2]
  · intro L t old ht new' h'
    rcases decodes_bytes_inv ht h' with ⟨_, rfl⟩ | ⟨s, b, h1, _⟩
    · rfl
    · cases h1
  · intro L t n s b old ht h hn new' h'
    rcases decodes_fixedBytes_inv ht h' with ⟨h1, _⟩ | ⟨s, b, h1, rfl, h2, _⟩
    · cases h1
    · cases h1; rw [base64_unique h h2]
  · intro L t n old ht new' h'
    rcases decodes_fixedBytes_inv ht h' with ⟨_, rfl⟩ | ⟨s, b, h1, _⟩
    · rfl
    · cases h1
  · intro L t elt l old z cells news ht hb hz hc hlen hnull _ helem new' h'
    obtain ⟨l', z', cells', news', h1, rfl, hz', hc', hlen', hnull', helem'⟩ := decodes_slice_inv hb ht h'
    cases h1
    have := zeroOf_unique hz hz'; subst this
    have := storage_unique hc hc'; subst this
    have : news = news' := by
      refine list_ext_of (by omega) fun i a b ha hb' => ?_
      have hi : i < l.length := by rw [← hlen]; exact (List.getElem?_eq_some_iff.1 ha).1
      have hcl : i < cells.length := Nat.lt_of_lt_of_le hi (storage_length hc)
      by_cases hn : elt.nullLike = true ∧ l[i]? = some .null
      · rw [hnull i a hn.1 hn.2 ha, hnull' i b hn.1 hn.2 hb']
      · have hg := List.getElem?_eq_getElem hi
        have hx : elt.nullLike = true → l[i] ≠ .null := fun h1 h2 => hn ⟨h1, by rw [hg, h2]⟩
        exact helem i _ _ a hg (List.getElem?_eq_getElem hcl) ha hx
          (helem' i _ _ b hg (List.getElem?_eq_getElem hcl) hb' hx)
    rw [this]
  · intro L t elt n l old z news ht hb hz hl hlen _ helem new' h'
    obtain ⟨l', z', news', h1, rfl, hz', hl', hlen', helem'⟩ := decodes_array_inv hb ht h'
    cases h1
    have := zeroOf_unique hz hz'; subst this
    have : news = news' := by
      refine list_ext_of (by omega) fun i a b ha hb' => ?_
      have hi : i < l.length := by rw [hl, ← hlen]; exact (List.getElem?_eq_some_iff.1 ha).1
      have hg := List.getElem?_eq_getElem hi
      exact helem i _ a hg ha (helem' i _ b hg hb')
    rw [this]
  · intro L t val kvs old m0 news ht hold hlen hnull _ helem new' h'
    obtain ⟨kvs', m0', news', h1, rfl, hold', hlen', hnull', helem'⟩ := decodes_map_inv ht h'
    cases h1
    have : m0 = m0' := by
      rcases hold with ⟨h1, h2⟩ | h1 <;> rcases hold' with ⟨h3, h4⟩ | h3
      · rw [h2, h4]
      · rw [h1] at h3; cases h3
      · rw [h1] at h3; cases h3
      · rw [h1] at h3; cases h3; rfl
    subst this
    have : news = news' := by
      refine list_ext_of (by omega) fun i a b ha hb' => ?_
      have hi : i < kvs.length := by rw [← hlen]; exact (List.getElem?_eq_some_iff.1 ha).1
      have hg := List.getElem?_eq_getElem hi
      generalize kvs[i] = kv at hg
      obtain ⟨key, x⟩ := kv
      by_cases hn : (∃ u, val = .star u) ∧ x = .null
      · obtain ⟨hu, rfl⟩ := hn
        rw [hnull i key a hu hg ha, hnull' i key b hu hg hb']
      · have hx : (∃ u, val = .star u) → x ≠ .null := fun h1 h2 => hn ⟨h1, h2⟩
        exact helem i key x a hg ha hx (helem' i key x b hg hb' hx)
    rw [this]
  · intro L t v old w _ h new' h'
    obtain ⟨w', rfl, h2⟩ := decodes_star_inv h'
    rw [h h2]
  · intro L n t v old w hn _ h new' h'
    obtain ⟨w', rfl, h2⟩ := decodes_ptr_inv h' (is_resolve (.named hn) (by simp) (by simp) (by simp))
    rw [h h2]
  · intro L t n v z w w' hc hz hf hcv w2 h'
    obtain ⟨z', w0, hz', hf', hcv'⟩ := decodesNew_call_inv hc h'
    have := zeroIs_unique hz hz'; subst this
    have := (fills_unique hf hf').2; subst this
    exact convIs_unique hcv hcv'
  · intro L t v w ht _ h w' h'
    cases h' with
    | call hc => exact absurd hc (ht _)
    | other _ h' => exact h .nil (h' .nil)

theorem decodesNew_unique {Γ : Env} {L : Str} {t : TExpr} {v : JV} {w w' : GoVal} (h : DecodesNew Γ L t v w)
    (h' : DecodesNew Γ L t v w') : w = w' := by
  cases h with
  | call hc hz hf hcv =>
    obtain ⟨z', w0, hz', hf', hcv'⟩ := decodesNew_call_inv hc h'
    have := zeroIs_unique hz hz'; subst this
    have := (fills_unique hf hf').2; subst this
    exact convIs_unique hcv hcv'
  | other ht h =>
    cases h' with
    | call hc => exact absurd hc (ht _)
    | other _ h' => exact decodes_unique (h .nil) (h' .nil)

end VJ
