import Verif.Props.Encode

/-!
# C23: `omitempty`
-/

namespace VJ
set_option linter.unusedSectionVars false

section
variable [Ext] {Γ : Env} {X : Nat → GoVal → Prop} {S : Nat → Prop} {F : Nat → Option GoVal → JV → Prop}

theorem zeroOf_isPrim {t : TExpr} {p : Prim} (h : IsPrim Γ t p) {z : GoVal} : ZeroOf Γ t z ↔ ZeroOf Γ (.prim p) z := by
  cases h with
  | self => exact Iff.rfl
  | named hd => exact (zeroOf_name (.named _)).trans (zeroIs_alias hd)
  | sel hd => exact (zeroOf_name (.sel _)).trans (zeroIs_alias hd)

theorem zeroOf_is {t u : TExpr} (h : Is Γ t u) {z : GoVal} : ZeroOf Γ t z ↔ ZeroOf Γ u z := by
  cases h with
  | self => exact Iff.rfl
  | named hd => exact (zeroOf_name (.named _)).trans (zeroIs_alias hd)

theorem zeroOf_byMethod {t : TExpr} {n : Nat} (h : ByMethod Γ t n) {z : GoVal} : ZeroOf Γ t z ↔ ZeroIs Γ n z := by
  cases h with
  | struct => exact zeroOf_name (.named _)
  | sel => exact zeroOf_name (.sel _)
  | named hd => exact ((zeroOf_name (.named _)).trans (zeroIs_alias hd)).trans (zeroOf_name (.sel _))

theorem zeroOf_nil {t : TExpr} (ht : (∃ u, t = .star u) ∨ (∃ u, t = .slice u) ∨ ∃ u, t = .map u) {z : GoVal} : ZeroOf Γ t z ↔ z = .nil := by
  rcases ht with ⟨u, rfl⟩ | ⟨u, rfl⟩ | ⟨u, rfl⟩
  all_goals exact ⟨fun ⟨_, h⟩ => by simp only [zeroT, Out.ok.injEq] at h; exact h.symm, fun h => ⟨0, by rw [h]; rfl⟩⟩

/-- `t` is neither a UUID (or a pointer to one), nor an array other than of bytes, nor a
pointer to a pointer -/
structure Omissible (Γ : Env) (t : TExpr) : Prop where
  uuid : t ≠ .uuid
  uuidPtr : t ≠ .star .uuid
  array : ∀ len e, Is Γ t (.array len e) → e = .prim .byte
  ptrPtr : ∀ u u', t = .star u → ¬ Is Γ u (.star u')

theorem empty_iff_zero (hZ : ZeroPackage Γ X S) (hA : NoArrayTests Γ S) {t : TExpr} {k : EKind} (hk : FieldKind Γ t k)
    (ho : Omissible Γ t) (hS : ∀ m, k = .method m → S m) {g : GoVal} (hg : HasType Γ X t g) (ht : ¬ Untidy g) :
    IsEmpty Γ k g ↔ ZeroOf Γ t g := by
  cases hk with
  | scalar h =>
    have hp := hasType_isPrim h hg
    have ha := eqZero_prim (Γ := Γ) hp
    refine Iff.trans ⟨fun h => (by cases h; assumption), .scalar⟩ ((zeroScalar_iff hp).trans ?_)
    exact ⟨fun hb => (zeroOf_isPrim h).2 (ha.tidy hb ht), fun hz => ha.zero ((zeroOf_isPrim h).1 hz)⟩
  | ptr h => exact Iff.trans (b := g = .nil) ⟨fun h => (by cases h; rfl), fun h => h ▸ .ptr⟩ (zeroOf_nil (.inl ⟨_, rfl⟩)).symm
  | namedPtr h =>
    exact Iff.trans (b := g = .nil) ⟨fun h => (by cases h; rfl), fun h => h ▸ .ptr⟩
      ((zeroOf_is (.named h)).trans (zeroOf_nil (.inl ⟨_, rfl⟩))).symm
  | ptr2 h => exact absurd h (ho.ptrPtr _ _ rfl)
  | time =>
    cases hg with
    | time tm =>
      have ha := time_answer (Γ := Γ) tm
      exact ⟨fun h => by cases h; exact ha.tidy (by assumption) ht, fun hz => .time (ha.zero hz)⟩
    | «alias» he | struct he | foreign he => cases he
  | timePtr h =>
    exact Iff.trans (b := g = .nil) ⟨fun h => (by cases h; rfl), fun h => h ▸ .timePtr⟩ ((zeroOf_is h).trans (zeroOf_nil (.inl ⟨_, rfl⟩))).symm
  | uuid => exact absurd rfl ho.uuid
  | uuidPtr => exact absurd rfl ho.uuidPtr
  | method h =>
    obtain ⟨b, h1, h2⟩ := C34_isZero_partial hZ hA (hS _ rfl) (h.typed hg) ht
    refine Iff.trans ⟨fun h => ?_, fun h => .method h⟩ (Iff.trans ?_ (h2.trans (zeroOf_byMethod h).symm))
    · cases h; assumption
    · exact ⟨fun h => isZero_unique h1 h, fun h => h ▸ h1⟩
  | methodPtr h => exact Iff.trans (b := g = .nil) ⟨fun h => (by cases h; rfl), fun h => h ▸ .methodPtr⟩ (zeroOf_nil (.inl ⟨_, rfl⟩)).symm
  | map h =>
    exact Iff.trans (b := g = .nil) ⟨fun h => (by cases h; rfl), fun h => h ▸ .map⟩ ((zeroOf_is h).trans (zeroOf_nil (.inr (.inr ⟨_, rfl⟩)))).symm
  | slice h =>
    exact Iff.trans (b := g = .nil) ⟨fun h => (by cases h; rfl), fun h => h ▸ .list⟩ ((zeroOf_is h).trans (zeroOf_nil (.inr (.inl ⟨_, rfl⟩)))).symm
  | array h hb => exact absurd (ho.array _ _ h) hb
  | bytes h =>
    exact Iff.trans (b := g = .nil) ⟨fun h => (by cases h; rfl), fun h => h ▸ .bytes⟩ ((zeroOf_is h).trans (zeroOf_nil (.inr (.inl ⟨_, rfl⟩)))).symm
  | fixedBytes h =>
    rename_i len
    have hb : ∃ b, g = .barr b ∧ b.length = len := by
      have := hg.of_is h
      cases this with
      | array hb => exact absurd rfl hb
      | barr hl => exact ⟨_, rfl, hl⟩
      | «alias» he | struct he | foreign he => cases he
    obtain ⟨b, rfl, hl⟩ := hb
    have : ZeroOf Γ (.array len (.prim .byte)) (.barr b) ↔ b = List.replicate len 0 :=
      ⟨fun ⟨_, h⟩ => by simp only [zeroT, TExpr.isByte, if_true, Out.ok.injEq, GoVal.barr.injEq] at h; exact h.symm,
       fun h => ⟨0, by rw [h]; rfl⟩⟩
    refine Iff.trans ⟨fun h => (by cases h; assumption), .fixedBytes⟩ (Iff.trans ?_ ((zeroOf_is h).trans this).symm)
    rw [List.eq_replicate_iff]
    exact ⟨fun h => ⟨hl, h⟩, fun h => h.2⟩

/-- **C23, partial** (not for UUIDs, arrays other than of bytes and pointers to pointers; types
with their own `IsZero` as in `C34_isZero_partial`; values without `-0`, zero instants in other
zones and, for types with their own `IsZero`, without empty collections that are not nil): in the
object written for a struct a field with the option `omitempty` has no member if and only if its
value is the zero value of its type. -/
theorem C23_omitempty_partial (hP : EncPackage Γ F S) (hZ : ZeroPackage Γ X S) (hA : NoArrayTests Γ S)
    {n : Nat} (hn : S n) {strict : Bool} {fields : List FieldDecl} (hd : Γ.decl n = some (.struct strict fields)) {gs : List GoVal}
    (hv : HasType Γ X (.named n) (.struct gs)) (hf : Fine Γ F (.named n) (.struct gs)) {s : Str}
    (h : Marshals Γ n (some (.struct gs)) (.ok s)) :
    ∃ ms : List (List (Str × JV)), Json (.obj ms.flatten) s ∧ ms.length = fields.length ∧
      ∀ (i : Nat) (fd : FieldDecl) (g : GoVal) (m : List (Str × JV)), fields[i]? = some fd → gs[i]? = some g → ms[i]? = some m →
        fd.tags.omitempty = true → fd.tags.jsonName ≠ [] → (∃ k, FieldKind Γ fd.typ k) → Omissible Γ fd.typ → ¬ Untidy g →
        (m = [] ↔ ZeroOf Γ fd.typ g) ∧ (m ≠ [] → ∃ d, m = [(fd.tags.jsonName, d)]) := by
  obtain ⟨ms, hj, hl, hms⟩ := C22_members_partial hP hn hd hv hf h
  refine ⟨ms, hj, hl, fun i fd g m hi hg hm ho hname hk hom ht => ?_⟩
  obtain ⟨k, hk⟩ := hk
  obtain ⟨gs', hgs, _, hall⟩ := hv.of_struct (.named n) hd
  cases hgs
  have hgood : EGood Γ S fd.typ := hP.field hn hd (List.mem_of_getElem? hi)
  have hez := empty_iff_zero hZ hA hk hom (fun m hm => by
    subst hm
    generalize fd.typ = t at hk hgood
    cases hk with
    | method h => exact h.inS hP.toTypeSet hgood) (hall i fd g hi hg) ht
  have hoz : Omitted Γ fd g ↔ ZeroOf Γ fd.typ g := by
    refine Iff.trans ⟨?_, fun h => ⟨k, hk, h, .inl ho⟩⟩ hez
    rintro ⟨k', hk', he, _⟩
    cases fieldKind_unique hk hk'
    exact he
  obtain ⟨_, ⟨h1, h2⟩ | ⟨h1, ⟨d, h2⟩ | ⟨_, _, h2, _⟩⟩⟩ := hms i fd g m hi hg hm
  · exact ⟨⟨fun _ => hoz.1 h1, fun _ => h2⟩, fun h => absurd h2 h⟩
  · subst h2
    exact ⟨⟨fun h => (by cases h), fun h => absurd (hoz.2 h) h1⟩, fun _ => ⟨d, rfl⟩⟩
  · exact absurd h2 hname

/-- a field without the option is never left out, unless it is an embedded struct -/
theorem C23_written {fd : FieldDecl} {g : GoVal} {m : List (Str × JV)} (ho : fd.tags.omitempty = false) (hn : fd.tags.jsonName ≠ [])
    (h : Enc Γ F (.field fd) g (.obj m)) : ∃ d, m = [(fd.tags.jsonName, d)] := by
  rcases field_members h with ⟨⟨k, _, _, h1 | ⟨_, h1⟩⟩, _⟩ | ⟨_, h1 | ⟨_, _, h1, _⟩⟩
  · rw [ho] at h1; cases h1
  · exact absurd h1 hn
  · exact h1
  · exact absurd h1 hn

end
end VJ
