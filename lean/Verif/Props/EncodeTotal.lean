import Verif.Proof.EncodeTotal
import Verif.Props.EncodeSamples

/-!
# C46: encoding returns

`Spec/EncodeTotal.lean` says what is asked of the package (`EncoderSet`) and of the value
(`NoNilUUID`); `ForeignFine` and `TimesOK` are what makes an encoding succeed.
-/

namespace VJ
set_option linter.unusedSectionVars false

section
variable [Ext] {Γ : Env} {X : Nat → GoVal → Prop} {S : Nat → Prop}

theorem encode_out (hP : EncoderSet Γ X S) {n : Nat} (hn : S n) {v : GoVal} (hv : HasType Γ X (.named n) v) :
    CallOut Γ (ForeignFine Γ X S ∧ TimesOK Γ (.named n) v) n v (Bad Γ (.named n) v) :=
  (calls_out hP hv .self (by
    refine ⟨⟨?_, rfl⟩, ?_⟩
    · intro m hm; simp [TExpr.names] at hm; subst hm; exact hn
    · intro m hm; simp [TExpr.sels] at hm)).call (.named n)

theorem encode_ends (hP : EncoderSet Γ X S) {n : Nat} (hn : S n) {v : GoVal} (hv : HasType Γ X (.named n) v)
    (hu : NoNilUUID Γ (.named n) v) (w : W) :
    Term (fun k => (Γ.methods k n).marshalTo (some v) w) (Done (ForeignFine Γ X S ∧ TimesOK Γ (.named n) v) w) :=
  (encode_out hP hn hv w).1 hu

theorem appendPanics_mono {n : Nat} {recv : Option GoVal} {w : W} {k k' : Nat} (hk : k ≤ k')
    (h : (Γ.methods k n).marshalTo recv w = .panic) : (Γ.methods k' n).marshalTo recv w = .panic := by
  have := ((methods_mono Γ hk n).marshalTo recv w).eq_of_ne (by rw [h]; simp)
  rw [this, h]

theorem marshalPanics_iff {n : Nat} {recv : Option GoVal} : MarshalPanics Γ n recv ↔ AppendPanics Γ n recv W.empty := by
  constructor
  · rintro ⟨k, h⟩
    refine ⟨k, ?_⟩
    simp only [marshalJSON] at h
    cases hr : (Γ.methods k n).marshalTo recv W.empty with
    | panic => rfl
    | ok r => rw [hr] at h; obtain ⟨e, w⟩ := r; cases e <;> cases h
    | _ => rw [hr] at h; cases h
  · rintro ⟨k, h⟩
    exact ⟨k, by simp only [marshalJSON, h]; rfl⟩

/-- **Appending the JSON of any value of the type to any writer returns**: no panic, no endless
recursion, however deep the value. Missing from the full statement: values with a nil
`*uuid.UUID` in a field that is written, for which `MarshalTo` does panic (`C46_panics_exactly`). -/
theorem C46_append_returns_partial (hP : EncoderSet Γ X S) {n : Nat} (hn : S n) {v : GoVal} (hv : HasType Γ X (.named n) v)
    (hu : NoNilUUID Γ (.named n) v) (w : W) : ∃ e w', MarshalsTo Γ n (some v) w e w' := by
  obtain ⟨⟨e, w'⟩, _, k, hk⟩ := encode_ends hP hn hv hu w
  exact ⟨e, w', k, hk k (Nat.le_refl k)⟩

/-- **`MarshalJSON` returns**, with a document or an error. -/
theorem C46_encode_returns_partial (hP : EncoderSet Γ X S) {n : Nat} (hn : S n) {v : GoVal} (hv : HasType Γ X (.named n) v)
    (hu : NoNilUUID Γ (.named n) v) : ∃ r, Marshals Γ n (some v) r := by
  obtain ⟨e, w, h⟩ := C46_append_returns_partial hP hn hv hu W.empty
  exact ⟨_, marshals_iff.2 ⟨e, w, h, rfl⟩⟩

/-- **`MarshalJSON` succeeds** when the hand-written encoders do and the years of the times of
types declared as `time.Time` can be written. -/
theorem C46_encode_succeeds_partial (hP : EncoderSet Γ X S) (hF : ForeignFine Γ X S) {n : Nat} (hn : S n) {v : GoVal}
    (hv : HasType Γ X (.named n) v) (hu : NoNilUUID Γ (.named n) v) (ht : TimesOK Γ (.named n) v) :
    ∃ s, Marshals Γ n (some v) (.ok s) := by
  obtain ⟨⟨e, w⟩, hd, k, hk⟩ := encode_ends hP hn hv hu W.empty
  obtain ⟨h1, h2⟩ := hd ⟨hF, ht⟩ rfl
  simp only at h1 h2
  subst h1
  exact ⟨w.buf, marshals_iff.2 ⟨none, w, ⟨k, hk k (Nat.le_refl k)⟩, by simp [W.build, h2]⟩⟩

/-- **The only reason to panic**: if `MarshalTo` panics, onto whatever writer, a nil `*uuid.UUID`
is among what is to be written. -/
theorem C46_only_panic (hP : EncoderSet Γ X S) {n : Nat} (hn : S n) {v : GoVal} (hv : HasType Γ X (.named n) v) {w : W}
    (h : AppendPanics Γ n (some v) w) : Written Γ (.named n) v (.star .uuid) .nil := by
  refine Classical.byContradiction fun hu => ?_
  obtain ⟨r, _, k0, hk⟩ := encode_ends hP hn hv hu w
  obtain ⟨k, h⟩ := h
  have h1 := appendPanics_mono (Nat.le_max_left k k0) h
  cases h1.symm.trans (hk _ (Nat.le_max_right k k0))

/-- **Exactly when `MarshalJSON` panics**: when a nil `*uuid.UUID` is to be written. -/
theorem C46_panics_exactly (hP : EncoderSet Γ X S) (hF : ForeignFine Γ X S) {n : Nat} (hn : S n) {v : GoVal}
    (hv : HasType Γ X (.named n) v) (ht : TimesOK Γ (.named n) v) :
    MarshalPanics Γ n (some v) ↔ Written Γ (.named n) v (.star .uuid) .nil := by
  rw [marshalPanics_iff]
  refine ⟨C46_only_panic hP hn hv, fun h => ?_⟩
  obtain ⟨k0, hk⟩ := (encode_out hP hn hv W.empty).2 ⟨⟨hF, ht⟩, rfl⟩ h
  exact ⟨k0, hk k0 (Nat.le_refl k0)⟩

/-- **Exactly when `MarshalJSON` returns a document**: when no nil `*uuid.UUID` is to be written. -/
theorem C46_succeeds_exactly (hP : EncoderSet Γ X S) (hF : ForeignFine Γ X S) {n : Nat} (hn : S n) {v : GoVal}
    (hv : HasType Γ X (.named n) v) (ht : TimesOK Γ (.named n) v) :
    (∃ s, Marshals Γ n (some v) (.ok s)) ↔ ¬ Written Γ (.named n) v (.star .uuid) .nil := by
  refine ⟨fun ⟨s, hs⟩ hu => ?_, fun hu => C46_encode_succeeds_partial hP hF hn hv hu ht⟩
  obtain ⟨k0, hk⟩ := (encode_out hP hn hv W.empty).2 ⟨⟨hF, ht⟩, rfl⟩ hu
  obtain ⟨e, w, ⟨k, h⟩, _⟩ := marshals_iff.1 hs
  have := ((methods_mono Γ (Nat.le_max_left k k0) n).marshalTo _ _).eq_of_ok h
  cases this.symm.trans (hk _ (Nat.le_max_right k k0))

/-- **A nil receiver is encoded too**, and always without error when the type is declared here. -/
theorem C46_nil_returns (hP : EncoderSet Γ X S) {n : Nat} (hn : S n) : ∃ r, Marshals Γ n none r ∧ (Γ.decl n ≠ none → ∃ s, r = .ok s) := by
  cases hd : Γ.decl n with
  | none =>
    obtain ⟨⟨e, w⟩, hr⟩ := hP.foreignNil n W.empty hn hd
    refine ⟨_, marshals_iff.2 ⟨e, w, ⟨1, ?_⟩, rfl⟩, by simp⟩
    rw [methods_none hd]; exact hr
  | some d =>
    obtain ⟨d', ir, hd', hir⟩ := hP.encoders n hn (by simp [hd])
    rw [hd] at hd'; cases hd'
    have : ∃ w, (Γ.methods 1 n).marshalTo none W.empty = .ok (none, w) ∧ w.err = none := by
      rw [methods_some hd]
      simp only [declMethods, hir, Out.ok_bind]
      cases ir with
      | struct bs => cases bs <;> exact ⟨_, rfl, rfl⟩
      | _ => exact ⟨_, rfl, rfl⟩
    obtain ⟨w, hw, he⟩ := this
    exact ⟨.ok w.buf, marshals_iff.2 ⟨none, w, ⟨1, hw⟩, by simp [W.build, he]⟩, fun _ => ⟨_, rfl⟩⟩

/-- **Every value has a JSON text**: encoding succeeds, and what it writes is the document the
value stands for. -/
theorem C46_document_partial {F : Nat → Option GoVal → JV → Prop} (hP : EncoderSet Γ X S) (hQ : EncPackage Γ F S) (hF : ForeignFine Γ X S)
    {n : Nat} (hn : S n) {v : GoVal} (hv : HasType Γ X (.named n) v) (hf : Fine Γ F (.named n) v)
    (hu : NoNilUUID Γ (.named n) v) (ht : TimesOK Γ (.named n) v) :
    ∃ s jv, Marshals Γ n (some v) (.ok s) ∧ Enc Γ F (.decl n) v jv ∧ Json jv s := by
  obtain ⟨s, hs⟩ := C46_encode_succeeds_partial hP hF hn hv hu ht
  obtain ⟨jv, h1, h2⟩ := encode_document hQ hn hv hf hs
  exact ⟨s, jv, hs, h1, h2⟩

end

namespace Examples
open Sample
attribute [local instance] Sample.ext

/-- the types of the sample package whose encoders are valid Go -/
def fullNames : List Nat := [0, 1, 2, 3, 4, 5, 20, 21, 24, 25, 26, 27, 28, 29, 30, 31, 32, 33, 34, 35, 36, 37, 38, 39, 40, 41, 42, 43,
  44, 45, 46, 47, 48, 49, 50, 51, 53, 54]

set_option maxRecDepth 200000 in
theorem full_set : EncoderSet Γ NoForeign (· ∈ fullNames) where
  closed n d t m hn hd ht hm := by
    have h : ∀ n ∈ fullNames, ∀ d ∈ Γ.decl n, ∀ t ∈ d.types, ∀ m ∈ t.names, m ∈ fullNames := by decide
    exact h n hn d hd t ht m hm
  noAnon n d t hn hd ht := by
    have h : ∀ n ∈ fullNames, ∀ d ∈ Γ.decl n, ∀ t ∈ d.types, t.anon = false := by decide
    exact h n hn d hd t ht
  sels n d t m hn hd ht hm := by
    have h : ∀ n ∈ fullNames, ∀ d ∈ Γ.decl n, ∀ t ∈ d.types, t.sels = [] := by decide
    rw [h n hn d hd t ht] at hm; cases hm
  encoders n hn hd := by
    have h : ∀ n ∈ fullNames, ∀ d ∈ Γ.decl n, isOk (genMarshal Γ d) = true := by decide
    cases hdn : Γ.decl n with
    | none => exact absurd hdn hd
    | some d =>
      have := h n hn d hdn
      cases hg : genMarshal Γ d with
      | ok ir => exact ⟨d, ir, hdn, hg⟩
      | _ => rw [hg] at this; cases this
  zeros n d hn hd := by
    have h : ∀ n ∈ fullNames, ∀ d ∈ Γ.decl n, isOk (genZero Γ 5 d) = true := by decide
    have := h n hn d hd
    cases hg : genZero Γ 5 d with
    | ok ir => exact ⟨5, ir, hg⟩
    | _ => rw [hg] at this; cases this
  foreign n v w hn hd hx := hx.elim
  foreignNil n w hn hd := by
    have h : ∀ n ∈ fullNames, Γ.decl n ≠ none := by decide
    exact absurd hd (h n hn)
  foreignZero n v hn hd hx := hx.elim

set_option maxRecDepth 200000 in
theorem full_declared {n : Nat} (hn : n ∈ fullNames) : Γ.decl n ≠ none := by
  have h : ∀ n ∈ fullNames, Γ.decl n ≠ none := by decide
  exact h n hn

theorem full_fine : ForeignFine Γ NoForeign (· ∈ fullNames) where
  tame n r hd := .unsupp
  val n v w r hn hd hx := hx.elim
  nil n w r hn hd := absurd hd (full_declared hn)
  embeds n strict fields fd m hn hd hf hj hm := by
    refine full_declared (hm.inS full_set.toTypeSet (full_set.field hn hd hf))

theorem times_ok (T : TExpr) (V : GoVal) : TimesOK Γ T V := fun _ _ _ _ _ _ => ⟨_, rfl⟩

theorem doc_noNilUUID : NoNilUUID Γ (.named 3) docVal := fun h => by simpa [docParts] using doc_parts h.toPart

/-- the document with an embedded struct is encoded, and so is every other value of its type
without a nil UUID pointer -/
example : ∃ s, Marshals Γ 3 (some docVal) (.ok s) :=
  C46_encode_succeeds_partial full_set full_fine (by decide) doc_typed doc_noNilUUID (times_ok _ _)

/-- onto any writer -/
example (w : W) : ∃ e w', MarshalsTo Γ 3 (some docVal) w e w' :=
  C46_append_returns_partial full_set (by decide) doc_typed doc_noNilUUID w

/-- a nil receiver -/
example : ∃ r, Marshals Γ 24 none r ∧ (Γ.decl 24 ≠ none → ∃ s, r = .ok s) := C46_nil_returns full_set (by decide)

/-- a struct whose UUID pointer is nil: `MarshalJSON` panics -/
example : MarshalPanics Γ 48 (some (.struct [.nil])) :=
  (C46_panics_exactly full_set full_fine (by decide) (typed_struct rfl (.cons (.nilPtr _) .nil)) (times_ok _ _)).2
    (Written.field (fd := ⟨.star .uuid, tag "u"⟩) (i := 0) .self (.named 48) rfl rfl rfl (not_omitted .uuidPtr fun h => by cases h))

/-- the document above does not -/
example : ¬ MarshalPanics Γ 3 (some docVal) := fun h =>
  doc_noNilUUID ((C46_panics_exactly full_set full_fine (by decide) doc_typed (times_ok _ _)).1 h)

example : ∃ s, Marshals Γ 3 (some docVal) (.ok s) :=
  (C46_succeeds_exactly full_set full_fine (by decide) doc_typed (times_ok _ _)).2 doc_noNilUUID

/-- C46 fails for a nil `*uuid.UUID`: the value is well typed and no fuel makes it return -/
theorem C46_nil_uuid_never_returns : HasType Γ NoForeign (.named 48) (.struct [.nil]) ∧ ¬ ∃ r, Marshals Γ 48 (some (.struct [.nil])) r := by
  refine ⟨typed_struct rfl (.cons (.nilPtr _) .nil), ?_⟩
  rintro ⟨r, h⟩
  obtain ⟨e, w, ⟨k, hk⟩, _⟩ := marshals_iff.1 h
  match k with
  | 0 => cases hk
  | k + 1 => 
    have : (Γ.methods (k + 1) 48).marshalTo (some (.struct [.nil])) W.empty = .panic := rfl
    rw [this] at hk; cases hk

end Examples
end VJ
