import Verif.Proof.FieldFacts
import Verif.Props.Sample

/-!
# C08, C09: decoded integers
-/

namespace VJ
set_option linter.unusedSectionVars false

section
variable [Ext]

/-- what `PrimDec` says about integer types -/
theorem primDec_int {p : Prim} {v : JV} {w : GoVal} (h : PrimDec p v w) (hp : p.isInt = true) :
    ∃ raw z x, v = .num raw ∧ IntToken raw z ∧ w = .int x ∧ WrapsTo p z x ∧
      (p.isSigned = true → -9223372036854775808 ≤ z ∧ z ≤ 9223372036854775807) ∧ (p.isUnsigned = true → DecNat raw z.toNat ∧ 0 ≤ z) := by
  cases h with
  | @signed p raw z w hs h h1 h2 hw =>
    exact ⟨raw, z, w, rfl, h, rfl, hw, fun _ => ⟨h1, h2⟩, fun hu => by cases p <;> simp_all [Prim.isSigned, Prim.isUnsigned]⟩
  | @unsigned p raw n w hu h h2 hw =>
    exact ⟨raw, n, w, rfl, .nonneg h, rfl, hw, fun hs => by cases p <;> simp_all [Prim.isSigned, Prim.isUnsigned],
      fun _ => ⟨by simpa using h, by omega⟩⟩
  | float64 h => simp [Prim.isInt] at hp
  | float32 h => simp [Prim.isInt] at hp
  | bool b => simp [Prim.isInt] at hp
  | string s => simp [Prim.isInt] at hp

theorem isPrim_not_star {Γ : Env} {t : TExpr} {p : Prim} (h : IsPrim Γ t p) : ∀ u, t ≠ .star u := by
  intro u hu; subst hu; cases h

/-- a decoded member of an integer field -/
theorem intField {Γ : Env} {n : Nat} {doc w : JV} {fd : FieldDecl} {old new : GoVal} {p : Prim}
    (h : FieldAfter Γ n doc fd old new) (hn : fd.tags.jsonName ≠ str "-") (hn' : fd.tags.jsonName ≠ [])
    (ht : IsPrim Γ (pointee fd.typ) p) (hw : doc.get fd.tags.jsonName = some w) (hnn : (∃ u, fd.typ = .star u) → w ≠ .null) :
    ∃ x, Holds fd.typ new x ∧ PrimDec p w x ∧ NotTooLarge Γ fd.typ w := by
  obtain ⟨strict, fields, gs, gs', i, hd, hi, ho, hnew, hf⟩ := h
  have hnl : fd.typ.nullLike = true → w ≠ .null := by
    intro hnl
    cases htyp : fd.typ with
    | star u => exact hnn ⟨u, htyp⟩
    | _ => rw [htyp] at ht hnl; first | (simp [TExpr.nullLike] at hnl; done) | cases ht
  obtain ⟨old', _, hdec, hm⟩ := field_decoded hd hf hi (keepsErrors_prim ht) hnew hn (Or.inr ⟨hn', hw⟩) hnl
  cases htyp : fd.typ with
  | star u =>
    rw [htyp] at hdec hm ht
    obtain ⟨x, rfl, hx⟩ := decodes_star_inv hdec
    exact ⟨x, rfl, decodesNew_prim_inv (.base ht) hx, hm⟩
  | _ =>
    rw [htyp] at hdec hm ht
    exact ⟨new, rfl, decodes_prim_inv (.base ht) hdec, hm⟩

/-- **C08, partial.**  After a successful decode an integer field (or the integer a pointer
field points to) comes from an integer of the document that is not above the maximum of its
type, and is that integer whenever it is not below the minimum either.  Missing: a number
below the minimum is not rejected but reduced modulo the number of values of the type. -/
theorem C08_decoded_integer_partial {Γ : Env} {n : Nat} {doc w : JV} {fd : FieldDecl} {old new : GoVal} {p : Prim}
    (h : FieldAfter Γ n doc fd old new) (hn : fd.tags.jsonName ≠ str "-") (hn' : fd.tags.jsonName ≠ [])
    (ht : IsPrim Γ (pointee fd.typ) p) (hp : p.isInt = true) (hw : doc.get fd.tags.jsonName = some w)
    (hnn : (∃ u, fd.typ = .star u) → w ≠ .null) :
    ∃ raw z x, w = .num raw ∧ IntToken raw z ∧ z ≤ p.maxValue ∧ Holds fd.typ new (.int x) ∧
      (p.minValue ≤ z → x = z) ∧ WrapsTo p z x := by
  obtain ⟨x, hx, hpd, hm⟩ := intField h hn hn' ht hw hnn
  obtain ⟨raw, z, x', rfl, hz, rfl, hwr, hs, hu⟩ := primDec_int hpd hp
  have hle : z ≤ p.maxValue := (hm p raw ht rfl).1 hp z hz
  exact ⟨raw, z, x', rfl, hz, hle, hx, fun hge => hwr.unique hp (.self hge hle), hwr⟩

/-- **C08 for unsigned and 64-bit types**, in full: the field holds the integer written in
the document, and that integer is in range. -/
theorem C08_unsigned_and_64_bit_exact {Γ : Env} {n : Nat} {doc w : JV} {fd : FieldDecl} {old new : GoVal} {p : Prim}
    (h : FieldAfter Γ n doc fd old new) (hn : fd.tags.jsonName ≠ str "-") (hn' : fd.tags.jsonName ≠ [])
    (ht : IsPrim Γ (pointee fd.typ) p) (hp : p.isUnsigned = true ∨ p = .int ∨ p = .int64)
    (hw : doc.get fd.tags.jsonName = some w) (hnn : (∃ u, fd.typ = .star u) → w ≠ .null) :
    ∃ raw z, w = .num raw ∧ IntToken raw z ∧ p.minValue ≤ z ∧ z ≤ p.maxValue ∧ Holds fd.typ new (.int z) := by
  have hpi : p.isInt = true := by
    rcases hp with h | rfl | rfl
    · cases p <;> simp_all [Prim.isUnsigned, Prim.isInt]
    · rfl
    · rfl
  obtain ⟨x, hx, hpd, hm⟩ := intField h hn hn' ht hw hnn
  obtain ⟨raw, z, x', rfl, hz, rfl, hwr, hs, hu⟩ := primDec_int hpd hpi
  have hle : z ≤ p.maxValue := (hm p raw ht rfl).1 hpi z hz
  have hge : p.minValue ≤ z := by
    rcases hp with h | rfl | rfl
    · have := (hu h).2
      cases p <;> simp_all [Prim.isUnsigned, Prim.minValue]
    · exact (hs rfl).1
    · exact (hs rfl).1
  refine ⟨raw, z, rfl, hz, hge, hle, ?_⟩
  rw [hwr.unique hpi (.self hge hle)] at hx
  exact hx

/-- **C08, rejection.**  A member that is not an integer of at most the type's maximum is
never accepted for an integer field: not another JSON type, not a fraction or an exponent,
not a number that is too large. -/
theorem C08_rejects {Γ : Env} {n : Nat} {doc w : JV} {fd : FieldDecl} {p : Prim}
    (hn : fd.tags.jsonName ≠ str "-") (hn' : fd.tags.jsonName ≠ []) (ht : IsPrim Γ (pointee fd.typ) p) (hp : p.isInt = true)
    (hw : doc.get fd.tags.jsonName = some w) (hnn : (∃ u, fd.typ = .star u) → w ≠ .null)
    (hbad : ¬ ∃ raw z, w = .num raw ∧ IntToken raw z ∧ z ≤ p.maxValue) (old new : GoVal) : ¬ FieldAfter Γ n doc fd old new := by
  intro h
  obtain ⟨raw, z, x, h1, h2, h3, _⟩ := C08_decoded_integer_partial h hn hn' ht hp hw hnn
  exact hbad ⟨raw, z, h1, h2, h3⟩

/-- **C08, acceptance.**  Every integer in the range of the type is accepted, written as an
optional minus (not for unsigned types) and digits, and stored as it is. -/
theorem C08_accepts_in_range {Γ : Env} {m : Nat} {doc : JV} {fd : FieldDecl} {raw : Str} {z : Int} {p : Prim}
    (hd : SingleField Γ m fd) (hdec : HasDecoder Γ m) (hn : fd.tags.jsonName ≠ str "-") (hn' : fd.tags.jsonName ≠ [])
    (ht : IsPrim Γ fd.typ p) (hp : p.isInt = true) (hacc : Acceptable [fd.tags.jsonName] false doc)
    (hw : doc.get fd.tags.jsonName = some (.num raw)) (hz : IntToken raw z)
    (hsign : p.isUnsigned = true → raw.head? ≠ some '-')
    (h1 : p.minValue ≤ z) (h2 : z ≤ p.maxValue) (old : GoVal) : Fills Γ m doc (.struct [old]) none (.struct [.int z]) := by
  have hpt : pointee fd.typ = fd.typ := by
    cases h : fd.typ <;> first | rfl | (rw [h] at ht; cases ht)
  refine single_decoded hd hdec hn hacc (Or.inr ⟨hn', hw⟩) ?_ (.prim (.base ht) ?_) ?_
  · intro _ h; cases h
  · by_cases hu : p.isUnsigned = true
    · cases hz with
      | @nonneg s k hk =>
        refine .unsigned hu hk ?_ (.self h1 h2)
        cases p <;> simp [Prim.isUnsigned] at hu <;> simp [Prim.maxValue] at h2 <;> omega
      | neg h => exact absurd rfl (hsign hu)
    · have hs : p.isSigned = true := by cases p <;> simp_all [Prim.isUnsigned, Prim.isSigned, Prim.isInt]
      refine .signed hs hz ?_ ?_ (.self h1 h2)
      · cases p <;> simp [Prim.isSigned] at hs <;> simp [Prim.minValue] at h1 <;> omega
      · cases p <;> simp [Prim.isSigned] at hs <;> simp [Prim.maxValue] at h2 <;> omega
  · intro p' raw' hp' hr
    cases hr
    rw [hpt] at hp'
    have := isPrim_unique hp' ht
    subst this
    refine ⟨fun _ z' hz' => by rw [hz'.unique hz]; exact h2, ?_⟩
    rintro rfl
    simp [Prim.isInt] at hp

/-! ## C09: integers elsewhere -/

/-- an integer element: the integer of the document, reduced to the type -/
def ReducedInt (p : Prim) (a : JV) (w : GoVal) : Prop :=
  ∃ raw z x, a = .num raw ∧ IntToken raw z ∧ w = .int x ∧ WrapsTo p z x ∧ (p.minValue ≤ z → z ≤ p.maxValue → x = z)

theorem primDec_reduced {p : Prim} {v : JV} {w : GoVal} (h : PrimDec p v w) (hp : p.isInt = true) : ReducedInt p v w := by
  obtain ⟨raw, z, x, h1, h2, h3, h4, _⟩ := primDec_int h hp
  exact ⟨raw, z, x, h1, h2, h3, h4, fun ha hb => h4.unique hp (.self ha hb)⟩

/-- a field whose type is a collection of integers, decoded from `w` -/
theorem collField {Γ : Env} {n : Nat} {doc w : JV} {fd : FieldDecl} {old new : GoVal} {elt : TExpr} {p : Prim}
    (h : FieldAfter Γ n doc fd old new) (hn : fd.tags.jsonName ≠ str "-") (hn' : fd.tags.jsonName ≠ [])
    (ht : HasElem Γ fd.typ elt) (hp : PrimName Γ elt p) (hw : doc.get fd.tags.jsonName = some w) (hnn : w ≠ .null) :
    ∃ old, Decodes Γ fd.tags.layout fd.typ w old new := by
  obtain ⟨strict, fields, gs, gs', i, hd, hi, ho, hnew, hf⟩ := h
  have hpt : pointee fd.typ = fd.typ := by
    rcases ht with h | ⟨n, h⟩ | h <;> exact is_pointee h (by simp)
  have hke : KeepsErrors Γ (pointee fd.typ) := by
    rw [hpt]
    exact keepsErrors_elems ht (primName_noLoss hp) (by rw [primName_pointee hp]; exact primName_keeps hp)
  obtain ⟨old', _, hdec, _⟩ := field_decoded hd hf hi hke hnew hn (Or.inr ⟨hn', hw⟩) (fun _ => hnn)
  exact ⟨old', hdec⟩

/-- **C09 for slices, partial.**  Every element of a decoded slice of integers is the
integer at its place in the document, reduced modulo the number of values of the type; it is
that integer when it is in range.  Missing: out-of-range integers are not rejected. -/
theorem C09_slice_elements_partial {Γ : Env} {n : Nat} {doc w : JV} {fd : FieldDecl} {old new : GoVal} {elt : TExpr} {p : Prim}
    (h : FieldAfter Γ n doc fd old new) (hn : fd.tags.jsonName ≠ str "-") (hn' : fd.tags.jsonName ≠ [])
    (ht : Is Γ fd.typ (.slice elt)) (hp : PrimName Γ elt p) (hpi : p.isInt = true)
    (hw : doc.get fd.tags.jsonName = some w) (hnn : w ≠ .null) :
    ∃ l es spare, w = .arr l ∧ new = .slice es spare ∧ es.length = l.length ∧
      ∀ (i : Nat) (a : JV) (x : GoVal), l[i]? = some a → es[i]? = some x → ReducedInt p a x := by
  obtain ⟨old', hdec⟩ := collField h hn hn' (Or.inl ht) hp hw hnn
  obtain ⟨l, z, cells, news, rfl, rfl, _, hst, hlen, _, hel⟩ := decodes_slice_inv (primName_notByte hp hpi) ht hdec
  refine ⟨l, news, _, rfl, rfl, hlen, ?_⟩
  intro i a x ha hx
  have hi : i < cells.length := by
    have h1 := (List.getElem?_eq_some_iff.1 ha).1
    cases hst with
    | fromNil => simpa using h1
    | grow h => simpa using h1
    | reuse h => simp only [List.length_append]; omega
  have := hel i a _ x ha (List.getElem?_eq_getElem hi) hx (fun h => by rw [primName_notNullLike hp] at h; cases h)
  exact primDec_reduced (decodes_prim_inv hp this) hpi

/-- **C09 for fixed arrays, partial** (see `C09_slice_elements_partial`). -/
theorem C09_array_elements_partial {Γ : Env} {n len : Nat} {doc w : JV} {fd : FieldDecl} {old new : GoVal} {elt : TExpr} {p : Prim}
    (h : FieldAfter Γ n doc fd old new) (hn : fd.tags.jsonName ≠ str "-") (hn' : fd.tags.jsonName ≠ [])
    (ht : Is Γ fd.typ (.array len elt)) (hp : PrimName Γ elt p) (hpi : p.isInt = true)
    (hw : doc.get fd.tags.jsonName = some w) (hnn : w ≠ .null) :
    ∃ l es, w = .arr l ∧ new = .arr es ∧ es.length = l.length ∧
      ∀ (i : Nat) (a : JV) (x : GoVal), l[i]? = some a → es[i]? = some x → ReducedInt p a x := by
  obtain ⟨old', hdec⟩ := collField h hn hn' (Or.inr (Or.inl ⟨_, ht⟩)) hp hw hnn
  obtain ⟨l, z, news, rfl, rfl, _, hl, hlen, hel⟩ := decodes_array_inv (primName_notByte hp hpi) ht hdec
  exact ⟨l, news, rfl, rfl, by omega, fun i a x ha hx => primDec_reduced (decodes_prim_inv hp (hel i a x ha hx)) hpi⟩

/-- **C09 for maps, partial** (see `C09_slice_elements_partial`): the values set into the map. -/
theorem C09_map_values_partial {Γ : Env} {n : Nat} {doc w : JV} {fd : FieldDecl} {old new : GoVal} {elt : TExpr} {p : Prim}
    (h : FieldAfter Γ n doc fd old new) (hn : fd.tags.jsonName ≠ str "-") (hn' : fd.tags.jsonName ≠ [])
    (ht : Is Γ fd.typ (.map elt)) (hp : PrimName Γ elt p) (hpi : p.isInt = true)
    (hw : doc.get fd.tags.jsonName = some w) (hnn : w ≠ .null) :
    ∃ kvs m0 news, w = .obj kvs ∧ new = .map (setAll m0 ((kvs.map (·.1)).zip news)) ∧ news.length = kvs.length ∧
      ∀ (i : Nat) (key : Str) (a : JV) (x : GoVal), kvs[i]? = some (key, a) → news[i]? = some x → ReducedInt p a x := by
  obtain ⟨old', hdec⟩ := collField h hn hn' (Or.inr (Or.inr ht)) hp hw hnn
  obtain ⟨kvs, m0, news, rfl, rfl, _, hlen, _, hel⟩ := decodes_map_inv ht hdec
  refine ⟨kvs, m0, news, rfl, rfl, hlen, fun i key a x ha hx => ?_⟩
  have := hel i key a x ha hx (by
    rintro ⟨u, rfl⟩
    have := primName_pointee hp
    simp [pointee] at this
    have := congrArg sizeOf this
    simp at this)
  exact primDec_reduced (decodesNew_prim_inv hp this) hpi

/-- **C09 for a name declared as a named integer type, partial**: reduced, and even the
upper bound is not checked. -/
theorem C09_chained_name_partial {Γ : Env} {n m : Nat} {doc w : JV} {fd : FieldDecl} {old new : GoVal} {u : TExpr} {p : Prim}
    (h : FieldAfter Γ n doc fd old new) (hn : fd.tags.jsonName ≠ str "-") (hn' : fd.tags.jsonName ≠ [])
    (ht : fd.typ = .named m) (hm : Γ.decl m = some (.alias u)) (hp : IsPrim Γ u p) (hpi : p.isInt = true)
    (hw : doc.get fd.tags.jsonName = some w) : ReducedInt p w new := by
  have hpn : PrimName Γ fd.typ p := by rw [ht]; exact .chain hm hp
  obtain ⟨strict, fields, gs, gs', i, hd, hi, ho, hnew, hf⟩ := h
  have hke : KeepsErrors Γ (pointee fd.typ) := by rw [primName_pointee hpn]; exact primName_keeps hpn
  obtain ⟨old', _, hdec, _⟩ := field_decoded hd hf hi hke hnew hn (Or.inr ⟨hn', hw⟩)
    (fun h => by rw [primName_notNullLike hpn] at h; cases h)
  exact primDec_reduced (decodes_prim_inv hpn hdec) hpi

/-- **C09 for named slices, arrays and maps, partial**: the elements are reduced. -/
theorem C09_named_collections_partial {Γ : Env} {n : Nat} {t elt : TExpr} {p : Prim} {v : JV} {old new : GoVal}
    (hd : Γ.decl n = some (.alias t)) (hdec : HasDecoder Γ n)
    (ht : t = .slice elt ∨ (∃ k, t = .array k elt) ∨ t = .map elt)
    (hp : PrimName Γ elt p) (hpi : p.isInt = true) (hold : FixedSize t old) (h : Fills Γ n v old none new) (hnn : v ≠ .null) :
    (∃ l es, v = .arr l ∧ (new = .slice es [] ∨ new = .arr es) ∧ es.length = l.length ∧
      ∀ (i : Nat) (a : JV) (x : GoVal), l[i]? = some a → es[i]? = some x → ReducedInt p a x) ∨
    (∃ kvs news, v = .obj kvs ∧ new = .map (setAll [] ((kvs.map (·.1)).zip news)) ∧ news.length = kvs.length ∧
      ∀ (i : Nat) (key : Str) (a : JV) (x : GoVal), kvs[i]? = some (key, a) → news[i]? = some x → ReducedInt p a x) := by
  have hk : NamedKeepsErrors Γ t := by
    have : KeepsErrors Γ (pointee elt) := by rw [primName_pointee hp]; exact primName_keeps hp
    rcases ht with rfl | ⟨k, rfl⟩ | rfl <;> exact this
  have hr := (named_iff hd hdec hold).1 h hk
  have hb := primName_notByte hp hpi
  rcases ht with rfl | ⟨k, rfl⟩ | rfl
  · cases hr with
    | null => exact absurd rfl hnn
    | bytes => exact absurd rfl hb
    | slice _ hlen he => exact Or.inl ⟨_, _, rfl, Or.inl rfl, hlen, fun i a x h1 h2 => primDec_reduced (decodesNew_prim_inv hp (he i a x h1 h2)) hpi⟩
    | fresh hc => exact absurd hc (isCollection_calls rfl _)
    | other h => cases h
  · cases hr with
    | null => exact absurd rfl hnn
    | fixedBytes => exact absurd rfl hb
    | array _ hl hlen he => exact Or.inl ⟨_, _, rfl, Or.inr rfl, by omega, fun i a x h1 h2 => primDec_reduced (decodesNew_prim_inv hp (he i a x h1 h2)) hpi⟩
    | fresh hc => exact absurd hc (isCollection_calls rfl _)
    | other h => cases h
  · cases hr with
    | null => exact absurd rfl hnn
    | map hlen _ he =>
      refine Or.inr ⟨_, _, rfl, rfl, hlen, fun i key a x h1 h2 => primDec_reduced (decodesNew_prim_inv hp (he i key a x h1 h2 ?_)) hpi⟩
      rintro ⟨u, rfl⟩
      have := primName_pointee hp
      simp [pointee] at this
      have := congrArg sizeOf this
      simp at this
    | fresh hc => exact absurd hc (isCollection_calls rfl _)
    | other h => cases h

end

namespace Examples
open Sample
attribute [local instance] Sample.ext

/-- {"a":-200,"b":65535,"c":-5,"p":7,"t":3,"w":300} -/
def numsDoc : JV := .obj [(str "a", .num (str "-200")), (str "b", .num (str "65535")), (str "c", .num (str "-5")),
  (str "p", .num (str "7")), (str "t", .num (str "3")), (str "w", .num (str "300"))]

def numsZero : GoVal := .struct [.int 0, .int 0, .int 0, .nil, .int 0, .int 0]

set_option maxRecDepth 200000 in
theorem nums_fills : Fills Γ 22 numsDoc numsZero none (.struct [.int 56, .int 65535, .int (-5), .ptr (.int 7), .int 3, .int 44]) :=
  ⟨5, rfl⟩

theorem nums_field {i : Nat} {fd : FieldDecl} {old new : GoVal} (h : nums[i]? = some fd)
    (ho : [GoVal.int 0, .int 0, .int 0, .nil, .int 0, .int 0][i]? = some old)
    (hn : [GoVal.int 56, .int 65535, .int (-5), .ptr (.int 7), .int 3, .int 44][i]? = some new) :
    FieldAfter Γ 22 numsDoc fd old new := ⟨false, nums, _, _, i, rfl, h, ho, hn, nums_fills⟩

/-- hypotheses of `C08_decoded_integer_partial` and of `C08_rejects` -/
example : FieldAfter Γ 22 numsDoc ⟨.prim .int8, tag "a"⟩ (.int 0) (.int 56) ∧ IsPrim Γ (pointee (.prim .int8)) .int8 ∧
    numsDoc.get (str "a") = some (.num (str "-200")) := ⟨nums_field (i := 0) rfl rfl rfl, .self _, rfl⟩
/-- hypotheses of `C08_unsigned_and_64_bit_exact`, and the pointer case -/
example : FieldAfter Γ 22 numsDoc ⟨.prim .int64, tag "c"⟩ (.int 0) (.int (-5)) := nums_field (i := 2) rfl rfl rfl
example : FieldAfter Γ 22 numsDoc ⟨.star (.prim .int8), tag "p"⟩ .nil (.ptr (.int 7)) := nums_field (i := 3) rfl rfl rfl
/-- `C08_accepts_in_range` -/
example : Fills Γ 32 (.obj [(str "a", .num (str "-128"))]) (.struct [.int 9]) none (.struct [.int (-128)]) :=
  C08_accepts_in_range (Γ := Γ) (m := 32) (fd := ⟨.prim .int8, tag "a"⟩) (p := .int8) (raw := str "-128") rfl ⟨_, 3, _, rfl, rfl⟩ (by decide) (by decide) (.self _) rfl
    ⟨_, rfl, by decide, by simp⟩ rfl (parseInt_iff.1 rfl) (by simp [Prim.isUnsigned]) (by decide) (by decide) _
/-- `C08_rejects` on {"a":300} -/
example (old new : GoVal) : ¬ FieldAfter Γ 32 (.obj [(str "a", .num (str "300"))]) ⟨.prim .int8, tag "a"⟩ old new := by
  refine C08_rejects (p := .int8) (by decide) (by decide) (.self _) rfl rfl (by rintro ⟨u, hu⟩; cases hu) ?_ old new
  rintro ⟨raw, z, hr, hz, hle⟩
  cases hr
  have : z = 300 := hz.unique (parseInt_iff.1 rfl)
  subst this
  exact absurd hle (by decide)

/-- **C08 does not hold in full**: a document saying -200 decodes without error into an
int8 field holding 56. -/
theorem C08_negative_overflow_is_accepted :
    ¬ ∀ (Γ : Env) (n : Nat) (doc : JV) (fd : FieldDecl) (old new : GoVal) (p : Prim) (raw : Str) (z : Int),
      FieldAfter Γ n doc fd old new → IsPrim Γ fd.typ p → p.isInt = true → fd.tags.jsonName ≠ str "-" → fd.tags.jsonName ≠ [] →
      doc.get fd.tags.jsonName = some (.num raw) → IntToken raw z → new = .int z := by
  intro h
  have := h Γ 22 numsDoc ⟨.prim .int8, tag "a"⟩ (.int 0) (.int 56) .int8 (str "-200") (-200) (nums_field (i := 0) rfl rfl rfl)
    (.self _) rfl (by decide) (by decide) rfl (parseInt_iff.1 rfl)
  simp at this

/-- {"l":[300,-1],"m":{"x":256},"f":[1,-129]} -/
def bagDoc : JV := .obj [(str "l", .arr [.num (str "300"), .num (str "-1")]), (str "m", .obj [(str "x", .num (str "256"))]),
  (str "f", .arr [.num (str "1"), .num (str "-129")])]
def bagZero : GoVal := .struct [.nil, .nil, .arr [.int 0, .int 0], .nil, .nil, .nil, .nil]
def bagDecoded : List GoVal := [.slice [.int 44, .int (-1)] [], .map [(str "x", .int 0)], .arr [.int 1, .int 127], .nil, .nil, .nil, .nil]

set_option maxRecDepth 20000 in
theorem bag_fills : Fills Γ 23 bagDoc bagZero none (.struct bagDecoded) := ⟨5, rfl⟩

/-- hypotheses of the C09 theorems about fields -/
example : FieldAfter Γ 23 bagDoc ⟨.slice (.prim .int8), tag "l"⟩ .nil (.slice [.int 44, .int (-1)] []) :=
  ⟨false, bag, _, _, 0, rfl, rfl, rfl, rfl, bag_fills⟩
example : FieldAfter Γ 23 bagDoc ⟨.map (.prim .int8), tag "m"⟩ .nil (.map [(str "x", .int 0)]) :=
  ⟨false, bag, _, _, 1, rfl, rfl, rfl, rfl, bag_fills⟩
example : FieldAfter Γ 23 bagDoc ⟨.array 2 (.prim .int8), tag "f"⟩ (.arr [.int 0, .int 0]) (.arr [.int 1, .int 127]) :=
  ⟨false, bag, _, _, 2, rfl, rfl, rfl, rfl, bag_fills⟩
example : FieldAfter Γ 22 numsDoc ⟨warm, tag "w"⟩ (.int 0) (.int 44) ∧ warm = .named 21 ∧ Γ.decl 21 = some (.alias temp) ∧
    IsPrim Γ temp .int8 := ⟨nums_field (i := 5) rfl rfl rfl, rfl, rfl, .named rfl⟩
set_option maxRecDepth 200000 in
/-- hypotheses of `C09_named_collections_partial` -/
example : Γ.decl 25 = some (.alias (.array 2 (.prim .int16))) ∧ HasDecoder Γ 25 ∧ PrimName Γ (.prim .int16) .int16 ∧
    FixedSize (.array 2 (.prim .int16)) (.arr [.int 0, .int 0]) ∧
    Fills Γ 25 (.arr [.num (str "70000"), .num (str "3")]) (.arr [.int 0, .int 0]) none (.arr [.int 4464, .int 3]) :=
  ⟨rfl, ⟨_, 3, _, rfl, rfl⟩, .base (.self _), by simp [FixedSize], ⟨3, rfl⟩⟩

/-- **C09 does not hold in full**: 300 is accepted as an element of a slice of int8, and
becomes 44; 256 as a map value, and becomes 0; 300 in a field of type `Warm` (declared as
`Temp`, declared as int8), and becomes 44. -/
theorem C09_overflow_is_accepted :
    FieldAfter Γ 23 bagDoc ⟨.slice (.prim .int8), tag "l"⟩ .nil (.slice [.int 44, .int (-1)] []) ∧
    bagDoc.get (str "l") = some (.arr [.num (str "300"), .num (str "-1")]) ∧
    FieldAfter Γ 23 bagDoc ⟨.map (.prim .int8), tag "m"⟩ .nil (.map [(str "x", .int 0)]) ∧
    bagDoc.get (str "m") = some (.obj [(str "x", .num (str "256"))]) ∧
    FieldAfter Γ 22 numsDoc ⟨warm, tag "w"⟩ (.int 0) (.int 44) ∧ numsDoc.get (str "w") = some (.num (str "300")) :=
  ⟨⟨false, bag, _, _, 0, rfl, rfl, rfl, rfl, bag_fills⟩, rfl, ⟨false, bag, _, _, 1, rfl, rfl, rfl, rfl, bag_fills⟩, rfl,
   nums_field (i := 5) rfl rfl rfl, rfl⟩

end Examples
end VJ
