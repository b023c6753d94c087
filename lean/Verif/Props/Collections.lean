import Verif.Props.Integers

/-!
# C10, C12, C14, C15, C16, C43: slices, arrays, maps and nested types
-/

namespace VJ
set_option linter.unusedSectionVars false

section
variable [Ext]

/-! ## C10 -/

/-- a slice field decoded from an array -/
theorem sliceField {Γ : Env} {n : Nat} {doc : JV} {l : List JV} {fd : FieldDecl} {old new : GoVal} {elt : TExpr}
    (h : FieldAfter Γ n doc fd old new) (hn : fd.tags.jsonName ≠ str "-") (hn' : fd.tags.jsonName ≠ [])
    (ht : Is Γ fd.typ (.slice elt)) (hb : elt ≠ .prim .byte) (hk : KeepsErrors Γ fd.typ)
    {w : JV} (hw : doc.get fd.tags.jsonName = some w) (hnn : w ≠ .null) :
    Decodes Γ fd.tags.layout fd.typ w old new := by
  obtain ⟨strict, fields, gs, gs', i, hd, hi, ho, hnew, hf⟩ := h
  obtain ⟨old', ho', hdec, _⟩ := field_decoded hd hf hi (by rw [is_pointee ht (by simp)]; exact hk) hnew hn (Or.inr ⟨hn', hw⟩) (fun _ => hnn)
  rw [ho] at ho'; cases ho'
  exact hdec

theorem storage_get {old z : GoVal} {len : Nat} {cells : List GoVal} (h : Storage old len z cells) {i : Nat} (hi : i < len) :
    ∃ c, cells[i]? = some c :=
  ⟨_, List.getElem?_eq_getElem (Nat.lt_of_lt_of_le hi (storage_length h))⟩

/-- Element types whose decoding leaves no trace of the old value: predeclared types (also by
name), and pointers. -/
inductive Overwritten (Γ : Env) : TExpr → Prop
  | prim {t : TExpr} {p : Prim} (h : PrimName Γ t p) : Overwritten Γ t
  | ptr (t : TExpr) : Overwritten Γ (.star t)

theorem overwritten_new {Γ : Env} {t : TExpr} (ht : Overwritten Γ t) {L : Str} {v : JV} {old new : GoVal}
    (h : Decodes Γ L t v old new) : DecodesNew Γ L t v new := by
  cases ht with
  | prim hp =>
    have := decodes_prim_inv hp h
    exact .other (primName_noCalls hp) fun _ => .prim hp this
  | ptr u =>
    obtain ⟨w, rfl, hw⟩ := decodes_star_inv h
    exact .other (fun n hc => by cases hc) fun _ => .ptr hw

theorem decodesNew_old {Γ : Env} {t : TExpr} (ht : Overwritten Γ t) {L : Str} {v : JV} {w : GoVal}
    (h : DecodesNew Γ L t v w) (old : GoVal) : Decodes Γ L t v old w := by
  cases h with
  | call hc =>
    cases ht with
    | prim hp => exact absurd hc (primName_noCalls hp _)
    | ptr u => cases hc
  | other _ h => exact h old

theorem overwritten_notByte {Γ : Env} {t : TExpr} (h : Overwritten Γ t) : t ≠ .prim .byte ∨ PrimName Γ t .byte := by
  by_cases hb : t = .prim .byte
  · subst hb; exact Or.inr (.base (.self _))
  · exact Or.inl hb

/-- **C10, partial.**  A decoded slice of scalars, strings or pointers has one element per
member of the JSON array, each the decoded member, whatever the field held before.  Missing:
element types that lose errors (pointers to times, UUIDs and maps; see C16), for which the
slice may end early. -/
theorem C10_slice_mirrors_array_partial {Γ : Env} {n : Nat} {doc w : JV} {fd : FieldDecl} {old new : GoVal} {elt : TExpr}
    (h : FieldAfter Γ n doc fd old new) (hn : fd.tags.jsonName ≠ str "-") (hn' : fd.tags.jsonName ≠ [])
    (ht : Is Γ fd.typ (.slice elt)) (hb : elt ≠ .prim .byte) (he : Overwritten Γ elt)
    (hl : ¬ LosesErrors Γ elt) (hk : KeepsErrors Γ (pointee elt))
    (hw : doc.get fd.tags.jsonName = some w) (hnn : w ≠ .null) :
    ∃ l es spare, w = .arr l ∧ new = .slice es spare ∧ es.length = l.length ∧
      ∀ (i : Nat) (a : JV) (x : GoVal), l[i]? = some a → es[i]? = some x → ElementOf Γ elt a x := by
  have hdec := sliceField (l := []) h hn hn' ht hb (keepsErrors_elems (Or.inl ht) hl hk) hw hnn
  obtain ⟨l, z, cells, news, rfl, rfl, _, hst, hlen, hnull, hel⟩ := decodes_slice_inv hb ht hdec
  refine ⟨l, news, _, rfl, rfl, hlen, ?_⟩
  intro i a x ha hx
  obtain ⟨c, hc⟩ := storage_get hst (List.getElem?_eq_some_iff.1 ha).1
  by_cases hnl : elt.nullLike = true ∧ a = .null
  · obtain ⟨h1, rfl⟩ := hnl
    exact Or.inl ⟨h1, rfl, hnull i x h1 ha hx⟩
  · exact Or.inr ⟨hnl, overwritten_new he (hel i a c x ha hc hx fun h1 h2 => hnl ⟨h1, h2⟩)⟩

/-- **C10 for scalars and strings**, without exception. -/
theorem C10_slice_of_scalars {Γ : Env} {n : Nat} {doc w : JV} {fd : FieldDecl} {old new : GoVal} {elt : TExpr} {p : Prim}
    (h : FieldAfter Γ n doc fd old new) (hn : fd.tags.jsonName ≠ str "-") (hn' : fd.tags.jsonName ≠ [])
    (ht : Is Γ fd.typ (.slice elt)) (hb : elt ≠ .prim .byte) (he : PrimName Γ elt p)
    (hw : doc.get fd.tags.jsonName = some w) (hnn : w ≠ .null) :
    ∃ l es spare, w = .arr l ∧ new = .slice es spare ∧ es.length = l.length ∧
      ∀ (i : Nat) (a : JV) (x : GoVal), l[i]? = some a → es[i]? = some x → PrimDec p a x := by
  obtain ⟨l, es, spare, h1, h2, h3, h4⟩ := C10_slice_mirrors_array_partial h hn hn' ht hb (.prim he) (primName_noLoss he)
    (by rw [primName_pointee he]; exact primName_keeps he) hw hnn
  refine ⟨l, es, spare, h1, h2, h3, fun i a x ha hx => ?_⟩
  rcases h4 i a x ha hx with ⟨h, _⟩ | ⟨_, h⟩
  · rw [primName_notNullLike he] at h; cases h
  · exact decodesNew_prim_inv he h

/-- **C10, the previous contents do not matter**: two decodes of the same document, into
fields that held anything, give slices with the same elements. -/
theorem C10_old_contents_irrelevant {Γ : Env} {n : Nat} {doc w : JV} {fd : FieldDecl} {old1 new1 old2 new2 : GoVal} {elt : TExpr}
    (h1 : FieldAfter Γ n doc fd old1 new1) (h2 : FieldAfter Γ n doc fd old2 new2)
    (hn : fd.tags.jsonName ≠ str "-") (hn' : fd.tags.jsonName ≠ [])
    (ht : Is Γ fd.typ (.slice elt)) (hb : elt ≠ .prim .byte) (he : Overwritten Γ elt)
    (hl : ¬ LosesErrors Γ elt) (hk : KeepsErrors Γ (pointee elt))
    (hw : doc.get fd.tags.jsonName = some w) (hnn : w ≠ .null) :
    ∃ es spare1 spare2, new1 = .slice es spare1 ∧ new2 = .slice es spare2 := by
  obtain ⟨l, es, sp, rfl, rfl, a3, a4⟩ := C10_slice_mirrors_array_partial h1 hn hn' ht hb he hl hk hw hnn
  obtain ⟨l', es', sp', b1, rfl, b3, b4⟩ := C10_slice_mirrors_array_partial h2 hn hn' ht hb he hl hk hw hnn
  cases b1
  have : es = es' := by
    refine list_ext_of (by omega) fun i a b ha hb' => ?_
    have hi : i < l.length := by rw [← a3]; exact (List.getElem?_eq_some_iff.1 ha).1
    have hg := List.getElem?_eq_getElem hi
    rcases a4 i _ a hg ha with ⟨c1, c2, c3⟩ | ⟨c1, c2⟩ <;> rcases b4 i _ b hg hb' with ⟨d1, d2, d3⟩ | ⟨d1, d2⟩
    · rw [c3, d3]
    · exact absurd ⟨c1, c2⟩ d1
    · exact absurd ⟨d1, d2⟩ c1
    · exact decodesNew_unique c2 d2
  subst this
  exact ⟨es, sp, sp', rfl, rfl⟩

/-- **C10, acceptance**: an array whose members all decode is accepted. -/
theorem C10_slice_accepts {Γ : Env} {m : Nat} {doc : JV} {fd : FieldDecl} {l : List JV} {es : List GoVal} {old z : GoVal} {elt : TExpr}
    (hd : SingleField Γ m fd) (hdec : HasDecoder Γ m) (hn : fd.tags.jsonName ≠ str "-") (hn' : fd.tags.jsonName ≠ [])
    (ht : Is Γ fd.typ (.slice elt)) (hb : elt ≠ .prim .byte) (he : Overwritten Γ elt) (hz : ZeroOf Γ elt z)
    (hacc : Acceptable [fd.tags.jsonName] false doc) (hw : doc.get fd.tags.jsonName = some (.arr l))
    (hold : old = .nil ∨ ∃ xs ys, old = .slice xs ys) (hlen : es.length = l.length)
    (hel : ∀ (i : Nat) (a : JV) (x : GoVal), l[i]? = some a → es[i]? = some x → ElementOf Γ elt a x) :
    ∃ spare, Fills Γ m doc (.struct [old]) none (.struct [.slice es spare]) := by
  obtain ⟨cells, hst⟩ : ∃ cells, Storage old l.length z cells := by
    rcases hold with rfl | ⟨xs, ys, rfl⟩
    · exact ⟨_, .fromNil⟩
    · by_cases h : l.length ≤ xs.length + ys.length
      · exact ⟨_, .reuse h⟩
      · exact ⟨_, .grow (by omega)⟩
  refine ⟨cells.drop l.length, single_decoded hd hdec hn hacc (Or.inr ⟨hn', hw⟩) (by simp) ?_ ?_⟩
  · refine .slice ht hb hz hst hlen ?_ ?_
    · intro i w h1 h2 h3
      rcases hel i _ w h2 h3 with ⟨_, _, h⟩ | ⟨h, _⟩
      · exact h
      · exact absurd ⟨h1, rfl⟩ h
    · intro i a c w h1 _ h3 h4
      rcases hel i _ w h1 h3 with ⟨ha, hb, _⟩ | ⟨_, h⟩
      · exact absurd hb (h4 ha)
      · exact decodesNew_old he h c
  · intro p raw hp hr; cases hr

/-- **C10 for named slice types.** -/
theorem C10_named_slice_partial {Γ : Env} {n : Nat} {elt : TExpr} {v : JV} {old new : GoVal}
    (hd : Γ.decl n = some (.alias (.slice elt))) (hdec : HasDecoder Γ n) (hb : elt ≠ .prim .byte)
    (hk : KeepsErrors Γ (pointee elt)) (h : Fills Γ n v old none new) (hnn : v ≠ .null) :
    ∃ l es, v = .arr l ∧ new = .slice es [] ∧ es.length = l.length ∧
      ∀ (i : Nat) (a : JV) (x : GoVal), l[i]? = some a → es[i]? = some x → DecodesNew Γ [] elt a x := by
  have hr := (named_iff hd hdec (old := old) trivial).1 h hk
  cases hr with
  | null => exact absurd rfl hnn
  | bytes => exact absurd rfl hb
  | slice _ hlen he => exact ⟨_, _, rfl, rfl, hlen, he⟩
  | fresh hc => exact absurd hc (isCollection_calls rfl _)
  | other h => cases h

/-! ## C12 -/

/-- **C12, partial.**  What a slice field holds after a decode does not depend on what it
held before when the element type leaves no trace of old values; for other element types,
each element is decoded into whatever its cell of the reused storage held.  Missing: for
structs the cell's old field values survive (`C12_stale_field_survives`). -/
theorem C12_slice_elements_partial {Γ : Env} {n : Nat} {doc w : JV} {fd : FieldDecl} {old new : GoVal} {elt : TExpr}
    (h : FieldAfter Γ n doc fd old new) (hn : fd.tags.jsonName ≠ str "-") (hn' : fd.tags.jsonName ≠ [])
    (ht : Is Γ fd.typ (.slice elt)) (hb : elt ≠ .prim .byte) (hk : KeepsErrors Γ fd.typ)
    (hw : doc.get fd.tags.jsonName = some w) (hnn : w ≠ .null) :
    ∃ l es spare z cells, w = .arr l ∧ new = .slice es spare ∧ es.length = l.length ∧ ZeroOf Γ elt z ∧
      Storage old l.length z cells ∧
      (∀ (i : Nat) (a : JV) (c x : GoVal), l[i]? = some a → cells[i]? = some c → es[i]? = some x →
        (elt.nullLike = true ∧ a = .null ∧ x = .nil) ∨ Decodes Γ [] elt a c x) ∧
      (old = .nil → ∀ (i : Nat) (a : JV) (x : GoVal), l[i]? = some a → es[i]? = some x →
        (elt.nullLike = true ∧ a = .null ∧ x = .nil) ∨ Decodes Γ [] elt a z x) := by
  have hdec := sliceField (l := []) h hn hn' ht hb hk hw hnn
  obtain ⟨l, z, cells, news, rfl, rfl, hz, hst, hlen, hnull, hel⟩ := decodes_slice_inv hb ht hdec
  have key : ∀ (i : Nat) (a : JV) (c x : GoVal), l[i]? = some a → cells[i]? = some c → news[i]? = some x →
        (elt.nullLike = true ∧ a = .null ∧ x = .nil) ∨ Decodes Γ [] elt a c x := by
    intro i a c x ha hc hx
    by_cases hnl : elt.nullLike = true ∧ a = .null
    · obtain ⟨h1, rfl⟩ := hnl
      exact Or.inl ⟨h1, rfl, hnull i x h1 ha hx⟩
    · exact Or.inr (hel i a c x ha hc hx fun h1 h2 => hnl ⟨h1, h2⟩)
  refine ⟨l, news, _, z, cells, rfl, rfl, hlen, hz, hst, key, ?_⟩
  rintro rfl i a x ha hx
  have hi := (List.getElem?_eq_some_iff.1 ha).1
  have : cells[i]? = some z := by
    cases hst with
    | fromNil => simp [List.getElem?_replicate, hi]
  exact key i a z x ha this hx

/-! ## C14 -/

/-- **C14, acceptance.**  A fixed-length array field accepts a JSON array exactly if it has
that many members and each decodes. -/
theorem C14_array_field_iff {Γ : Env} {m len : Nat} {doc : JV} {fd : FieldDecl} {l : List JV} {old new z : GoVal} {elt : TExpr}
    (hd : SingleField Γ m fd) (hdec : HasDecoder Γ m) (hn : fd.tags.jsonName ≠ str "-") (hn' : fd.tags.jsonName ≠ [])
    (ht : Is Γ fd.typ (.array len elt)) (hb : elt ≠ .prim .byte) (hl : ¬ LosesErrors Γ elt) (hk : KeepsErrors Γ (pointee elt))
    (hz : ZeroOf Γ elt z) (hacc : Acceptable [fd.tags.jsonName] false doc) (hw : doc.get fd.tags.jsonName = some (.arr l)) :
    Fills Γ m doc (.struct [old]) none (.struct [new]) ↔
      l.length = len ∧ ∃ es, new = .arr es ∧ es.length = len ∧
        ∀ (i : Nat) (a : JV) (x : GoVal), l[i]? = some a → es[i]? = some x → Decodes Γ [] elt a z x := by
  constructor
  · intro h
    obtain ⟨old', _, hdec, _⟩ := field_decoded hd h (i := 0) rfl
      (by rw [is_pointee ht (by simp)]; exact keepsErrors_elems (Or.inr (Or.inl ⟨_, ht⟩)) hl hk) rfl hn (Or.inr ⟨hn', hw⟩) (by simp)
    obtain ⟨l', z', news, h1, rfl, hz', hl', hlen, hel⟩ := decodes_array_inv hb ht hdec
    cases h1
    rw [zeroOf_unique hz hz']
    exact ⟨hl', news, rfl, hlen, hel⟩
  · rintro ⟨hl', es, rfl, hlen, hel⟩
    exact single_decoded hd hdec hn hacc (Or.inr ⟨hn', hw⟩) (by simp) (.array ht hb hz hl' hlen hel)
      (fun p raw hp hr => by cases hr)

/-- **C14 for named array types.** -/
theorem C14_named_array_iff {Γ : Env} {n len : Nat} {elt : TExpr} {l : List JV} {os : List GoVal} {new : GoVal}
    (hd : Γ.decl n = some (.alias (.array len elt))) (hdec : HasDecoder Γ n) (hb : elt ≠ .prim .byte)
    (hk : KeepsErrors Γ (pointee elt)) (hold : os.length = len) :
    Fills Γ n (.arr l) (.arr os) none new ↔
      l.length = len ∧ ∃ es, new = .arr es ∧ es.length = len ∧
        ∀ (i : Nat) (a : JV) (x : GoVal), l[i]? = some a → es[i]? = some x → DecodesNew Γ [] elt a x := by
  have hfs : FixedSize (.array len elt) (.arr os) := by simp [FixedSize, hb, hold]
  obtain ⟨h1, h2⟩ := named_iff (v := .arr l) (new := new) hd hdec hfs
  constructor
  · intro h
    cases h1 h hk with
    | array _ hl hlen he => exact ⟨hl, _, rfl, hlen, he⟩
    | fresh hc => exact absurd hc (isCollection_calls rfl _)
    | other h => cases h
  · rintro ⟨hl, es, rfl, hlen, he⟩
    exact h2 (.array hb hl hlen he) (by simp)

/-! ## C15 -/

theorem mapGet_mapSet (key key' : Str) (v : GoVal) (m : List (Str × GoVal)) :
    mapGet key' (mapSet key v m) = if key = key' then some v else mapGet key' m := by
  induction m with
  | nil => simp [mapSet, mapGet]
  | cons kv m ih =>
    obtain ⟨k, w⟩ := kv
    simp only [mapSet]
    by_cases h : k = key
    · subst h
      simp only [if_true, mapGet]
      by_cases h' : k = key' <;> simp [h']
    · rw [if_neg h]
      simp only [mapGet, ih]
      by_cases h' : k = key'
      · subst h'
        rw [if_pos rfl, if_pos rfl, if_neg (fun h2 => h h2.symm)]
      · simp [h']

theorem setAll_get (key : Str) : ∀ (kvs : List (Str × GoVal)) (m : List (Str × GoVal)),
    (mapGet key (setAll m kvs) = mapGet key m ∧ ∀ kv ∈ kvs, kv.1 ≠ key) ∨
    ∃ (i : Nat) (w : GoVal), kvs[i]? = some (key, w) ∧ mapGet key (setAll m kvs) = some w ∧
      ∀ (j : Nat) (kv : Str × GoVal), i < j → kvs[j]? = some kv → kv.1 ≠ key
  | [], m => Or.inl ⟨rfl, by simp⟩
  | (k, v) :: kvs, m => by
    have hs : setAll m ((k, v) :: kvs) = setAll (mapSet k v m) kvs := rfl
    rw [hs]
    rcases setAll_get key kvs (mapSet k v m) with ⟨h1, h2⟩ | ⟨i, w, h1, h2, h3⟩
    · by_cases hk : k = key
      · subst hk
        refine Or.inr ⟨0, v, rfl, by rw [h1, mapGet_mapSet]; simp, ?_⟩
        intro j kv hj hkv
        cases j with
        | zero => omega
        | succ j => exact h2 kv (List.mem_of_getElem? (by simpa using hkv))
      · refine Or.inl ⟨by rw [h1, mapGet_mapSet, if_neg hk], ?_⟩
        intro kv hkv
        rcases List.mem_cons.1 hkv with rfl | hkv
        · exact hk
        · exact h2 kv hkv
    · refine Or.inr ⟨i + 1, w, by simpa using h1, h2, ?_⟩
      intro j kv hj hkv
      cases j with
      | zero => omega
      | succ j => exact h3 j kv (by omega) (by simpa using hkv)

/-- the members of `kvs` set into `m0`, in terms of last occurrences -/
theorem setAll_members {kvs : List (Str × JV)} {m0 : List (Str × GoVal)} {news : List GoVal} (hlen : news.length = kvs.length)
    {P : JV → GoVal → Prop}
    (h : ∀ (i : Nat) (key : Str) (a : JV) (w : GoVal), kvs[i]? = some (key, a) → news[i]? = some w → P a w) (key : Str) :
    ((∀ kv ∈ kvs, kv.1 ≠ key) ∧ mapGet key (setAll m0 ((kvs.map (·.1)).zip news)) = mapGet key m0) ∨
    ∃ (i : Nat) (a : JV) (w : GoVal), kvs[i]? = some (key, a) ∧ (∀ (j : Nat) (kv : Str × JV), i < j → kvs[j]? = some kv → kv.1 ≠ key) ∧
      mapGet key (setAll m0 ((kvs.map (·.1)).zip news)) = some w ∧ P a w := by
  have hz : ∀ (i : Nat) (k : Str) (w : GoVal), ((kvs.map (·.1)).zip news)[i]? = some (k, w) ↔
      (∃ a, kvs[i]? = some (k, a)) ∧ news[i]? = some w := by
    intro i k w
    rw [List.getElem?_zip_eq_some, List.getElem?_map]
    constructor
    · rintro ⟨h1, h2⟩
      obtain ⟨kv, h3, h4⟩ := Option.map_eq_some_iff.1 h1
      obtain ⟨k', a⟩ := kv
      simp only at h4; subst h4
      exact ⟨⟨a, h3⟩, h2⟩
    · rintro ⟨⟨a, h1⟩, h2⟩
      exact ⟨by rw [h1]; rfl, h2⟩
  have hget : ∀ (j : Nat) (kv : Str × JV), kvs[j]? = some kv → ∃ w, ((kvs.map (·.1)).zip news)[j]? = some (kv.1, w) := by
    intro j kv hj
    have hjl : j < news.length := by rw [hlen]; exact (List.getElem?_eq_some_iff.1 hj).1
    exact ⟨_, (hz j kv.1 _).2 ⟨⟨kv.2, hj⟩, List.getElem?_eq_getElem hjl⟩⟩
  rcases setAll_get key ((kvs.map (·.1)).zip news) m0 with ⟨h1, h2⟩ | ⟨i, w, h1, h2, h3⟩
  · refine Or.inl ⟨fun kv hkv => ?_, h1⟩
    obtain ⟨j, hj⟩ := List.getElem?_of_mem hkv
    obtain ⟨w, hw⟩ := hget j kv hj
    exact h2 _ (List.mem_of_getElem? hw)
  · obtain ⟨⟨a, ha⟩, hw⟩ := (hz i key w).1 h1
    refine Or.inr ⟨i, a, w, ha, fun j kv hj hkv => ?_, h2, h i key a w ha hw⟩
    obtain ⟨w', hw'⟩ := hget j kv hkv
    exact h3 j _ hj hw'

/-- **C15 for map fields.**  After a decode, every key of the object maps to the decoded
value of its last occurrence and every other key has its previous entry (`KeepsErrors`: no
map value type inside which errors are lost, see C16). -/
theorem C15_map_field {Γ : Env} {n : Nat} {doc w : JV} {fd : FieldDecl} {old new : GoVal} {val : TExpr}
    (h : FieldAfter Γ n doc fd old new) (hn : fd.tags.jsonName ≠ str "-") (hn' : fd.tags.jsonName ≠ [])
    (ht : Is Γ fd.typ (.map val)) (hk : KeepsErrors Γ fd.typ)
    (hw : doc.get fd.tags.jsonName = some w) (hnn : w ≠ .null) :
    ∃ kvs m0 m, w = .obj kvs ∧ new = .map m ∧ ((old = .nil ∧ m0 = []) ∨ old = .map m0) ∧
      ∀ key, ((∀ kv ∈ kvs, kv.1 ≠ key) ∧ mapGet key m = mapGet key m0) ∨
        ∃ (i : Nat) (a : JV) (x : GoVal), kvs[i]? = some (key, a) ∧
          (∀ (j : Nat) (kv : Str × JV), i < j → kvs[j]? = some kv → kv.1 ≠ key) ∧
          mapGet key m = some x ∧ MapValueOf Γ fd.tags.layout val a x := by
  obtain ⟨strict, fields, gs, gs', i, hd, hi, ho, hnew, hf⟩ := h
  obtain ⟨old', ho', hdec, _⟩ := field_decoded hd hf hi (by rw [is_pointee ht (by simp)]; exact hk) hnew hn (Or.inr ⟨hn', hw⟩) (fun _ => hnn)
  rw [ho] at ho'; cases ho'
  obtain ⟨kvs, m0, news, rfl, rfl, hold, hlen, hnull, hel⟩ := decodes_map_inv ht hdec
  refine ⟨kvs, m0, _, rfl, rfl, hold, fun key => setAll_members hlen (fun i key a x ha hx => ?_) key⟩
  by_cases hs : (∃ u, val = .star u) ∧ a = .null
  · obtain ⟨hu, rfl⟩ := hs
    exact Or.inl ⟨hu, rfl, hnull i key x hu ha hx⟩
  · exact Or.inr ⟨hs, hel i key a x ha hx fun h1 h2 => hs ⟨h1, h2⟩⟩

/-- **C15 for named map types**: nothing but the document's members. -/
theorem C15_named_map {Γ : Env} {n : Nat} {val : TExpr} {v : JV} {old new : GoVal}
    (hd : Γ.decl n = some (.alias (.map val))) (hdec : HasDecoder Γ n) (hk : KeepsErrors Γ (pointee val))
    (h : Fills Γ n v old none new) (hnn : v ≠ .null) :
    ∃ kvs m, v = .obj kvs ∧ new = .map m ∧
      ∀ key, ((∀ kv ∈ kvs, kv.1 ≠ key) ∧ mapGet key m = none) ∨
        ∃ (i : Nat) (a : JV) (x : GoVal), kvs[i]? = some (key, a) ∧
          (∀ (j : Nat) (kv : Str × JV), i < j → kvs[j]? = some kv → kv.1 ≠ key) ∧
          mapGet key m = some x ∧ MapValueOf Γ [] val a x := by
  cases (named_iff hd hdec (old := old) trivial).1 h hk with
  | null => exact absurd rfl hnn
  | @map _ kvs _ news hlen hnull hel =>
    refine ⟨kvs, _, rfl, rfl, fun key => ?_⟩
    refine setAll_members (m0 := []) hlen (fun i key a x ha hx => ?_) key
    by_cases hs : (∃ u, val = .star u) ∧ a = .null
    · obtain ⟨hu, rfl⟩ := hs
      exact Or.inl ⟨hu, rfl, hnull i key x hu ha hx⟩
    · exact Or.inr ⟨hs, hel i key a x ha hx fun h1 h2 => hs ⟨h1, h2⟩⟩
  | fresh hc => exact absurd hc (isCollection_calls rfl _)
  | other h => cases h

/-! ## C16 -/

/-- **C16, partial.**  If a member of the JSON array given for a slice or array field cannot
be decoded to the element type, the decode does not succeed; by the definition of `Decodes`
this reaches to any depth.  Missing: element types that lose errors
(`C16_error_is_swallowed`). -/
theorem C16_bad_element_is_an_error_partial {Γ : Env} {n : Nat} {doc : JV} {l : List JV} {fd : FieldDecl} {elt : TExpr}
    (hn : fd.tags.jsonName ≠ str "-") (hn' : fd.tags.jsonName ≠ [])
    (ht : Is Γ fd.typ (.slice elt) ∨ ∃ len, Is Γ fd.typ (.array len elt)) (hb : elt ≠ .prim .byte) (hk : KeepsErrors Γ fd.typ)
    (hw : doc.get fd.tags.jsonName = some (.arr l)) {i : Nat} {a : JV} (ha : l[i]? = some a)
    (hbad : ∀ c x, ¬ Decodes Γ [] elt a c x) (hnull : ¬ (elt.nullLike = true ∧ a = .null)) (old new : GoVal) :
    ¬ FieldAfter Γ n doc fd old new := by
  rintro ⟨strict, fields, gs, gs', j, hd, hi, ho, hnew, hf⟩
  have hpt : pointee fd.typ = fd.typ := by
    rcases ht with h | ⟨n, h⟩ <;> exact is_pointee h (by simp)
  obtain ⟨old', _, hdec, _⟩ := field_decoded hd hf hi (by rw [hpt]; exact hk) hnew hn (Or.inr ⟨hn', hw⟩) (by simp)
  have hil := (List.getElem?_eq_some_iff.1 ha).1
  rcases ht with ht | ⟨len, ht⟩
  · obtain ⟨l', z, cells, news, h1, rfl, _, hst, hlen, _, hel⟩ := decodes_slice_inv hb ht hdec
    cases h1
    obtain ⟨c, hc⟩ := storage_get hst hil
    exact hbad c _ (hel i a c _ ha hc (List.getElem?_eq_getElem (by rw [hlen]; exact hil)) fun h1 h2 => hnull ⟨h1, h2⟩)
  · obtain ⟨l', z, news, h1, rfl, _, hl', hlen, hel⟩ := decodes_array_inv hb ht hdec
    cases h1
    exact hbad z _ (hel i a _ ha (List.getElem?_eq_getElem (by omega)))

/-! ## C43 -/

theorem calls_no {Γ : Env} {t u : TExpr} {m : Nat} (hc : Calls Γ t m) (h : Is Γ t u) (h1 : ∀ n, u ≠ .named n) (h2 : ∀ n, u ≠ .sel n)
    (h3 : ∀ p, u ≠ .prim p) (h4 : u ≠ .structT) : False := by
  have hf := calls_final hc
  rw [is_resolve h h3 h1 h2] at hf
  cases u <;> simp_all

/-- lists and maps of types with their own decoder lose no errors -/
theorem calls_keeps {Γ : Env} {t elt : TExpr} {m : Nat} (h : HasElem Γ t elt) (hc : Calls Γ (pointee elt) m) : KeepsErrors Γ t := by
  refine keepsErrors_elems h ?_ (keepsErrors_leaf fun elt' h' => ?_)
  · rintro (h' | h' | ⟨v, h'⟩) <;> exact calls_no hc h' (by simp) (by simp) (by simp) (by simp)
  · rcases h' with h' | ⟨n, h'⟩ | h' <;> exact calls_no hc h' (by simp) (by simp) (by simp) (by simp)

/-- **C43, values.**  A field whose type has its own decoder holds what that decoder makes
of the member alone and of the field's previous value. -/
theorem C43_nested_value {Γ : Env} {n m : Nat} {doc w : JV} {fd : FieldDecl} {old new : GoVal}
    (h : FieldAfter Γ n doc fd old new) (hn : fd.tags.jsonName ≠ str "-") (hn' : fd.tags.jsonName ≠ [])
    (hc : Calls Γ fd.typ m) (hw : doc.get fd.tags.jsonName = some w) :
    Fills Γ m w old none new := by
  obtain ⟨strict, fields, gs, gs', i, hd, hi, ho, hnew, hf⟩ := h
  have hpt : pointee fd.typ = fd.typ := by
    generalize fd.typ = t at hc
    cases hc <;> rfl
  have hnl : fd.typ.nullLike = false := by
    generalize fd.typ = t at hc
    cases hc <;> rfl
  have hke : KeepsErrors Γ (pointee fd.typ) := by
    rw [hpt]
    refine keepsErrors_leaf fun elt he => ?_
    have hf := calls_final hc
    rcases he with h | ⟨k, h⟩ | h <;> rw [is_resolve h (by simp) (by simp) (by simp)] at hf <;> simp at hf
  obtain ⟨old', ho', hdec, _⟩ := field_decoded hd hf hi hke hnew hn (Or.inr ⟨hn', hw⟩) (fun h => by rw [hnl] at h; cases h)
  rw [ho] at ho'; cases ho'
  exact decodes_call_inv hc hdec

/-- **C43, pointers.**  A pointer field points to what the decoder of the type makes of the
member alone and of a new value. -/
theorem C43_nested_pointer {Γ : Env} {n m : Nat} {doc w : JV} {fd : FieldDecl} {old new : GoVal} {t : TExpr}
    (h : FieldAfter Γ n doc fd old new) (hn : fd.tags.jsonName ≠ str "-") (hn' : fd.tags.jsonName ≠ [])
    (ht : fd.typ = .star t) (hc : Calls Γ t m) (hw : doc.get fd.tags.jsonName = some w) (hnn : w ≠ .null) :
    ∃ z x y, ZeroIs Γ m z ∧ Fills Γ m w z none x ∧ ConvIs Γ m x y ∧ new = .ptr y := by
  obtain ⟨strict, fields, gs, gs', i, hd, hi, ho, hnew, hf⟩ := h
  have hke : KeepsErrors Γ (pointee fd.typ) := by
    rw [ht]
    refine keepsErrors_leaf fun elt he => ?_
    have hf := calls_final hc
    simp only [pointee] at he
    rcases he with h | ⟨k, h⟩ | h <;> rw [is_resolve h (by simp) (by simp) (by simp)] at hf <;> simp at hf
  obtain ⟨old', ho', hdec, _⟩ := field_decoded hd hf hi hke hnew hn (Or.inr ⟨hn', hw⟩) (fun _ => hnn)
  rw [ht] at hdec
  obtain ⟨y, rfl, hy⟩ := decodes_star_inv hdec
  obtain ⟨z, x, h1, h2, h3⟩ := decodesNew_call_inv hc hy
  exact ⟨z, x, y, h1, h2, h3, rfl⟩

/-- **C43, slices.**  Every element of a slice of such a type is what its decoder makes of
the member alone and of the cell. -/
theorem C43_nested_slice {Γ : Env} {n m : Nat} {doc w : JV} {fd : FieldDecl} {old new : GoVal} {elt : TExpr}
    (h : FieldAfter Γ n doc fd old new) (hn : fd.tags.jsonName ≠ str "-") (hn' : fd.tags.jsonName ≠ [])
    (ht : Is Γ fd.typ (.slice elt)) (hc : Calls Γ elt m)
    (hw : doc.get fd.tags.jsonName = some w) (hnn : w ≠ .null) :
    ∃ l es spare z cells, w = .arr l ∧ new = .slice es spare ∧ es.length = l.length ∧ ZeroOf Γ elt z ∧
      Storage old l.length z cells ∧
      ∀ (i : Nat) (a : JV) (c x : GoVal), l[i]? = some a → cells[i]? = some c → es[i]? = some x → Fills Γ m a c none x := by
  have hb : elt ≠ .prim .byte := by rintro rfl; cases hc
  have hnl : elt.nullLike = false := by cases hc <;> rfl
  have hpe : pointee elt = elt := by cases hc <;> rfl
  have hk : KeepsErrors Γ fd.typ := calls_keeps (Or.inl ht) (by rw [hpe]; exact hc)
  obtain ⟨l, es, spare, z, cells, h1, h2, h3, h4, h5, h6, _⟩ := C12_slice_elements_partial h hn hn' ht hb hk hw hnn
  refine ⟨l, es, spare, z, cells, h1, h2, h3, h4, h5, fun i a c x ha hcc hx => ?_⟩
  rcases h6 i a c x ha hcc hx with ⟨h, _⟩ | h
  · rw [hnl] at h; cases h
  · exact decodes_call_inv hc h

/-- **C43, maps.**  Every entry of a map of such a type, or of pointers to it, is what its decoder
makes of the (last) member alone and of a new value. -/
theorem C43_nested_map {Γ : Env} {n m : Nat} {doc w : JV} {fd : FieldDecl} {old new : GoVal} {val : TExpr}
    (h : FieldAfter Γ n doc fd old new) (hn : fd.tags.jsonName ≠ str "-") (hn' : fd.tags.jsonName ≠ [])
    (ht : Is Γ fd.typ (.map val)) (hc : Calls Γ (pointee val) m)
    (hw : doc.get fd.tags.jsonName = some w) (hnn : w ≠ .null) :
    ∃ kvs em, w = .obj kvs ∧ new = .map em ∧
      ∀ (i : Nat) (key : Str) (a : JV), kvs[i]? = some (key, a) → (∀ (j : Nat) (kv : Str × JV), i < j → kvs[j]? = some kv → kv.1 ≠ key) →
        ¬ ((∃ t, val = .star t) ∧ a = .null) →
        ∃ z x y g, ZeroIs Γ m z ∧ Fills Γ m a z none x ∧ ConvIs Γ m x y ∧ mapGet key em = some g ∧ Holds val g y := by
  obtain ⟨kvs, m0, em, h1, h2, _, h4⟩ := C15_map_field h hn hn' ht (calls_keeps (Or.inr (Or.inr ht)) hc) hw hnn
  refine ⟨kvs, em, h1, h2, fun i key a hi hlast hnull => ?_⟩
  rcases h4 key with ⟨h5, _⟩ | ⟨i', a', x, h5, h6, h7, h8⟩
  · exact absurd rfl (h5 _ (List.mem_of_getElem? hi))
  · have hii : i' = i := by
      rcases Nat.lt_trichotomy i i' with h | h | h
      · exact absurd rfl (hlast i' _ h h5)
      · exact h.symm
      · exact absurd rfl (h6 i _ h hi)
    subst hii
    rw [hi] at h5
    cases h5
    rcases h8 with ⟨h8, h9, _⟩ | ⟨_, h8⟩
    · exact absurd ⟨h8, h9⟩ hnull
    · rw [h7]
      by_cases hs : ∃ t, val = .star t
      · obtain ⟨t, rfl⟩ := hs
        obtain ⟨y, rfl, hy⟩ : ∃ y, x = .ptr y ∧ DecodesNew Γ fd.tags.layout t a y := by
          cases h8 with
          | call hc' => cases hc'
          | other _ h => exact decodes_star_inv (h .nil)
        obtain ⟨z, x, a1, a2, a3⟩ := decodesNew_call_inv hc hy
        exact ⟨z, x, y, _, a1, a2, a3, rfl, rfl⟩
      · have hp : pointee val = val := by cases val <;> first | rfl | exact absurd ⟨_, rfl⟩ hs
        rw [hp] at hc
        obtain ⟨z, y, a1, a2, a3⟩ := decodesNew_call_inv hc h8
        refine ⟨z, y, x, x, a1, a2, a3, rfl, ?_⟩
        cases val <;> first | rfl | exact absurd ⟨_, rfl⟩ hs

end

namespace Examples
open Sample
attribute [local instance] Sample.ext

/-- {"l":[1],"m":{"x":2,"y":3,"x":4},"p":[5,null],"s":[{},{"rev":8}],"q":{"k":null,"j":{"rev":1}}} -/
def bag2Doc : JV := .obj [(str "l", .arr [.num (str "1")]),
  (str "m", .obj [(str "x", .num (str "2")), (str "y", .num (str "3")), (str "x", .num (str "4"))]),
  (str "p", .arr [.num (str "5"), .null]), (str "s", .arr [.obj [], .obj [(str "rev", .num (str "8"))]]),
  (str "q", .obj [(str "k", .null), (str "j", .obj [(str "rev", .num (str "1"))])])]

/-- a bag that was used before -/
def bag2Old : List GoVal := [.slice [.int 9, .int 9] [], .map [(str "old", .int 7), (str "y", .int 1)], .arr [.int 0, .int 0],
  .slice [.ptr (.int 1)] [], .slice [.struct [.int 5]] [.struct [.int 6]], .nil, .nil]
def bag2New : List GoVal := [.slice [.int 1] [.int 9],
  .map [(str "old", .int 7), (str "y", .int 3), (str "x", .int 4)], .arr [.int 0, .int 0],
  .slice [.ptr (.int 5), .nil] [], .slice [.struct [.int 5], .struct [.int 8]] [],
  .map [(str "k", .nil), (str "j", .ptr (.struct [.int 1]))], .nil]

set_option maxRecDepth 200000 in
theorem bag2_fills : Fills Γ 23 bag2Doc (.struct bag2Old) none (.struct bag2New) := ⟨5, rfl⟩

theorem bag2_field {i : Nat} {fd : FieldDecl} {old new : GoVal} (h : bag[i]? = some fd)
    (ho : bag2Old[i]? = some old) (hn : bag2New[i]? = some new) : FieldAfter Γ 23 bag2Doc fd old new :=
  ⟨false, bag, _, _, i, rfl, h, ho, hn, bag2_fills⟩

theorem ptrInt_noLoss : ¬ LosesErrors Γ (.star (.prim .int8)) := by
  rintro (h | h | ⟨v, h⟩) <;> cases h

theorem base_noLoss : ¬ LosesErrors Γ (.named 2) := by
  rintro (h | h | ⟨v, h⟩) <;> (cases h with | named h => cases h)

theorem int_keeps : KeepsErrors Γ (pointee (.star (.prim .int8))) := keepsErrors_prim (.self _)

theorem base_keeps : KeepsErrors Γ (.named 2) := by
  refine keepsErrors_leaf fun elt h => ?_
  rcases h with h | ⟨n, h⟩ | h <;> (cases h with | named h => cases h)

/-- hypotheses of `C10_slice_mirrors_array_partial`, with a pointer element type, and of
`C10_slice_of_scalars`; both slices were used before -/
example : FieldAfter Γ 23 bag2Doc ⟨.slice (.star (.prim .int8)), tag "p"⟩ (.slice [.ptr (.int 1)] []) (.slice [.ptr (.int 5), .nil] []) ∧
    Is Γ (.slice (.star (.prim .int8))) (.slice (.star (.prim .int8))) ∧ Overwritten Γ (.star (.prim .int8)) ∧
    ¬ LosesErrors Γ (.star (.prim .int8)) ∧ KeepsErrors Γ (pointee (.star (.prim .int8))) ∧
    bag2Doc.get (str "p") = some (.arr [.num (str "5"), .null]) :=
  ⟨bag2_field (i := 3) rfl rfl rfl, .self _, .ptr _, ptrInt_noLoss, int_keeps, rfl⟩
example : FieldAfter Γ 23 bag2Doc ⟨.slice (.prim .int8), tag "l"⟩ (.slice [.int 9, .int 9] []) (.slice [.int 1] [.int 9]) ∧
    PrimName Γ (.prim .int8) .int8 := ⟨bag2_field (i := 0) rfl rfl rfl, .base (.self _)⟩

/-- `C10_slice_accepts` on {"l":[1,2]} -/
example : ∃ spare, Fills Γ 30 (.obj [(str "l", .arr [.num (str "1"), .num (str "2")])]) (.struct [.slice [.int 9] []]) none
    (.struct [.slice [.int 1, .int 2] spare]) := by
  refine C10_slice_accepts (Γ := Γ) (m := 30) (fd := ⟨.slice (.prim .int8), tag "l"⟩) (elt := .prim .int8) (z := .int 0)
    (l := [.num (str "1"), .num (str "2")])
    rfl ⟨_, 3, _, rfl, rfl⟩ (by decide) (by decide) (.self _) (by decide) (.prim (.base (.self _))) ⟨0, rfl⟩
    ⟨_, rfl, by decide, by simp⟩ rfl (Or.inr ⟨_, _, rfl⟩) rfl ?_
  intro i a x ha hx
  have key : ∀ (raw : Str) (z : Int), parseInt raw = some z → -128 ≤ z → z ≤ 127 →
      ElementOf Γ (.prim .int8) (.num raw) (.int z) := by
    intro raw z h1 h3 h4
    refine Or.inr ⟨by simp, .other (fun n hc => by cases hc) fun _ => .prim (.base (.self _)) (.signed rfl (parseInt_iff.1 h1) (by omega) (by omega) ?_)⟩
    exact ⟨h3, h4, 0, by simp⟩
  match i with
  | 0 => simp at ha hx; subst ha hx; exact key _ _ rfl (by decide) (by decide)
  | 1 => simp at ha hx; subst ha hx; exact key _ _ rfl (by decide) (by decide)
  | i + 2 => simp at ha

set_option maxRecDepth 200000 in
/-- `C10_named_slice_partial`: type Ints []int16 -/
example : Γ.decl 24 = some (.alias (.slice (.prim .int16))) ∧ HasDecoder Γ 24 ∧ KeepsErrors Γ (pointee (.prim .int16)) ∧
    Fills Γ 24 (.arr [.num (str "7"), .num (str "3")]) (.slice [.int 1, .int 2, .int 3] []) none (.slice [.int 7, .int 3] []) :=
  ⟨rfl, ⟨_, 3, _, rfl, rfl⟩, keepsErrors_prim (.self _), ⟨3, rfl⟩⟩

/-- hypotheses of `C12_slice_elements_partial` and `C43_nested_slice` -/
example : FieldAfter Γ 23 bag2Doc ⟨.slice (.named 2), tag "s"⟩ (.slice [.struct [.int 5]] [.struct [.int 6]])
      (.slice [.struct [.int 5], .struct [.int 8]] []) ∧ Calls Γ (.named 2) 2 ∧ KeepsErrors Γ (.slice (.named 2)) :=
  ⟨bag2_field (i := 4) rfl rfl rfl, .struct rfl, keepsErrors_elems (Or.inl (.self _)) base_noLoss base_keeps⟩
/-- … and of `C43_nested_map` -/
example : FieldAfter Γ 23 bag2Doc ⟨.map (.star (.named 2)), tag "q"⟩ .nil (.map [(str "k", .nil), (str "j", .ptr (.struct [.int 1]))]) ∧
    Calls Γ (pointee (.star (.named 2))) 2 := ⟨bag2_field (i := 5) rfl rfl rfl, .struct rfl⟩

set_option maxRecDepth 200000 in
/-- **C12 does not hold in full**: decoding {"s":[{}]} into a slice that held an element
with Rev 5 leaves Rev 5 in the new element, while decoding it into an empty slice gives 0. -/
theorem C12_stale_field_survives :
    Fills Γ 23 (.obj [(str "s", .arr [.obj []])]) (.struct [.nil, .nil, .arr [.int 0, .int 0], .nil, .slice [.struct [.int 5]] [], .nil, .nil]) none
      (.struct [.nil, .nil, .arr [.int 0, .int 0], .nil, .slice [.struct [.int 5]] [], .nil, .nil]) ∧
    Fills Γ 23 (.obj [(str "s", .arr [.obj []])]) (.struct [.nil, .nil, .arr [.int 0, .int 0], .nil, .slice [] [.struct [.int 5]], .nil, .nil]) none
      (.struct [.nil, .nil, .arr [.int 0, .int 0], .nil, .slice [.struct [.int 5]] [], .nil, .nil]) ∧
    Fills Γ 23 (.obj [(str "s", .arr [.obj []])]) bagZero none
      (.struct [.nil, .nil, .arr [.int 0, .int 0], .nil, .slice [.struct [.int 0]] [], .nil, .nil]) :=
  ⟨⟨5, rfl⟩, ⟨5, rfl⟩, ⟨5, rfl⟩⟩

set_option maxRecDepth 200000 in
/-- `C14_array_field_iff` applies to struct { F [2]int8 `json:"f"` }, and one length is accepted … -/
example : Fills Γ 34 (.obj [(str "f", .arr [.num (str "1"), .num (str "2")])]) (.struct [.arr [.int 9, .int 9]]) none
    (.struct [.arr [.int 1, .int 2]]) := ⟨3, rfl⟩
/-- … and another is not -/
example (old new : GoVal) : ¬ Fills Γ 34 (.obj [(str "f", .arr [.num (str "1")])]) (.struct [old]) none (.struct [new]) := by
  rw [C14_array_field_iff (Γ := Γ) (m := 34) (fd := ⟨.array 2 (.prim .int8), tag "f"⟩) (l := [.num (str "1")]) rfl ⟨_, 3, _, rfl, rfl⟩ (by decide)
    (by decide) (.self _) (by decide) (primName_noLoss (.base (.self _))) (keepsErrors_prim (.self _)) ⟨0, rfl⟩
    ⟨_, rfl, by decide, by simp⟩ rfl]
  rintro ⟨h, _⟩
  cases h
/-- `C14_named_array_iff`: type Pair [2]int16 -/
example (new : GoVal) : ¬ Fills Γ 25 (.arr [.num (str "1")]) (.arr [.int 0, .int 0]) none new := by
  rw [C14_named_array_iff (len := 2) (elt := .prim .int16) rfl ⟨_, 3, _, rfl, rfl⟩ (by decide) (keepsErrors_prim (.self _)) rfl]
  rintro ⟨h, _⟩
  cases h

/-- hypotheses of `C15_map_field`: a map that had entries before, a repeated key, and null -/
example : FieldAfter Γ 23 bag2Doc ⟨.map (.prim .int8), tag "m"⟩ (.map [(str "old", .int 7), (str "y", .int 1)])
    (.map [(str "old", .int 7), (str "y", .int 3), (str "x", .int 4)]) := bag2_field (i := 1) rfl rfl rfl
example : FieldAfter Γ 23 bag2Doc ⟨.map (.star (.named 2)), tag "q"⟩ .nil (.map [(str "k", .nil), (str "j", .ptr (.struct [.int 1]))]) :=
  bag2_field (i := 5) rfl rfl rfl
set_option maxRecDepth 200000 in
/-- hypotheses of `C15_named_map`: type Dict map[string]*Base -/
example : Γ.decl 26 = some (.alias (.map (.star (.named 2)))) ∧ HasDecoder Γ 26 ∧ KeepsErrors Γ (pointee (.star (.named 2))) ∧
    Fills Γ 26 (.obj [(str "k", .null), (str "j", .obj [(str "rev", .num (str "1"))])]) (.map [(str "old", .nil)]) none
      (.map [(str "k", .nil), (str "j", .ptr (.struct [.int 1]))]) :=
  ⟨rfl, ⟨_, 3, _, rfl, rfl⟩, base_keeps, ⟨5, rfl⟩⟩

/-- `C16_bad_element_is_an_error_partial` on {"l":[1,"x"]} -/
example (old new : GoVal) : ¬ FieldAfter Γ 30 (.obj [(str "l", .arr [.num (str "1"), .str (str "x")])]) ⟨.slice (.prim .int8), tag "l"⟩ old new := by
  refine C16_bad_element_is_an_error_partial (elt := .prim .int8) (i := 1) (by decide) (by decide) (Or.inl (.self _)) (by decide)
    (keepsErrors_elems (Or.inl (.self _)) (primName_noLoss (.base (.self _))) (keepsErrors_prim (.self _))) rfl rfl ?_ (by simp) old new
  intro c x h
  have := decodes_prim_inv (.base (.self _)) h
  cases this <;> simp_all [Prim.isSigned, Prim.isUnsigned]

set_option maxRecDepth 200000 in
/-- **C16 does not hold in full**: decoding {"times":["T1","bad","T2"]} into a field of type
[]time.Time reports no error, although "bad" is not a time; the slice has a zero time for it
and ends there. -/
theorem C16_error_is_swallowed :
    Fills Γ 28 (.obj [(str "times", .arr [.str (str "T1"), .str (str "bad"), .str (str "T2")])]) (.struct [.nil]) none
      (.struct [.slice [.time ⟨1, 0⟩, .time ⟨0, 0⟩] [.time ⟨0, 0⟩]]) ∧
    (∀ layout, Ext.parseTime layout (str "bad") = none) := ⟨⟨5, rfl⟩, fun _ => rfl⟩

set_option maxRecDepth 200000 in
/-- hypotheses of `C43_nested_value`: the field `owner` of Doc -/
example : FieldAfter Γ 3 (.obj [(str "rev", .num (str "4")), (str "owner", ann), (str "when", .str (str "T9"))]) ⟨.named 0, tag "owner"⟩ used annDecoded ∧
    Calls Γ (.named 0) 0 :=
  ⟨⟨false, doc, [.struct [.int 0], used, .time ⟨0, 0⟩], [.struct [.int 4], annDecoded, .time ⟨9, 0⟩], 1, rfl, rfl, rfl, rfl, ⟨6, rfl⟩⟩, .struct rfl⟩

set_option maxRecDepth 200000 in
/-- hypotheses of `C43_nested_pointer` -/
example : FieldAfter Γ 35 (.obj [(str "b", .obj [(str "rev", .num (str "6"))])]) ⟨.star (.named 2), tag "b"⟩ (.ptr (.struct [.int 1]))
    (.ptr (.struct [.int 6])) ∧ Calls Γ (.named 2) 2 :=
  ⟨⟨false, [⟨.star (.named 2), tag "b"⟩], [.ptr (.struct [.int 1])], [.ptr (.struct [.int 6])], 0, rfl, rfl, rfl, rfl, ⟨5, rfl⟩⟩, .struct rfl⟩

end Examples
end VJ
