import Verif.Proof.Order
import Verif.Props.EncodeTotal
import Mathlib.Tactic.ByContra

/-!
# C26: the order in which a map is iterated does not matter

`Shuffled v v'` (`Spec/Order.lean`): the same value, its maps iterated in another order.
`SameDoc`: documents that differ in the order of object members only.
-/

namespace VJ
set_option linter.unusedSectionVars false

section
variable [Ext] {Γ : Env} {X : Nat → GoVal → Prop} {S : Nat → Prop} {F : Nat → Option GoVal → JV → Prop}

/-- **Whatever order the maps in a value are iterated in, at any depth, the texts written denote
the same document up to the order of members.** For the values of C21 (`Fine`): for the others
what is written need not be JSON. -/
theorem C26_same_document_partial (hP : EncPackage Γ F S) (hB : OrderBlind Γ X F) (hF : ∀ n r a b, F n r a → F n r b → a = b) {n : Nat}
    (hn : S n) {v v' : GoVal} (hs : Shuffled v v') (hv : HasType Γ X (.named n) v) (hf : Fine Γ F (.named n) v) {s s' : Str}
    (h : Marshals Γ n (some v) (.ok s)) (h' : Marshals Γ n (some v') (.ok s')) :
    ∃ jv jv', Json jv s ∧ Json jv' s' ∧ SameDoc jv jv' := by
  obtain ⟨jv, h1, h2⟩ := encode_document hP hn hv hf h
  obtain ⟨jv', h3, h4⟩ := encode_document hP hn (hasType_shuffled hB hv v' hs) (fine_shuffled hB hs hf) h'
  obtain ⟨jv2, h5, h6⟩ := enc_shuffled hB h1 v' hs
  cases enc_unique hF h3 h5
  exact ⟨jv, jv', h2, h4, h6⟩

/-- **In every order the encoding succeeds.** -/
theorem C26_every_order_partial (hP : EncoderSet Γ X S) (hW : ForeignFine Γ X S) (hB : OrderBlind Γ X F) {n : Nat} (hn : S n) {v v' : GoVal}
    (hs : Shuffled v v') (hv : HasType Γ X (.named n) v) (hu : NoNilUUID Γ (.named n) v) (ht : TimesOK Γ (.named n) v) :
    ∃ s', Marshals Γ n (some v') (.ok s') := by
  refine C46_encode_succeeds_partial hP hW hn (hasType_shuffled hB hv v' hs) (fun h => ?_) (fun e m tm h he hd => ?_)
  · obtain ⟨w, h1, h2⟩ := written_shuffled hB hs h
    cases h2
    exact hu h1
  · obtain ⟨w, h1, h2⟩ := written_shuffled hB hs h
    cases h2
    exact ht e m tm h1 he hd

/-- **If it succeeds in one order, it succeeds in every order.** -/
theorem C26_every_order (hP : EncoderSet Γ X S) (hW : ForeignFine Γ X S) (hB : OrderBlind Γ X F) {n : Nat} (hn : S n) {v v' : GoVal}
    (hs : Shuffled v v') (hv : HasType Γ X (.named n) v) (ht : TimesOK Γ (.named n) v) {s : Str} (h : Marshals Γ n (some v) (.ok s)) :
    ∃ s', Marshals Γ n (some v') (.ok s') :=
  C26_every_order_partial hP hW hB hn hs hv ((C46_succeeds_exactly hP hW hn hv ht).1 ⟨s, h⟩) ht

/-- `SameDoc` read: equal up to order means the same keys, as often -/
theorem C26_same_keys {a b : List (Str × JV)} (h : SameDoc (.obj a) (.obj b)) : (a.map (·.1)).Perm (b.map (·.1)) := by
  obtain ⟨mid, kvs', he, h1, h2⟩ := h.of_obj
  cases he
  rw [← show mid.map (·.1) = a.map (·.1) from pw_keys h1]
  exact h2.map _

/-- … and under each key that is there once, the same document -/
theorem C26_same_values {a b : List (Str × JV)} (h : SameDoc (.obj a) (.obj b)) (hn : (a.map (·.1)).Nodup) {key : Str} {x y : JV}
    (hx : (key, x) ∈ a) (hy : (key, y) ∈ b) : SameDoc x y := by
  obtain ⟨mid, kvs', he, h1, h2⟩ := h.of_obj
  cases he
  obtain ⟨i, hi, hxi⟩ := List.getElem_of_mem hx
  obtain ⟨j, hj, hyj⟩ := List.getElem_of_mem (h2.mem_iff.2 hy)
  have hj' := hj
  rw [h1.1] at hj'
  have hij := h1.2 j _ _ (List.getElem?_eq_getElem hj') (List.getElem?_eq_getElem hj)
  rw [hyj] at hij
  have : i = j := by
    by_contra hne
    have hp := List.pairwise_iff_getElem.1 hn
    have hk : (a[i]).1 = (a[j]).1 := by rw [hxi]; exact hij.1.symm
    rcases Nat.lt_or_gt_of_ne hne with h | h
    · exact hp i j (by simpa using hi) (by simpa using hj') h (by simpa using hk)
    · exact hp j i (by simpa using hj') (by simpa using hi) h (by simpa using hk.symm)
  subst this
  rw [hxi] at hij
  exact hij.2

/-- **Each entry of a map becomes one member, in the order of the iteration, and no key is written
twice**; a type declared as a map. -/
theorem C26_each_once_partial (hP : EncPackage Γ F S) {n : Nat} (hn : S n) {e : TExpr} (hd : Γ.decl n = some (.alias (.map e)))
    {kvs : List (Str × GoVal)} (hv : HasType Γ X (.named n) (.map kvs)) (hf : Fine Γ F (.named n) (.map kvs)) {s : Str}
    (h : Marshals Γ n (some (.map kvs)) (.ok s)) :
    ∃ ms, Json (.obj ms) s ∧ ms.map (·.1) = kvs.map (·.1) ∧ (ms.map (·.1)).Nodup ∧
      ∀ (i : Nat) (kv : Str × GoVal) (m : Str × JV), kvs[i]? = some kv → ms[i]? = some m → Enc Γ F (.elem true e) kv.2 m.2 := by
  obtain ⟨jv, h1, h2⟩ := encode_document hP hn hv hf h
  have h3 := enc_declRes h1
  unfold DeclRes at h3
  rw [hd] at h3
  rcases h3 with ⟨h3, _⟩ | ⟨kvs', docs, he, hl, h3, rfl⟩
  · cases h3
  · cases he
    have hk : ((kvs.map (·.1)).zip docs).map (·.1) = kvs.map (·.1) := by rw [List.map_fst_zip]; simp [hl]
    refine ⟨_, h2, hk, ?_, ?_⟩
    · rw [hk]
      have := hv.of_alias (.named n) hd
      rcases this.map_cases with h | ⟨kvs', he, hn', _⟩
      · cases h
      · cases he; exact hn'
    · intro i kv m hkv hm
      simp only [List.zip, List.getElem?_zipWith_eq_some] at hm
      obtain ⟨_, d, _, hd', rfl⟩ := hm
      exact h3 i kv d hkv hd'

/-- the same for a struct field that is a map: its one member is the object with the entries -/
theorem C26_map_field_partial (hP : EncPackage Γ F S) {n : Nat} (hn : S n) {strict : Bool} {fields : List FieldDecl}
    (hd : Γ.decl n = some (.struct strict fields)) {gs : List GoVal} (hv : HasType Γ X (.named n) (.struct gs))
    (hf : Fine Γ F (.named n) (.struct gs)) {s : Str} (h : Marshals Γ n (some (.struct gs)) (.ok s)) {i : Nat} {fd : FieldDecl} {e : TExpr}
    {kvs : List (Str × GoVal)} (hfd : fields[i]? = some fd) (ht : Is Γ fd.typ (.map e)) (hg : gs[i]? = some (.map kvs)) :
    ∃ doc ms, Json (.obj doc) s ∧ (fd.tags.jsonName, .obj ms) ∈ doc ∧ ms.map (·.1) = kvs.map (·.1) ∧ (ms.map (·.1)).Nodup := by
  obtain ⟨jv, h1, h2⟩ := encode_document hP hn hv hf h
  have h3 := enc_declRes h1
  unfold DeclRes at h3
  rw [hd] at h3
  obtain ⟨gs', ms, he, rfl, hl, hm, h4⟩ := h3
  cases he
  have hi := (List.getElem?_eq_some_iff.1 hfd).1
  have hmi := List.getElem?_eq_getElem (l := ms) (i := i) (by omega)
  have h5 := h4 i fd _ _ hfd hg hmi
  have hty : HasType Γ X fd.typ (.map kvs) := by
    cases hv with
    | struct he hd' _ h => cases he; rw [hd] at hd'; cases hd'; exact h i fd _ hfd hg
    | «alias» he hd' => cases he; rw [hd] at hd'; cases hd'
    | foreign he hd' => cases he; rw [hd] at hd'; cases hd'
  have hnd : (kvs.map (·.1)).Nodup := by
    rcases (hty.of_is ht).map_cases with h | ⟨kvs', he, hn', _⟩
    · cases h
    · cases he; exact hn'
  generalize ms[i] = m at h5 hmi
  have hmem : ∀ x ∈ m, x ∈ ms.flatten := fun x hx => List.mem_flatten.2 ⟨m, List.mem_of_getElem? hmi, hx⟩
  obtain ⟨k, hk, hr⟩ := enc_cases h5
  cases fieldKind_unique hk (.map ht)
  rcases hr with ⟨⟨k', hk', he', _⟩, _⟩ | ⟨_, ⟨he', _⟩ | ⟨kvs', docs, he, hl', _, h6⟩⟩
  · cases fieldKind_unique hk' (.map ht)
    cases he'
  · cases he'
  · cases he
    cases h6
    have hkeys : ((kvs.map (·.1)).zip docs).map (·.1) = kvs.map (·.1) := by rw [List.map_fst_zip]; simp [hl']
    exact ⟨_, _, h2, hmem _ (by simp), hkeys, by rw [hkeys]; exact hnd⟩

end

namespace Examples
open Sample
attribute [local instance] Sample.ext

theorem noDoc_blind : OrderBlind Γ NoForeign noDoc where
  typed _ _ _ _ _ h := h
  isZero _ _ _ _ _ := rfl
  docs _ _ _ _ _ _ h := h.elim

/-- `{M: map[string]int8}` with two entries, in both orders -/
def oneWay : GoVal := .struct [.map [(str "a", .int 1), (str "b", .int 2)]]
def otherWay : GoVal := .struct [.map [(str "b", .int 2), (str "a", .int 1)]]

theorem ways_shuffled : Shuffled oneWay otherWay :=
  .struct rfl fun i x y hx hy => by
    match i with
    | 0 =>
      cases hx; cases hy
      exact .map (mid := [(str "a", .int 1), (str "b", .int 2)]) rfl (fun i a b ha hb => by rw [ha] at hb; cases hb; exact .refl _) (.swap _ _ _)
    | i + 1 => cases hx

theorem oneWay_typed : HasType Γ NoForeign (.named 31) oneWay :=
  typed_struct rfl (.cons (.map (by decide) (by
    intro kv hkv
    simp at hkv
    rcases hkv with rfl | rfl <;> exact .prim (.int rfl (by simp [Prim.inRange])))) .nil)

theorem oneWay_parts {t : TExpr} {v : GoVal} (h : Part Γ (.named 31) oneWay t v) :
    (t, v) ∈ [(.named 31, oneWay), (.map (.prim .int8), .map [(str "a", .int 1), (str "b", .int 2)]), (.prim .int8, .int 1), (.prim .int8, .int 2)] := by
  induction h with
  | self => simp
  | ptr _ ih => simp [oneWay] at ih
  | slice _ _ ih => simp [oneWay] at ih
  | array _ _ ih => simp [oneWay] at ih
  | map _ hv ih =>
    simp [oneWay] at ih
    obtain ⟨rfl, rfl⟩ := ih
    simp at hv
    rcases hv with rfl | rfl <;> simp
  | «alias» _ he hd ih =>
    cases he <;> simp [oneWay] at ih
    obtain ⟨rfl, _⟩ := ih
    cases hd
  | @field e n i strict fields fd gs g _ he hd hf hg ih =>
    cases he <;> simp [oneWay] at ih
    obtain ⟨rfl, rfl⟩ := ih
    cases hd
    match i with
    | 0 => cases hf; cases hg; simp
    | i + 1 => cases hg

theorem oneWay_fine : Fine Γ noDoc (.named 31) oneWay where
  floats p f h := by simpa [oneWay] using oneWay_parts h.toPart
  commas e n strict fields gs h he hd := by
    have := oneWay_parts h.toPart
    cases he <;> simp [oneWay] at this
    obtain ⟨rfl, rfl⟩ := this
    cases hd
    intro i j fd fd' g g' hij hf hg hf' hg'
    match i, j with
    | _, j + 1 => cases hg'
    | i, 0 => omega
  splices e n strict fields gs h he hd := by
    have := oneWay_parts h.toPart
    cases he <;> simp [oneWay] at this
    obtain ⟨rfl, rfl⟩ := this
    cases hd
    intro i n fd g jv hf hg hj
    match i with
    | 0 => cases hf; cases hj
    | i + 1 => cases hg

theorem oneWay_text : Marshals Γ 31 (some oneWay) (.ok (str "{\"m\":{\"a\":1,\"b\":2}}")) := ⟨5, rfl⟩
theorem otherWay_text : Marshals Γ 31 (some otherWay) (.ok (str "{\"m\":{\"b\":2,\"a\":1}}")) := ⟨5, rfl⟩

/-- both orders: different texts, the same document up to order -/
theorem C26_both_orders : ∃ jv jv', Json jv (str "{\"m\":{\"a\":1,\"b\":2}}") ∧ Json jv' (str "{\"m\":{\"b\":2,\"a\":1}}") ∧ SameDoc jv jv' :=
  C26_same_document_partial enc_package noDoc_blind noDoc_unique (by decide) ways_shuffled oneWay_typed oneWay_fine oneWay_text otherWay_text

/-- the other order is encoded too -/
example : ∃ s', Marshals Γ 31 (some otherWay) (.ok s') :=
  C26_every_order_partial (F := noDoc) full_set full_fine noDoc_blind (by decide) ways_shuffled oneWay_typed
    (fun h => by simpa [oneWay] using oneWay_parts h.toPart) (times_ok _ _)

example : ∃ s', Marshals Γ 31 (some otherWay) (.ok s') :=
  C26_every_order (F := noDoc) full_set full_fine noDoc_blind (by decide) ways_shuffled oneWay_typed (times_ok _ _) oneWay_text

/-- each entry once -/
example : ∃ doc ms, Json (.obj doc) (str "{\"m\":{\"a\":1,\"b\":2}}") ∧ (str "m", .obj ms) ∈ doc ∧ ms.map (·.1) = [str "a", str "b"] ∧
    (ms.map (·.1)).Nodup :=
  C26_map_field_partial enc_package (by decide) (i := 0) rfl oneWay_typed oneWay_fine oneWay_text rfl (.self _) rfl

/-- documents with other members are not the same -/
example : ¬ SameDoc (.obj [(str "a", .null)]) (.obj [(str "b", .null)]) := fun h => by
  have := (C26_same_keys h).mem_iff (a := str "a")
  revert this
  decide

end Examples
end VJ
