import Verif.Proof.Plain
import Verif.Props.Trim
import Verif.Props.RoundTripSamples

/-!
# C49: types whose every value survives

`Spec/Plain.lean` says which types these are, by conditions on the declarations alone.  `EncPackage`
asks of the declarations that names in tags need no escaping.
-/

namespace VJ

section
variable [Ext] {Γ : Env} {S : Nat → Prop} {F : Nat → Option GoVal → JV → Prop} {X : Nat → GoVal → Prop}

theorem unmarshals_unique {n : Nat} {data : Str} {old s1 s2 : GoVal} {e1 e2 : Option Err} (h1 : Unmarshals Γ n data old e1 s1)
    (h2 : Unmarshals Γ n data old e2 s2) : e1 = e2 ∧ s1 = s2 := by
  obtain ⟨k1, h1⟩ := h1
  obtain ⟨k2, h2⟩ := h2
  simp only [unmarshalJSON] at h1 h2
  cases hp : parseBytes data with
  | none => rw [hp] at h1 h2; rw [h1] at h2; cases h2; exact ⟨rfl, rfl⟩
  | some jv => rw [hp] at h1 h2; exact fills_unique ⟨k1, h1⟩ ⟨k2, h2⟩

/-- Values of plain types whose floats and times are kept. -/
theorem kept_every_value {K : Kinds} (hE : EncPackage Γ F S) (hP : PlainPackageOf K Γ S) (hz : Ext.parseFloat (str "0") = some 0) {n : Nat} (hn : S n)
    {v : GoVal} (hv : HasType Γ X (.named n) v) (hK : KeptParts Γ (.named n) v) :
    ∃ s jv, Marshals Γ n (some v) (.ok s) ∧ Json jv s ∧
      (DepthLe 300 jv → ∀ z, ZeroIs Γ n z → ∀ e v', Unmarshals Γ n s z e v' ↔ e = none ∧ v' = v.trim) := by
  obtain ⟨s, jv, h1, h2, h3⟩ := C46_document_partial (plain_toEncoderSet hE hP) hE (plain_toForeignFine hE hP) hn hv
    (plain_fine_of hE hP hn hv hK) (plain_noNilUUID_of hE hP hn hv) (plain_timesOK_of hE hP hn hv hK)
  refine ⟨s, jv, h1, h3, fun hdep z hzero e v' => ?_⟩
  exact C31_round_trip_exact_partial (plain_toPackage hE hP) hE (plain_toTripPackage hE hP hz) hn hv (plain_fine_of hE hP hn hv hK)
    (plain_lossless_of hE hP hn hv hK) h1 (fun jv' h' => by rwa [json_unique h' h3]) hzero

theorem kept_injective {K : Kinds} (hE : EncPackage Γ F S) (hP : PlainPackageOf K Γ S) (hz : Ext.parseFloat (str "0") = some 0) {n : Nat} (hn : S n)
    {v v' : GoVal} (hv : HasType Γ X (.named n) v) (hv' : HasType Γ X (.named n) v') (hK : KeptParts Γ (.named n) v) (hK' : KeptParts Γ (.named n) v')
    {s : Str} (h : Marshals Γ n (some v) (.ok s))
    (h' : Marshals Γ n (some v') (.ok s)) (hdep : ∀ jv, Json jv s → DepthLe 300 jv) : SameVisible v v' := by
  obtain ⟨k, z, hzk, _⟩ := ((plain_toPackage hE hP (X := X)).zero hn (.named n)).ok
  have hzero : ZeroIs Γ n z := ⟨k, hzk⟩
  have key : ∀ {u}, HasType Γ X (.named n) u → KeptParts Γ (.named n) u → Marshals Γ n (some u) (.ok s) → Unmarshals Γ n s z none u.trim :=
    fun hu hk h => C31_round_trip_partial (plain_toPackage hE hP) hE (plain_toTripPackage hE hP hz) hn hu (plain_fine_of hE hP hn hu hk)
      (plain_lossless_of hE hP hn hu hk) h hdep hzero
  exact (unmarshals_unique (key hv hK h) (key hv' hK' h')).2

theorem kept_same_text {K : Kinds} (hE : EncPackage Γ F S) (hP : PlainPackageOf K Γ S) (hz : Ext.parseFloat (str "0") = some 0) (hΓ : SpareBlind Γ)
    {n : Nat} (hn : S n) {v : GoVal} (hv : HasType Γ X (.named n) v) (hK : KeptParts Γ (.named n) v) {s : Str} (h : Marshals Γ n (some v) (.ok s))
    (hdep : ∀ jv, Json jv s → DepthLe 300 jv) {z : GoVal} (hzero : ZeroIs Γ n z) {e : Option Err} {v' : GoVal}
    (hu : Unmarshals Γ n s z e v') : e = none ∧ Marshals Γ n (some v') (.ok s) := by
  obtain ⟨rfl, rfl⟩ := (C31_round_trip_exact_partial (plain_toPackage hE hP) hE (plain_toTripPackage hE hP hz) hn hv (plain_fine_of hE hP hn hv hK)
    (plain_lossless_of hE hP hn hv hK) h hdep hzero).1 hu
  exact ⟨rfl, (C50_text hΓ (sameVisible_trim v)).1 h⟩

/-- **Every value of a plain type is encoded without error, as valid JSON, and read back unchanged** into a new variable
(unless it is nested more than 300 deep, which the parser refuses). -/
theorem C49_every_value (hE : EncPackage Γ F S) (hP : PlainPackage Γ S) (hz : Ext.parseFloat (str "0") = some 0) {n : Nat} (hn : S n)
    {v : GoVal} (hv : HasType Γ X (.named n) v) :
    ∃ s jv, Marshals Γ n (some v) (.ok s) ∧ Json jv s ∧
      (DepthLe 300 jv → ∀ z, ZeroIs Γ n z → ∀ e v', Unmarshals Γ n s z e v' ↔ e = none ∧ v' = v.trim) :=
  kept_every_value hE hP hz hn hv (plain_kept hE hP hn hv)

/-- **Two different values never have the same text.** -/
theorem C49_injective (hE : EncPackage Γ F S) (hP : PlainPackage Γ S) (hz : Ext.parseFloat (str "0") = some 0) {n : Nat} (hn : S n)
    {v v' : GoVal} (hv : HasType Γ X (.named n) v) (hv' : HasType Γ X (.named n) v') {s : Str} (h : Marshals Γ n (some v) (.ok s))
    (h' : Marshals Γ n (some v') (.ok s)) (hdep : ∀ jv, Json jv s → DepthLe 300 jv) : SameVisible v v' :=
  kept_injective hE hP hz hn hv hv' (plain_kept hE hP hn hv) (plain_kept hE hP hn hv') h h' hdep

/-- **What is read back is written as the same text again.** -/
theorem C49_same_text (hE : EncPackage Γ F S) (hP : PlainPackage Γ S) (hz : Ext.parseFloat (str "0") = some 0) (hΓ : SpareBlind Γ)
    {n : Nat} (hn : S n) {v : GoVal} (hv : HasType Γ X (.named n) v) {s : Str} (h : Marshals Γ n (some v) (.ok s))
    (hdep : ∀ jv, Json jv s → DepthLe 300 jv) {z : GoVal} (hzero : ZeroIs Γ n z) {e : Option Err} {v' : GoVal}
    (hu : Unmarshals Γ n s z e v') : e = none ∧ Marshals Γ n (some v') (.ok s) :=
  kept_same_text hE hP hz hΓ hn hv (plain_kept hE hP hn hv) h hdep hzero hu

/-- **Whatever was decoded — from any text, with or without error, into any old value — can be encoded** and survives. -/
theorem C49_decoded (hE : EncPackage Γ F S) (hP : PlainPackage Γ S) (hz : Ext.parseFloat (str "0") = some 0) {n : Nat} (hn : S n)
    {data : Str} {old v : GoVal} {e : Option Err} (hold : HasType Γ X (.named n) old) (hd : Unmarshals Γ n data old e v) :
    ∃ s jv, Marshals Γ n (some v) (.ok s) ∧ Json jv s ∧
      (DepthLe 300 jv → ∀ z, ZeroIs Γ n z → ∀ e v', Unmarshals Γ n s z e v' ↔ e = none ∧ v' = v.trim) := by
  obtain ⟨e', new, h1, h2⟩ := C20_unmarshal_returns_partial (plain_toPackage hE hP) (plain_toNoFixedBytes hE hP) hn data hold
  obtain ⟨_, rfl⟩ := unmarshals_unique h1 hd
  exact C49_every_value hE hP hz hn h2

end

/-- a test for `Solid` -/
def solidb (K : Kinds) (Γ : Env) : Nat → TExpr → Bool
  | _, .prim p => K.floats || p ≠ .float32 ∧ p ≠ .float64
  | _, .uuid => true
  | _, .time => K.times
  | k + 1, .named n => match Γ.decl n with
    | some (.struct _ _) => true
    | some (.alias u) => solidb K Γ k u
    | none => false
  | _, _ => false

theorem solidb_iff {K : Kinds} {Γ : Env} : ∀ {k : Nat} {t : TExpr}, solidb K Γ k t = true → Solid K Γ t
  | k, .prim p, h => by
    have h : K.floats = true ∨ p ≠ .float32 ∧ p ≠ .float64 := by cases k <;> simpa [solidb] using h
    exact h.elim .float .prim
  | k, .uuid, _ => .uuid
  | k, .time, h => .time (by cases k <;> exact h)
  | 0, .named n, h => by simp [solidb] at h
  | k + 1, .named n, h => by
    cases hd : Γ.decl n with
    | none => simp [solidb, hd] at h
    | some d =>
      cases d with
      | struct strict fields => exact .struct hd
      | «alias» u => simp only [solidb, hd] at h; exact .name hd (solidb_iff h)
  | k, .structT, h | k, .sel _, h | k, .star _, h | k, .slice _, h | k, .array _ _, h | k, .map _, h => by cases k <;> cases h

/-- a test for `Simple` -/
def simpleb (K : Kinds) (Γ : Env) (k : Nat) : TExpr → Bool
  | .star t => solidb K Γ k t && decide (t ≠ .uuid) && (match t with
    | .named n => match Γ.decl n with
      | some (.struct _ []) => false
      | _ => true
    | _ => true)
  | t => solidb K Γ k t

theorem simpleb_iff {K : Kinds} {Γ : Env} {k : Nat} {t : TExpr} (h : simpleb K Γ k t = true) : Simple K Γ t := by
  cases t with
  | star t =>
    simp only [simpleb, Bool.and_eq_true, decide_eq_true_eq] at h
    refine .ptr (solidb_iff h.1.1) h.1.2 ?_
    rintro n strict rfl hd
    simp [hd] at h
  | _ => exact .solid (solidb_iff h)

/-- a test for `PlainType` -/
def plainTypeb (K : Kinds) (Γ : Env) (k : Nat) : TExpr → Bool
  | .slice t => simpleb K Γ k t
  | .map t => simpleb K Γ k t
  | .array _ t => simpleb K Γ k t && decide (t ≠ .prim .byte)
  | t => simpleb K Γ k t

theorem plainTypeb_iff {K : Kinds} {Γ : Env} {k : Nat} {t : TExpr} (h : plainTypeb K Γ k t = true) : PlainType K Γ t := by
  cases t with
  | slice t => exact .slice (simpleb_iff h)
  | map t => exact .map (simpleb_iff h)
  | array n t =>
    simp only [plainTypeb, Bool.and_eq_true, decide_eq_true_eq] at h
    exact .array n (simpleb_iff h.1) h.2
  | _ => exact .simple (simpleb_iff h)

/-- a test for `PlainField` -/
def plainFieldb (K : Kinds) (Γ : Env) (k : Nat) (fd : FieldDecl) : Bool :=
  decide (fd.tags.jsonName ≠ []) && decide (fd.tags.jsonName ≠ str "-") &&
  (plainTypeb K Γ k fd.typ || fd.tags.omitempty && (match fd.typ with
    | .named n => match Γ.decl n with
      | some (.alias u) => plainTypeb K Γ k u
      | _ => false
    | _ => false)) &&
  (!fd.tags.omitempty || (match fd.typ with
    | .named n => match Γ.decl n with
      | some (.struct _ _) => false
      | _ => true
    | _ => true)) &&
  (decide (fd.tags.dflt = []) && !fd.tags.required || !fd.tags.omitempty && !fd.typ.nullLike) &&
  (match fd.typ with
    | .time => decide (fd.tags.layout = [])
    | .star .time => decide (fd.tags.layout = []) && fd.tags.omitempty
    | _ => true)

theorem plainFieldb_iff {K : Kinds} {Γ : Env} {k : Nat} {fd : FieldDecl} (h : plainFieldb K Γ k fd = true) : PlainField K Γ fd := by
  simp only [plainFieldb, Bool.and_eq_true, decide_eq_true_eq, Bool.or_eq_true, Bool.not_eq_true'] at h
  obtain ⟨⟨⟨⟨⟨h1, h2⟩, h3⟩, h4⟩, h5⟩, h6⟩ := h
  refine ⟨⟨h1, h2⟩, ?_, ?_, ?_, ?_⟩
  · rcases h3 with h3 | ⟨h3, h6⟩
    · exact .inl (plainTypeb_iff h3)
    · refine .inr ⟨h3, ?_⟩
      cases ht : fd.typ with
      | named n =>
        rw [ht] at h6
        cases hd : Γ.decl n with
        | none => simp [hd] at h6
        | some d =>
          cases d with
          | struct _ _ => simp [hd] at h6
          | «alias» u => simp only [hd] at h6; exact ⟨n, u, rfl, hd, plainTypeb_iff h6⟩
      | _ => rw [ht] at h6; cases h6
  · intro ho n strict fields ht hd
    rcases h4 with h4 | h4
    · rw [ho] at h4; cases h4
    · rw [ht] at h4; simp [hd] at h4
  · intro h
    rcases h5 with ⟨h5, h6⟩ | h5
    · rcases h with h | h
      · exact absurd h5 h
      · rw [h6] at h; cases h
    · exact h5
  · intro ht
    revert h6 ht
    cases fd.typ with
    | time => exact fun h _ => ⟨of_decide_eq_true h, fun h => nomatch h⟩
    | star u => intro h6 ht; cases ht; simp only [Bool.and_eq_true, decide_eq_true_eq] at h6; exact ⟨h6.1, fun _ => h6.2⟩
    | _ => intro _ ht; cases ht

namespace Examples
open Sample
attribute [local instance] Sample.ext

/-- plain types of the sample package; 55 is a recursive one with twelve fields -/
def plainTypes : List Nat := [2, 4, 20, 21, 24, 25, 26, 30, 31, 32, 33, 34, 36, 37, 38, 40, 54, 55]

set_option maxRecDepth 200000 in
theorem plain_encPackage : EncPackage Γ noDoc (· ∈ plainTypes) where
  closed n d t m hn hd ht hm := by
    have h : ∀ n ∈ plainTypes, ∀ d ∈ Γ.decl n, ∀ t ∈ d.types, ∀ m ∈ t.names, m ∈ plainTypes := by decide
    exact h n hn d hd t ht m hm
  noAnon n d t hn hd ht := by
    have h : ∀ n ∈ plainTypes, ∀ d ∈ Γ.decl n, ∀ t ∈ d.types, t.anon = false := by decide
    exact h n hn d hd t ht
  sels n d t m hn hd ht hm := by
    have h : ∀ n ∈ plainTypes, ∀ d ∈ Γ.decl n, ∀ t ∈ d.types, t.sels = [] := by decide
    rw [h n hn d hd t ht] at hm; cases hm
  keys n strict fields fd hn hd hf := by
    have h : ∀ n ∈ plainTypes, ∀ d ∈ Γ.decl n, (match d with | .struct _ fields => fields.all (fun fd => plainb fd.tags.jsonName) | _ => true) = true := by
      decide
    exact plainb_iff (List.all_eq_true.1 (h n hn _ hd) fd hf)
  times := fmtTime_plain _
  timeTexts tm s h := by cases h; exact fmtTime_plain [] tm
  layouts _ _ _ _ _ _ _ := ⟨fmtTime_plain _, fmtTime_plain _ _⟩
  foreign n r w w' hn hd hw h := by cases h
  tame n r hd := .unsupp

set_option maxRecDepth 200000 in
theorem plainTypes_ok : PlainPackage Γ (· ∈ plainTypes) where
  closed n d t m hn hd ht hm := by
    have h : ∀ n ∈ plainTypes, ∀ d ∈ Γ.decl n, ∀ t ∈ d.types, ∀ m ∈ t.names, m ∈ plainTypes := by decide
    exact h n hn d hd t ht m hm
  declared n hn := by
    have h : ∀ n ∈ plainTypes, Γ.decl n ≠ none := by decide
    exact h n hn
  decoders n hn := by
    have h : ∀ n ∈ plainTypes, ∃ d ∈ Γ.decl n, isOk (genFill Γ 5 d) = true := by decide
    obtain ⟨d, hd, h⟩ := h n hn
    cases hg : genFill Γ 5 d with
    | ok ir => exact ⟨d, 5, ir, hd, hg⟩
    | _ => rw [hg] at h; cases h
  encoders n hn := by
    have h : ∀ n ∈ plainTypes, ∃ d ∈ Γ.decl n, isOk (genMarshal Γ d) = true := by decide
    obtain ⟨d, hd, h⟩ := h n hn
    cases hg : genMarshal Γ d with
    | ok ir => exact ⟨d, ir, hd, hg⟩
    | _ => rw [hg] at h; cases h
  zeros n d hn hd := by
    have h : ∀ n ∈ plainTypes, ∀ d ∈ Γ.decl n, isOk (genZero Γ 5 d) = true := by decide
    have := h n hn d hd
    cases hg : genZero Γ 5 d with
    | ok ir => exact ⟨5, ir, hg⟩
    | _ => rw [hg] at this; cases this
  acyclic := by
    refine ⟨fun n => n, fun n d m hn hd hm => ?_⟩
    have h : ∀ n ∈ plainTypes, ∀ d ∈ Γ.decl n, ∀ m ∈ d.inner, m < n := by decide
    exact h n hn d hd m hm
  fields n strict fields fd hn hd hf := by
    have h : ∀ n ∈ plainTypes, ∀ d ∈ Γ.decl n, (match d with | .struct _ fields => fields.all (plainFieldb {} Γ 5) | _ => true) = true := by decide
    exact plainFieldb_iff (List.all_eq_true.1 (h n hn _ hd) fd hf)
  distinct n strict fields hn hd := by
    have h : ∀ n ∈ plainTypes, ∀ d ∈ Γ.decl n, (match d with
      | .struct _ fields => decide (fields.map fun fd => fd.tags.jsonName).Nodup | _ => true) = true := by decide
    exact of_decide_eq_true (h n hn _ hd)
  commas n strict fields i fd hn hd hf hs ho := by
    have h : ∀ n ∈ plainTypes, ∀ d ∈ Γ.decl n, (match d with
      | .struct _ fields => fields.all (fun fd => (match fd.typ with | .star _ => false | _ => true) || fd.tags.omitempty) ||
          (match fields with | fd :: _ => (match fd.typ with | .star _ => false | _ => true) && !fd.tags.omitempty | [] => true)
      | _ => true) = true := by decide
    have := h n hn _ hd
    simp only [Bool.or_eq_true] at this
    rcases this with this | this
    · have := List.all_eq_true.1 this fd (List.mem_of_getElem? hf)
      obtain ⟨t, ht⟩ := hs
      simp [ht, ho] at this
    · cases fields with
      | nil => cases hf
      | cons fd' fds =>
        simp only [Bool.and_eq_true, Bool.not_eq_true'] at this
        have hns : ∀ t, fd'.typ ≠ .star t := by
          intro t ht
          rw [ht] at this
          cases this.1
        refine ⟨0, fd', ?_, rfl, hns, this.2⟩
        cases i with
        | zero => obtain ⟨t, ht⟩ := hs; cases hf; exact absurd ht (hns t)
        | succ i => exact Nat.succ_pos i
  names n u hn hd := by
    have h : ∀ n ∈ plainTypes, ∀ d ∈ Γ.decl n, (match d with
      | .alias u => plainTypeb {} Γ 5 u && (match u with | .star _ => false | _ => true) | _ => true) = true := by decide
    have := h n hn _ hd
    simp only [Bool.and_eq_true] at this
    refine ⟨plainTypeb_iff this.1, ?_⟩
    rintro t rfl
    cases this.2

/-- a leaf -/
def nodeLeaf (i : Int) : GoVal := .struct [.int i, .nil, .nil, .nil, .nil, .nil, .arr [.int 0, .int (-1)], .uuid someID, .struct [.int 6], .nil, .bool true, .int 5]

/-- a tree -/
def nodeTree : GoVal := .struct [.int 1, .ptr (nodeLeaf 2), .slice [.ptr (nodeLeaf 3), .nil] [.ptr (nodeLeaf 4)], .ptr (.str (str "x")), .slice [.int 8] [.int 9],
  .map [(str "a", .struct [.int 4]), (str "b", .struct [.int 0])], .arr [.int 5, .int 6], .uuid someID, .struct [.int 6], .bytes [1, 255], .bool false,
  .int (-9223372036854775808)]

theorem int_typed {X : Nat → GoVal → Prop} {p : Prim} {i : Int} (hp : p.isWhole = true) (h : p.inRange i) : HasType Γ X (.prim p) (.int i) :=
  .prim (.int hp h)

theorem base_typed {i : Int} (h : 0 ≤ i ∧ i ≤ 65535) : HasType Γ NoForeign (.named 2) (.struct [.int i]) :=
  typed_struct rfl (.cons (int_typed rfl h) .nil)

theorem temps_typed {i j : Int} (hi : -128 ≤ i ∧ i ≤ 127) (hj : -128 ≤ j ∧ j ≤ 127) :
    HasType Γ NoForeign (.array 2 (.named 20)) (.arr [.int i, .int j]) := by
  refine .array (by simp) rfl ?_
  simp only [List.mem_cons, List.not_mem_nil, or_false]
  rintro v (rfl | rfl)
  · exact .alias (.named 20) rfl (int_typed rfl hi)
  · exact .alias (.named 20) rfl (int_typed rfl hj)

theorem nodeLeaf_typed {i : Int} (hi : -128 ≤ i ∧ i ≤ 127) : HasType Γ NoForeign (.named 55) (nodeLeaf i) :=
  typed_struct rfl (.cons (int_typed rfl hi) (.cons (.nilPtr _) (.cons (.nilSlice _) (.cons (.nilPtr _) (.cons (.alias (.named 24) rfl (.nilSlice _))
    (.cons (.nilMap _) (.cons (temps_typed (by decide) (by decide)) (.cons (.uuid rfl) (.cons (base_typed (by decide))
    (.cons (.nilSlice _) (.cons (.prim (.bool _)) (.cons (int_typed rfl (by simp [Prim.inRange])) .nil))))))))))))

theorem nodeTree_typed : HasType Γ NoForeign (.named 55) nodeTree := by
  refine typed_struct rfl (.cons (int_typed rfl (by simp [Prim.inRange])) (.cons (.ptr (nodeLeaf_typed (by decide))) (.cons (.slice (by simp) ?_ ?_)
    (.cons (.ptr (.alias (.named 38) rfl (.prim (.string _)))) (.cons (.alias (.named 24) rfl (.slice (by simp) ?_ ?_))
    (.cons (.map (by decide) ?_) (.cons (temps_typed (by decide) (by decide)) (.cons (.uuid rfl) (.cons (base_typed (by decide))
    (.cons (.bytes _) (.cons (.prim (.bool _)) (.cons (int_typed rfl (by simp [Prim.inRange])) .nil))))))))))))
  · simp only [List.mem_cons, List.not_mem_nil, or_false]
    rintro v (rfl | rfl)
    · exact .ptr (nodeLeaf_typed (by decide))
    · exact .nilPtr _
  · simp only [List.mem_cons, List.not_mem_nil, or_false]
    rintro v rfl
    exact .ptr (nodeLeaf_typed (by decide))
  · simp only [List.mem_cons, List.not_mem_nil, or_false]
    rintro v rfl
    exact int_typed rfl (by simp [Prim.inRange])
  · simp only [List.mem_cons, List.not_mem_nil, or_false]
    rintro v rfl
    exact int_typed rfl (by simp [Prim.inRange])
  · simp only [List.mem_cons, List.not_mem_nil, or_false]
    rintro v (rfl | rfl) <;> exact base_typed (by decide)

/-- the tree survives, with its spare capacity gone -/
example : ∃ s jv, Marshals Γ 55 (some nodeTree) (.ok s) ∧ Json jv s ∧
    (DepthLe 300 jv → ∀ z, ZeroIs Γ 55 z → ∀ e v', Unmarshals Γ 55 s z e v' ↔ e = none ∧ v' = nodeTree.trim) :=
  C49_every_value plain_encPackage plainTypes_ok rfl (by decide) nodeTree_typed

/-- and so does every other value of the type -/
example (v : GoVal) (hv : HasType Γ NoForeign (.named 55) v) : ∃ s jv, Marshals Γ 55 (some v) (.ok s) ∧ Json jv s ∧
    (DepthLe 300 jv → ∀ z, ZeroIs Γ 55 z → ∀ e v', Unmarshals Γ 55 s z e v' ↔ e = none ∧ v' = v.trim) :=
  C49_every_value plain_encPackage plainTypes_ok rfl (by decide) hv

/-- whatever a text does to the tree, the result can be encoded -/
example (data : Str) (e : Option Err) (v : GoVal) (h : Unmarshals Γ 55 data nodeTree e v) : ∃ s, Marshals Γ 55 (some v) (.ok s) := by
  obtain ⟨s, _, h, _⟩ := C49_decoded plain_encPackage plainTypes_ok rfl (by decide) nodeTree_typed h
  exact ⟨s, h⟩

/-- two leaves with different numbers have different texts -/
example (s : Str) (hdep : ∀ jv, Json jv s → DepthLe 300 jv) (h : Marshals Γ 55 (some (nodeLeaf 2)) (.ok s)) : ¬ Marshals Γ 55 (some (nodeLeaf 3)) (.ok s) := by
  intro h'
  have := C49_injective plain_encPackage plainTypes_ok rfl (by decide) (nodeLeaf_typed (i := 2) (by decide)) (nodeLeaf_typed (i := 3) (by decide)) h h' hdep
  simp [SameVisible, nodeLeaf, GoVal.trim, trimAll] at this

/-- {"l":[{"rev":1}]} is written again as it was read -/
example (z : GoVal) (hz : ZeroIs Γ 54 z) (e : Option Err) (v : GoVal) (h : Unmarshals Γ 54 (str "{\"l\":[{\"rev\":1}]}") z e v) :
    e = none ∧ Marshals Γ 54 (some v) (.ok (str "{\"l\":[{\"rev\":1}]}")) := by
  refine C49_same_text plain_encPackage plainTypes_ok rfl sample_spareBlind (X := NoForeign) (by decide) (v := roomy) ?_ ?_ ?_ hz h
  · refine typed_struct rfl (.cons (.slice (by simp) ?_ ?_) .nil) <;> simp only [List.mem_cons, List.not_mem_nil, or_false]
    · rintro v rfl; exact base_typed (by decide)
    · rintro v (rfl | rfl) <;> exact base_typed (by decide)
  · exact (C50_text sample_spareBlind roomy_tight.1).2 ⟨4, rfl⟩
  · exact fun jv h => (json_depth h).mono (by decide +kernel)

end Examples
end VJ
