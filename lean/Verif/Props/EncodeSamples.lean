import Verif.Spec.EncodeExact
import Verif.Props.Encode
import Verif.Props.Omitempty
import Verif.Proof.JsonUnique

/-!
# C21–C25, C32, C33: samples, and the cases where the properties fail
-/

namespace VJ.Examples
open Sample
attribute [local instance] Sample.ext

/-- the sample package -/
def encNames : List Nat := [0, 1, 2, 3, 4, 5, 20, 21, 22, 23, 24, 25, 26, 27, 28, 29, 30, 31, 32, 33, 34, 35, 36, 37, 38, 39, 40, 41, 42, 43,
  44, 45, 46, 47, 48, 49]

/-- nothing is known of types of other packages -/
def noDoc : Nat → Option GoVal → JV → Prop := fun _ _ _ => False

def plainb (s : Str) : Bool := s.all fun c => decide (32 ≤ c.toNat ∧ c ≠ '"' ∧ c ≠ '\\')

theorem plainb_iff {s : Str} (h : plainb s = true) : PlainText s := fun c hc => by simpa using List.all_eq_true.1 h c hc

theorem intStr_plain (i : Int) : PlainText (intStr i) := by
  have hn : ∀ n, PlainText (natStr n) := by
    intro n c hc
    obtain ⟨_, h⟩ := natStr_digits n
    obtain ⟨d, hd, rfl⟩ := h c hc
    have : ∀ d, d < 10 → 32 ≤ (Char.ofNat (48 + d)).toNat ∧ Char.ofNat (48 + d) ≠ '"' ∧ Char.ofNat (48 + d) ≠ '\\' := by decide
    exact this d hd
  cases i with
  | ofNat n => exact hn n
  | negSucc n =>
    intro c hc
    rcases List.mem_cons.1 hc with rfl | hc
    · decide
    · exact hn _ c hc

theorem fmtTime_plain (l : Str) (t : Time) : PlainText (Ext.fmtTime l t) := by
  intro c hc
  rcases List.mem_cons.1 hc with rfl | hc
  · decide
  · exact intStr_plain _ c hc

set_option maxRecDepth 200000 in
theorem enc_package : EncPackage Γ noDoc (· ∈ encNames) where
  closed n d t m hn hd ht hm := by
    have h : ∀ n ∈ encNames, ∀ d ∈ Γ.decl n, ∀ t ∈ d.types, ∀ m ∈ t.names, m ∈ encNames := by decide
    exact h n hn d hd t ht m hm
  noAnon n d t hn hd ht := by
    have h : ∀ n ∈ encNames, ∀ d ∈ Γ.decl n, ∀ t ∈ d.types, t.anon = false := by decide
    exact h n hn d hd t ht
  sels n d t m hn hd ht hm := by
    have h : ∀ n ∈ encNames, ∀ d ∈ Γ.decl n, ∀ t ∈ d.types, t.sels = [] := by decide
    rw [h n hn d hd t ht] at hm; cases hm
  keys n strict fields fd hn hd hf := by
    have h : ∀ n ∈ encNames, ∀ d ∈ Γ.decl n, (match d with | .struct _ fields => fields.all (fun fd => plainb fd.tags.jsonName) | _ => true) = true := by
      decide
    exact plainb_iff (List.all_eq_true.1 (h n hn _ hd) fd hf)
  times := fmtTime_plain _
  timeTexts tm s h := by cases h; exact fmtTime_plain [] tm
  layouts _ _ _ _ _ _ _ := ⟨fmtTime_plain _, fmtTime_plain _ _⟩
  foreign n r w w' hn hd hw h := by cases h
  tame n r hd := .unsupp

theorem noDoc_unique : ∀ n r a b, noDoc n r a → noDoc n r b → a = b := fun _ _ _ _ h => h.elim

/-- a document with an embedded struct and an owner -/
def docVal : GoVal := .struct [.struct [.int 7], used, .time ⟨3, 0⟩]

/-- everything in it, with its type -/
def docParts : List (TExpr × GoVal) :=
  [(.named 3, docVal), (.named 2, .struct [.int 7]), (.prim .uint16, .int 7), (.named 0, used), (.time, .time ⟨3, 0⟩),
   (.prim .int8, .int 1), (.prim .string, .str (str "old")), (.star (.prim .string), .ptr (.str (str "n"))), (.prim .string, .str (str "n")),
   (.slice (.prim .string), .slice [.str (str "q")] [.str (str "r")]), (.prim .string, .str (str "q")), (.prim .int, .int 3),
   (.prim .string, .str (str "s3cret"))]

theorem doc_parts {t : TExpr} {v : GoVal} (h : Part Γ (.named 3) docVal t v) : (t, v) ∈ docParts := by
  induction h with
  | self => simp [docParts]
  | ptr _ ih =>
    simp only [docParts, docVal, used, List.mem_cons, List.not_mem_nil, or_false, Prod.mk.injEq, reduceCtorEq, and_false, false_and, false_or,
      TExpr.star.injEq, GoVal.ptr.injEq] at ih
    obtain ⟨rfl, rfl⟩ := ih
    simp [docParts]
  | slice _ hv ih =>
    simp only [docParts, docVal, used, List.mem_cons, List.not_mem_nil, or_false, Prod.mk.injEq, reduceCtorEq, and_false, false_and, false_or,
      TExpr.slice.injEq, GoVal.slice.injEq] at ih
    obtain ⟨rfl, rfl, rfl⟩ := ih
    simp at hv
    subst hv
    simp [docParts]
  | array _ hv ih => simp [docParts, docVal, used] at ih
  | map _ hv ih => simp [docParts, docVal, used] at ih
  | «alias» _ he hd ih =>
    simp only [docParts, List.mem_cons, List.not_mem_nil, or_false, Prod.mk.injEq] at ih
    cases he with
    | named n =>
      simp only [TExpr.named.injEq, reduceCtorEq, false_and, false_or, or_false] at ih
      rcases ih with ⟨rfl, _⟩ | ⟨rfl, _⟩ | ⟨rfl, _⟩ <;> cases hd
    | sel n => simp at ih
  | field _ he hd hf hg ih =>
    rename_i i _ _ _ _ _ _
    simp only [docParts, docVal, used, List.mem_cons, List.not_mem_nil, or_false, Prod.mk.injEq] at ih
    cases he with
    | sel n => simp at ih
    | named n =>
      simp only [TExpr.named.injEq, reduceCtorEq, false_and, false_or, or_false, GoVal.struct.injEq] at ih
      rcases ih with ⟨rfl, rfl⟩ | ⟨rfl, rfl⟩ | ⟨rfl, rfl⟩ <;> cases hd
      · match i with
        | 0 | 1 | 2 => cases hf; cases hg; simp [docParts, used]
        | i + 3 => cases hf
      · match i with
        | 0 => cases hf; cases hg; simp [docParts]
        | i + 1 => cases hf
      · match i with
        | 0 | 1 | 2 | 3 | 4 | 5 => cases hf; cases hg; simp [docParts]
        | i + 6 => cases hf

theorem not_forgotten {fd : FieldDecl} {v : GoVal} {k : EKind} (hk : FieldKind Γ fd.typ k)
    (h : k ≠ .ptr ∧ k ≠ .ptr2 ∧ ∀ n, k ≠ .methodPtr n) : ¬ Forgotten Γ fd v := by
  rintro ⟨_, k', hk', _, hs⟩
  cases fieldKind_unique hk hk'
  rcases hs with rfl | rfl | ⟨n, rfl⟩
  · exact h.1 rfl
  · exact h.2.1 rfl
  · exact h.2.2 n rfl

/-- if the first field is written, and is no nil pointer, there is no trouble with commas -/
theorem commas_first {fields : List FieldDecl} {gs : List GoVal} {fd : FieldDecl} {g : GoVal} (hf : fields[0]? = some fd)
    (hg : gs[0]? = some g) (h1 : ¬ Omitted Γ fd g) (h2 : ¬ Forgotten Γ fd g) : CommasOK Γ fields gs :=
  fun _ _ _ _ _ _ hij _ _ _ _ _ _ => ⟨0, fd, g, by omega, hf, hg, h1, h2⟩

theorem base_kind : FieldKind Γ (.named 2) (.method 2) := .method (.struct (n := 2) (strict := false) (fields := base) rfl)

theorem base_enc : Enc Γ noDoc (.decl 2) (.struct [.int 7]) (.obj [(str "rev", .num (str "7"))]) := by
  refine Enc.struct (n := 2) (strict := false) (fields := base) (ms := [[(str "rev", .num (str "7"))]]) rfl rfl rfl ?_
  intro i fd g m hf hg hm
  match i with
  | 0 =>
    cases hf; cases hg; cases hm
    exact .scalarField (.scalar (.self _)) (by intro h; cases h) (.int 7)
  | i + 1 => cases hf

theorem doc_fine : Fine Γ noDoc (.named 3) docVal where
  floats p f h := by simpa [docParts, docVal, used] using doc_parts h.toPart
  commas e n strict fields gs h he hd := by
    have := doc_parts h.toPart
    simp only [docParts, docVal, used, List.mem_cons, List.not_mem_nil, or_false, Prod.mk.injEq] at this
    cases he with
    | sel n => simp at this
    | named n =>
      simp only [TExpr.named.injEq, reduceCtorEq, false_and, false_or, or_false, GoVal.struct.injEq] at this
      rcases this with ⟨rfl, rfl⟩ | ⟨rfl, rfl⟩ | ⟨rfl, rfl⟩ <;> cases hd
      · refine commas_first rfl rfl (not_omitted base_kind fun h => ?_) (not_forgotten base_kind (by simp))
        cases h with
        | method h => cases isZero_unique h (⟨5, rfl⟩ : IsZeroIs Γ 2 (.struct [.int 7]) false)
      · exact commas_first rfl rfl (not_omitted (.scalar (.self _)) fun _ => ⟨rfl, by simp⟩) (not_forgotten (.scalar (.self _)) (by simp))
      · exact commas_first rfl rfl (not_omitted (.scalar (.self _)) fun _ => ⟨rfl, by simp⟩) (not_forgotten (.scalar (.self _)) (by simp))
  splices e n strict fields gs h he hd := by
    have := doc_parts h.toPart
    simp only [docParts, docVal, used, List.mem_cons, List.not_mem_nil, or_false, Prod.mk.injEq] at this
    cases he with
    | sel n => simp at this
    | named n =>
      simp only [TExpr.named.injEq, reduceCtorEq, false_and, false_or, or_false, GoVal.struct.injEq] at this
      intro i m fd g jv hf hg hn hm _ hj
      rcases this with ⟨rfl, rfl⟩ | ⟨rfl, rfl⟩ | ⟨rfl, rfl⟩ <;> cases hd
      · match i with
        | 0 =>
          cases hf; cases hg
          cases hm with
          | struct => exact ⟨_, _, enc_unique noDoc_unique hj base_enc⟩
          | named hd => cases hd
        | 1 | 2 => cases hf; cases hn
        | i + 3 => cases hf
      · match i with
        | 0 => cases hf; cases hn
        | i + 1 => cases hf
      · match i with
        | 0 | 1 | 2 | 3 | 4 | 5 => cases hf; cases hn
        | i + 6 => cases hf

theorem doc_typed : HasType Γ NoForeign (.named 3) docVal := by
  refine .struct (n := 3) (strict := false) (fields := doc) (.named 3) rfl rfl ?_
  intro i fd g hf hg
  match i with
  | 0 =>
    cases hf; cases hg
    refine .struct (n := 2) (strict := false) (fields := base) (.named 2) rfl rfl ?_
    intro i fd g hf hg
    match i with
    | 0 => cases hf; cases hg; exact .prim (.int rfl ⟨by decide, by decide⟩)
    | i + 1 => cases hf
  | 1 => cases hf; cases hg; exact used_typed
  | 2 => cases hf; cases hg; exact .time _
  | i + 3 => cases hf

/-- what is written for it -/
def docText : Str := str "{\"rev\":7,\"owner\":{\"id\":1,\"name\":\"old\",\"note\":\"n\",\"tags\":[\"q\"],\"level\":3,\"-\":\"s3cret\"},\"when\":\"T3\"}"

set_option maxRecDepth 200000 in
theorem doc_marshals : Marshals Γ 3 (some docVal) (.ok docText) := ⟨5, rfl⟩

/-- the hypotheses of C21 can be met … -/
example : ∃ jv, Json jv docText ∧ Enc Γ noDoc (.decl 3) docVal jv ∧ ∀ jv', Enc Γ noDoc (.decl 3) docVal jv' → jv' = jv :=
  C21_output_is_json_partial enc_package noDoc_unique (by decide) doc_typed doc_fine doc_marshals

/-- … and those of C22 -/
example : ∃ ms : List (List (Str × JV)), Json (.obj ms.flatten) docText ∧ ms.length = 3 := by
  obtain ⟨ms, h1, h2, _⟩ := C22_members_partial enc_package (n := 3) (by decide) rfl doc_typed doc_fine doc_marshals
  exact ⟨ms, h1, h2⟩

set_option maxRecDepth 200000 in
/-- the members of the embedded struct are among those of the document -/
example : ∃ before own after, Json (.obj (before ++ own ++ after)) docText ∧ Json (.obj own) (str "{\"rev\":7}") ∧ own ≠ [] :=
  C33_spliced_partial (m := 2) enc_package noDoc_unique (n := 3) (by decide) rfl doc_typed doc_fine doc_marshals (i := 0) rfl rfl rfl
    (.struct (strict := false) (fields := base) rfl) ⟨5, rfl⟩ ⟨5, rfl⟩

/-! ### where C21 fails -/

set_option maxRecDepth 200000 in
/-- C21 fails: after a nil pointer the comma is missing -/
theorem C21_missing_comma : Marshals Γ 41 (some (.struct [.nil, .int 5])) (.ok (str "{\"a\":null\"b\":5}")) ∧
    ¬ ∃ jv, Json jv (str "{\"a\":null\"b\":5}") := ⟨⟨5, rfl⟩, not_json (by decide +kernel) (by decide)⟩

set_option maxRecDepth 200000 in
/-- C21 fails: an embedded struct that is not zero but has no members -/
theorem C21_empty_embedded : Marshals Γ 42 (some (.struct [.struct [.ptr .nil]])) (.ok (str "{null}")) ∧ ¬ ∃ jv, Json jv (str "{null}") :=
  ⟨⟨5, rfl⟩, not_json (by decide +kernel) (by decide)⟩

/-! ### C21 without trouble -/

/-- the types of the sample package without trouble -/
def calmNames : List Nat := [2, 4, 5, 20, 21, 24, 25, 26, 27, 28, 29, 30, 31, 32, 33, 34, 36, 37, 38, 39, 40, 43, 44, 45, 46, 47, 49]

set_option maxRecDepth 200000 in
theorem calm_package : EncPackage Γ noDoc (· ∈ calmNames) where
  closed n d t m hn hd ht hm := by
    have h : ∀ n ∈ calmNames, ∀ d ∈ Γ.decl n, ∀ t ∈ d.types, ∀ m ∈ t.names, m ∈ calmNames := by decide
    exact h n hn d hd t ht m hm
  noAnon n d t hn hd ht := by
    have h : ∀ n ∈ calmNames, ∀ d ∈ Γ.decl n, ∀ t ∈ d.types, t.anon = false := by decide
    exact h n hn d hd t ht
  sels n d t m hn hd ht hm := by
    have h : ∀ n ∈ calmNames, ∀ d ∈ Γ.decl n, ∀ t ∈ d.types, t.sels = [] := by decide
    rw [h n hn d hd t ht] at hm; cases hm
  keys n strict fields fd hn hd hf := by
    have h : ∀ n ∈ calmNames, ∀ d ∈ Γ.decl n, (match d with | .struct _ fields => fields.all (fun fd => plainb fd.tags.jsonName) | _ => true) = true := by
      decide
    exact plainb_iff (List.all_eq_true.1 (h n hn _ hd) fd hf)
  times := fmtTime_plain _
  timeTexts tm s h := by cases h; exact fmtTime_plain [] tm
  layouts _ _ _ _ _ _ _ := ⟨fmtTime_plain _, fmtTime_plain _ _⟩
  foreign n r w w' hn hd hw h := by cases h
  tame n r hd := .unsupp

set_option maxRecDepth 200000 in
theorem calm_noTrouble : NoTrouble Γ (· ∈ calmNames) := by
  intro n strict fields fd k hn hd hf hk
  have h : ∀ n ∈ calmNames, ∀ d ∈ Γ.decl n, (match d with
      | .struct _ fields => fields.all (fun fd => (match kindOf Γ fd.typ with
        | some .ptr | some .ptr2 | some (.methodPtr _) => fd.tags.omitempty
        | some (.method _) => fd.tags.jsonName != []
        | _ => true))
      | _ => true) = true := by decide
  have := List.all_eq_true.1 (h n hn _ hd) fd hf
  rw [hk.kindOf] at this
  refine ⟨?_, ?_⟩
  · rintro (rfl | rfl | ⟨m, rfl⟩) <;> exact this
  · rintro ⟨m, rfl⟩
    simpa using this

/-- a value of type 49 with nothing in it -/
def bare : GoVal := .struct [.nil, .str [], .slice [] [], .struct [.int 0], .nil]

theorem bare_typed : HasType Γ NoForeign (.named 49) bare := by
  refine .struct (n := 49) (.named 49) rfl rfl ?_
  intro i fd g hf hg
  match i with
  | 0 => cases hf; cases hg; exact .nilPtr _
  | 1 => cases hf; cases hg; exact .prim (.string _)
  | 2 => cases hf; cases hg; exact .slice (by simp) (by simp) (by simp)
  | 3 =>
    cases hf; cases hg
    refine .struct (n := 2) (strict := false) (fields := base) (.named 2) rfl rfl ?_
    intro i fd g hf hg
    match i with
    | 0 => cases hf; cases hg; exact .prim (.int rfl ⟨by decide, by decide⟩)
    | i + 1 => cases hf
  | 4 => cases hf; cases hg; exact .nilMap _
  | i + 5 => cases hf

/-- how floats are printed in the sample package -/
theorem floatTexts : FloatTexts where
  finite f h := by
    have h' : ¬ (f &&& 0x7FF0000000000000 = 0x7FF0000000000000) := h
    have := intStr_num (Int.ofNat f.toNat)
    have heq : Ext.fmtFloat f = natStr f.toNat := by simp only [Ext.fmtFloat, if_neg h']
    rw [heq]; exact this
  nonfinite f h := by
    have h' : f &&& 0x7FF0000000000000 = 0x7FF0000000000000 := h
    simp only [Ext.fmtFloat, if_pos h']
    split
    · exact .inr (.inl rfl)
    · split
      · exact .inr (.inr rfl)
      · exact .inl rfl

theorem bare_parts {t : TExpr} {v : GoVal} (h : Part Γ (.named 49) bare t v) : v = bare ∨ v ∈ [.nil, .str [], .slice [] [], .struct [.int 0], .int 0] := by
  induction h with
  | self => simp
  | ptr _ ih => simp [bare] at ih
  | slice _ hm ih =>
    simp [bare] at ih
    obtain ⟨rfl, _⟩ := ih
    cases hm
  | array _ _ ih => simp [bare] at ih
  | map _ _ ih => simp [bare] at ih
  | «alias» _ _ _ ih => exact ih
  | @field e n i strict fields fd gs g _ he hd hf hg ih =>
    have hm := List.mem_of_getElem? hg
    rcases ih with ih | ih
    · cases ih
      revert hm; simp
      rintro (rfl | rfl | rfl | rfl | rfl) <;> simp
    · simp at ih
      subst ih
      revert hm; simp
      rintro rfl; simp

/-- there are no floats in it -/
theorem bare_floats (p : Prim) (f : F64) (h : Written Γ (.named 49) bare (.prim p) (.float f)) : NumText (Ext.fmtFloat f) := by
  have := bare_parts h.toPart
  simp [bare] at this

set_option maxRecDepth 200000 in
example : ∃ jv, Json jv (str "{\"l\":[],\"m\":null}") :=
  C21_no_trouble_partial calm_package calm_noTrouble (n := 49) (v := bare) (by decide) rfl bare_typed bare_floats ⟨5, rfl⟩

/-! ### C23 -/

set_option maxRecDepth 200000 in
/-- C23 fails: UUIDs and arrays are written although they are zero, and a pointer to a nil
pointer is left out although it is not zero -/
theorem C23_wrong_omissions :
    Marshals Γ 44 (some (.struct [.uuid (List.replicate 16 0), .arr [.int 0, .int 0], .ptr .nil, .str []]))
      (.ok (str "{\"id\":\"00000000-0000-0000-0000-000000000000\",\"f\":[0,0]}")) ∧
    ZeroOf Γ .uuid (.uuid (List.replicate 16 0)) ∧ ZeroOf Γ (.array 2 (.prim .int8)) (.arr [.int 0, .int 0]) ∧
    ¬ ZeroOf Γ (.star (.star (.prim .int8))) (.ptr .nil) :=
  ⟨⟨5, rfl⟩, ⟨0, rfl⟩, ⟨0, rfl⟩, fun ⟨_, h⟩ => (by cases h)⟩

theorem omissible_string : Omissible Γ (.prim .string) := ⟨by simp, by simp, fun _ _ h => (by cases h), by simp⟩

def omitNames : List Nat := [2, 38, 39, 49]

set_option maxRecDepth 200000 in
theorem omit_encPackage : EncPackage Γ noDoc (· ∈ omitNames) where
  closed n d t m hn hd ht hm := by
    have h : ∀ n ∈ omitNames, ∀ d ∈ Γ.decl n, ∀ t ∈ d.types, ∀ m ∈ t.names, m ∈ omitNames := by decide
    exact h n hn d hd t ht m hm
  noAnon n d t hn hd ht := by
    have h : ∀ n ∈ omitNames, ∀ d ∈ Γ.decl n, ∀ t ∈ d.types, t.anon = false := by decide
    exact h n hn d hd t ht
  sels n d t m hn hd ht hm := by
    have h : ∀ n ∈ omitNames, ∀ d ∈ Γ.decl n, ∀ t ∈ d.types, t.sels = [] := by decide
    rw [h n hn d hd t ht] at hm; cases hm
  keys n strict fields fd hn hd hf := by
    have h : ∀ n ∈ omitNames, ∀ d ∈ Γ.decl n, (match d with | .struct _ fields => fields.all (fun fd => plainb fd.tags.jsonName) | _ => true) = true := by
      decide
    exact plainb_iff (List.all_eq_true.1 (h n hn _ hd) fd hf)
  times := fmtTime_plain _
  timeTexts tm s h := by cases h; exact fmtTime_plain [] tm
  layouts _ _ _ _ _ _ _ := ⟨fmtTime_plain _, fmtTime_plain _ _⟩
  foreign n r w w' hn hd hw h := by cases h
  tame n r hd := .unsupp

set_option maxRecDepth 200000 in
theorem omit_zeroPackage : ZeroPackage Γ NoForeign (· ∈ omitNames) where
  closed n d t m hn hd ht hm := by
    have h : ∀ n ∈ omitNames, ∀ d ∈ Γ.decl n, ∀ t ∈ d.types, ∀ m ∈ t.names, m ∈ omitNames := by decide
    exact h n hn d hd t ht m hm
  generated n d hn hd := by
    have h : ∀ n ∈ omitNames, ∀ d ∈ Γ.decl n, isOk (genZero Γ 5 d) = true := by decide
    have := h n hn d hd
    cases hg : genZero Γ 5 d with
    | ok ir => exact ⟨5, ir, hg⟩
    | _ => rw [hg] at this; cases this
  foreign n v hn hd hx := hx.elim

set_option maxRecDepth 200000 in
theorem omit_noArrays : NoArrayTests Γ (· ∈ omitNames) := by
  constructor
  · intro n strict fields fd len t hn hd hf ht
    have h : ∀ n ∈ omitNames, ∀ d ∈ Γ.decl n, (match d with | .struct _ fields => fields.all (fun fd => !fd.typ.isFixedArray) | _ => true) = true := by decide
    have := List.all_eq_true.1 (h n hn _ hd) fd hf
    rw [ht] at this
    cases this
  · intro n len t hn hd
    have h : ∀ n ∈ omitNames, ∀ d ∈ Γ.decl n, (match d with | .alias (.array _ _) => false | _ => true) = true := by decide
    have := h n hn _ hd
    cases this

theorem omit_noTrouble : NoTrouble Γ (· ∈ omitNames) := by
  intro n strict fields fd k hn hd hf hk
  refine calm_noTrouble n strict fields fd k ?_ hd hf hk
  have h : ∀ n ∈ omitNames, n ∈ calmNames := by decide
  exact h n hn

/-- values of packages without trouble are fine -/
theorem fine_calm {S : Nat → Prop} (hP : EncPackage Γ noDoc S) (hT : NoTrouble Γ S) {n : Nat} (hn : S n) {v : GoVal}
    (hfl : ∀ p f, Written Γ (.named n) v (.prim p) (.float f) → NumText (Ext.fmtFloat f)) : Fine Γ noDoc (.named n) v where
  floats := hfl
  commas e m strict fields gs hp he hd := by
    have hg : EGood Γ S (.named n) := ⟨⟨by simp [TExpr.names, hn], rfl⟩, by simp [TExpr.sels]⟩
    intro i j fd fd' g g' hij hfi hgi hfj hgj hno _
    refine ⟨i, fd, g, hij, hfi, hgi, hno, ?_⟩
    rintro ⟨ho, k, hk, _, hk'⟩
    have := (hT m strict fields fd k ((part_good hP hg hp.toPart).name he) hd (List.mem_of_getElem? hfi) hk).1 hk'
    rw [ho] at this; cases this
  splices e m strict fields gs hp he hd := by
    have hg : EGood Γ S (.named n) := ⟨⟨by simp [TExpr.names, hn], rfl⟩, by simp [TExpr.sels]⟩
    intro i l fd g jv hfi hgi hn' hby hz henc
    exact absurd hn' ((hT m strict fields fd _ ((part_good hP hg hp.toPart).name he) hd (List.mem_of_getElem? hfi) (.method hby)).2 ⟨l, rfl⟩)

set_option maxRecDepth 200000 in
/-- a value of type 49 with a field that is zero and one that is not; the hypotheses of C23 are met -/
example : ∃ ms : List (List (Str × JV)), Json (.obj ms.flatten) (str "{\"l\":[],\"m\":null}") ∧
    ∀ m, ms[1]? = some m → (m = [] ↔ ZeroOf Γ (.prim .string) (.str [])) := by
  obtain ⟨ms, h1, h2, h3⟩ := C23_omitempty_partial omit_encPackage omit_zeroPackage omit_noArrays (n := 49)
    (gs := [.nil, .str [], .slice [] [], .struct [.int 0], .nil]) (by decide) rfl bare_typed
    (fine_calm omit_encPackage omit_noTrouble (by decide) bare_floats) ⟨5, rfl⟩
  exact ⟨ms, h1, fun m hm => (h3 1 _ _ m rfl rfl hm rfl (by decide) ⟨.scalar, .scalar (.self _)⟩ omissible_string (by intro h; cases h)).1⟩

/-! ### C24 -/

/-- a nil pointer to a struct in a field -/
example {m : List (Str × JV)} (h : Enc Γ noDoc (.field ⟨.star (.named 2), tag "b"⟩) .nil (.obj m)) : m = [(str "b", .null)] :=
  C24_nil_field_partial (k := .methodPtr 2) (.methodPtr (.struct (strict := false) (fields := base) rfl)) (.inr (.inr (.inl ⟨2, rfl⟩))) rfl noDoc_unique h
example : Enc Γ noDoc (.field ⟨.star (.named 2), tag "b"⟩) .nil (.obj [(str "b", .null)]) :=
  .empty (k := .methodPtr 2) (.methodPtr (.struct (strict := false) (fields := base) rfl)) .methodPtr rfl (.null _ (by simp))

/-- a nil pointer to a struct among elements -/
example {jv : JV} (h : Enc Γ noDoc (.elem true (.star (.named 2))) .nil jv) : jv = .null :=
  C24_nil_element_partial noDoc_unique (.inr ⟨fun p h => (by cases h with | named hd => cases hd), 2, _, .named 2, rfl, by simp [base]⟩) h

set_option maxRecDepth 200000 in
/-- nil receivers, nil slices, nil maps -/
example : str "null" = str "null" := C24_nil_receiver_partial enc_package (n := 0) (by decide) rfl (by simp [user]) ⟨5, rfl⟩
example : str "null" = str "null" := C24_named_nil enc_package noDoc_unique (n := 46) (by decide) rfl (.inl ⟨_, rfl⟩) ⟨5, rfl⟩

set_option maxRecDepth 200000 in
/-- C24 fails: a nil slice in a slice is an empty array, a nil pointer to a time is a date, a
nil receiver of a type without fields is an empty object -/
theorem C24_nil_not_null :
    Marshals Γ 46 (some (.slice [.nil, .slice [.int 1] []] [])) (.ok (str "[[],[1]]")) ∧
    Marshals Γ 45 (some (.struct [.nil])) (.ok (str "{\"t\":\"T0\"}")) ∧
    Marshals Γ 47 none (.ok (str "{}")) := ⟨⟨5, rfl⟩, ⟨5, rfl⟩, ⟨5, rfl⟩⟩

/-- C24 fails: a nil pointer to a UUID makes `MarshalTo` panic -/
theorem C24_nil_uuid_panics : ∀ w, ∃ k, (Γ.methods k 48).marshalTo (some (.struct [.nil])) w = .panic := fun _ => ⟨5, rfl⟩

/-! ### C25 -/

theorem sample_tame : ForeignTame Γ := fun _ _ _ => .unsupp

set_option maxRecDepth 200000 in
example : MarshalsTo Γ 2 (some (.struct [.int 7])) ⟨str "[1,", none⟩ none ⟨str "[1," ++ str "{\"rev\":7}", none⟩ :=
  C25_appends sample_tame (str "[1,") ⟨5, rfl⟩ rfl

/-! ### C32 -/

set_option maxRecDepth 200000 in
/-- C32 fails when writing: a field with the JSON name `-` is written under that name -/
theorem C32_written : Marshals Γ 15 (some (.struct [.str (str "s3cret")])) (.ok (str "{\"-\":\"s3cret\"}")) := ⟨5, rfl⟩

/-- C32 fails when writing: the same for `Enc` -/
example : Enc Γ noDoc (.field ⟨.prim .string, tag "-"⟩) (.str (str "s3cret")) (.obj [(str "-", .str (str "s3cret"))]) :=
  .scalarField (.scalar (.self _)) (fun h => (by cases h)) (.str _)

end VJ.Examples
